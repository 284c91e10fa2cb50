import Verif.Lemmas.WholeTables

/-! # The text of a tree with names, and the table that is read from it -/

namespace Verif.Whole

open Verif Verif.TyPb Verif.Expr Verif.Schema

variable {s : Setting} {bs : List Ext.Block} {names : List Str} {r : NRel}

/-! ## The text -/

theorem Fine.printed (h : Fine s bs names r) {e : Env} (hl : s.lib = e.lib)
    (hp : functionName s.functions = e.printName) (he : EnvFits e (known s r).free)
    {x : NRel} (hx : x ∈ subs r) (hk : TablesKnown e x.names x.own) (fresh : Place) :
    Rel.printRelation (printContext s fresh.up x.names x.own x.toNode.data)
        ⟨withNames x.names x.filled.body, x.own.emit⟩ =
      Rel.printRelation (relOf e fresh x).1 (relOf e fresh x).2 := by
  have g := h.good x hx
  have := printRelation_new (x := s) (fresh := fresh) g.readyFilled he hl hp
    (by rw [← hl]; exact h.bodyFilled hx) (hk.fill _) g.boundFilled
  rw [NRel.filled, printContext_fill, convData_fill] at this
  exact this

theorem mapM_map {α β γ : Type} (f : β → Outcome γ) (g : α → β) :
    ∀ l : List α, Outcome.mapM f (l.map g) = Outcome.mapM (fun x => f (g x)) l
  | [] => rfl
  | a :: l => by rw [List.map_cons, Outcome.mapM_cons, Outcome.mapM_cons, mapM_map f g l]

/-- Texts one by one. -/
theorem mapM_texts {α : Type} (f : α → Rel.Text) (g : α → Outcome Str) :
    ∀ (l : List α) (texts : List Str),
      (∀ x ∈ l, g x = (f x).bind fun r => if r.2.isEmpty then .ok r.1 else .throw .other) →
      l.map f = texts.map (fun t => .ok (t, [])) → Outcome.mapM g l = .ok texts
  | [], [], _, _ => rfl
  | [], _ :: _, _, h => by simp at h
  | _ :: _, [], _, h => by simp at h
  | x :: l, t :: ts, hg, h => by
    simp only [List.map_cons, List.cons.injEq] at h
    rw [Outcome.mapM, hg x (by simp), h.1, mapM_texts f g l ts (fun y hy => hg y (by simp [hy])) h.2]
    rfl

theorem Fine.root_fresh (h : Fine s bs names r) : Sec.rootName ∉ Pipe.names (skeleton r) := by
  intro hk
  have := (List.nodup_cons.mp h.keys.1).1
  simp only [List.mem_append, not_or] at this
  exact this.2.2 (mem_names.mp hk)

theorem Fine.names_nodup (h : Fine s bs names r) : (Pipe.names (skeleton r)).Nodup :=
  (names_subs r).nodup_iff.mpr h.relations_nodup

theorem names_length : (Pipe.names (skeleton r)).length = (subs r).length := by
  rw [(names_subs r).length_eq, List.length_map]

theorem Fine.text (h : Fine s bs names r) {sort : Ext.Sorter} {fuel : Nat}
    (hb : Ext.blocks sort s.functions = .ok bs) (hf : (subs r).length ≤ fuel) :
    treeText sort fuel s names Sec.rootName r = .ok (Sec.textOf (planOf s bs names r)) := by
  obtain ⟨texts, h1, h2⟩ := Sec.prints h.parts
  unfold treeText
  rw [(nodes_ok r h.tree.loose).1, Outcome.bind_ok, lines_eq h hf, Outcome.bind_ok, nodeList_subs]
  simp only
  rw [show (planOf s bs names r).relations = (subs r).map fun x => relOf (Whole.env0 s bs r) (place0 r x) x from rfl,
    List.map_map] at h1
  rw [mapM_map, mapM_texts _ _ (subs r) texts ?_ h1, Outcome.bind_ok, hb, Outcome.bind_ok,
    List.flatMap_map, List.flatMap_map]
  · exact h2
  · intro x hx
    simp only [Function.comp]
    rw [← h.printed rfl rfl h.env0 hx (h.tablesKnown0 hx) (place0 r x)]
    rw [← nodeList_subs]
    rfl
where
  lines_eq (h : Fine s bs names r) {fuel : Nat} (hf : (subs r).length ≤ fuel) :
      Pipe.lines (Pipe.convert Sec.rootName (skeleton r)) fuel =
        .ok ((Pipe.allSegs Sec.rootName (skeleton r)).map Pipe.lineOf) :=
    Pipe.lines_convert h.fits h.names_nodup h.root_fresh (by rw [names_length]; exact hf)

/-! ## The table -/

/-- The table that is read. -/
noncomputable def table (s : Setting) (bs : List Ext.Block) (names : List Str) (r : NRel) :
    Sec.State := Sec.tableOf (planOf s bs names r)

theorem table_ext : (table s bs names r).ext.table = readTable bs := by
  unfold table
  rw [Sec.ext_table]
  rfl

/-- The symbols with a name that is no key of a function. -/
theorem groupOf_function {k : Nat} {d : Sec.Def} {x : Sec.Symbol} (hx : x ∈ Sec.groupOf k d)
    (hn : ¬ ∃ b f, d = .space b ∧ f ∈ b.functions ∧ x = ⟨f.1, k, .function⟩) :
    (∃ n t, d = .schema n t ∧ (x.name = n ∨ x.name ∈ (Sec.kept t).names)) ∨
    (∃ n t, d = .source n t ∧ x.name ∈ (Sec.Def.source n t).names) ∨
    ∃ b, d = .space b ∧ b.uri = some x.name := by
  have hm : x.name ∈ d.names := by
    rw [← Sec.groupOf_names k d]
    exact List.mem_map.mpr ⟨x, hx, rfl⟩
  cases d with
  | schema n t => exact .inl ⟨n, t, rfl, List.mem_cons.mp hm⟩
  | source n t => exact .inr (.inl ⟨n, t, rfl, hm⟩)
  | space b =>
    refine .inr (.inr ⟨b, rfl, ?_⟩)
    simp only [Sec.groupOf, Sec.spaceSymbols, Ext.treeOf, List.mem_append, List.mem_map,
      Option.mem_toList, List.map_map] at hx
    rcases hx with ⟨u, hu, rfl⟩ | ⟨f, hf, rfl⟩
    · exact hu
    · exact absurd ⟨b, f, rfl, hf, rfl⟩ hn

theorem mem_groups : ∀ {ds : List Sec.Def} {k : Nat} {x : Sec.Symbol}, x ∈ Sec.groups k ds →
    ∃ d ∈ ds, ∃ j, x ∈ Sec.groupOf j d
  | [], _, _, h => by simp [Sec.groups] at h
  | d :: ds, k, x, h => by
    rcases List.mem_append.mp h with h | h
    · exact ⟨d, by simp, k, h⟩
    · obtain ⟨d', hd, j, hj⟩ := mem_groups h
      exact ⟨d', by simp [hd], j, hj⟩

theorem groups_mem : ∀ {ds : List Sec.Def} (k : Nat) {d : Sec.Def}, d ∈ ds →
    ∃ j, ∀ x ∈ Sec.groupOf j d, x ∈ Sec.groups k ds
  | [], _, _, h => by simp at h
  | d' :: ds, k, d, h => by
    rcases List.mem_cons.mp h with rfl | h
    · exact ⟨k, fun x hx => List.mem_append_left _ hx⟩
    · obtain ⟨j, hj⟩ := groups_mem (k + 1) h
      exact ⟨j, fun x hx => List.mem_append_right _ (hj x hx)⟩

theorem Fine.function_symbol (h : Fine s bs names r) {f : Ext.FunSym}
    (hf : f ∈ s.functions.funs) : ∃ x, Sec.lookup (table s bs names r).symbols f.symbol = some x ∧
      x.info = .function := by
  obtain ⟨hname, -, hmade, hno, huri⟩ := h.functions f hf
  -- There is one.
  have hw : (f.space.bind (Ext.uriOf s.functions.spaces), f.symbol, f.name) ∈ Ext.written bs :=
    h.funs.written.mem_iff.mpr (List.mem_map.mpr ⟨f, hf, rfl⟩)
  obtain ⟨b, hb, hwb⟩ := List.mem_flatMap.mp hw
  obtain ⟨g, hg, eg⟩ := List.mem_map.mp hwb
  simp only [Prod.mk.injEq] at eg
  have hd : Sec.Def.space b ∈ (planOf s bs names r).defs := by
    simp only [Sec.Plan.defs, List.mem_append, List.mem_map]
    exact .inr (.inr ⟨b, hb, rfl⟩)
  obtain ⟨j, hj⟩ := groups_mem (Sec.start (planOf s bs names r)) hd
  have hx : (⟨g.1, j, .function⟩ : Sec.Symbol) ∈ (table s bs names r).symbols := by
    unfold table
    rw [Sec.tableOf_symbols]
    refine List.mem_append_left _ (hj _ ?_)
    simp only [Sec.groupOf, Sec.spaceSymbols, Ext.treeOf, List.mem_append, List.mem_map]
    exact .inr ⟨_, ⟨g, hg, rfl⟩, rfl⟩
  have hs : (Sec.lookup (table s bs names r).symbols f.symbol).isSome := by
    unfold Sec.lookup
    rw [List.find?_isSome]
    exact ⟨_, hx, by simp [eg.2.1]⟩
  obtain ⟨x, e⟩ := Option.isSome_iff_exists.mp hs
  refine ⟨x, e, ?_⟩
  have hxm : x ∈ (table s bs names r).symbols := List.mem_of_find?_eq_some e
  have hxn : x.name = f.symbol := by
    have := List.find?_some e
    simpa using this
  unfold table at hxm
  rw [Sec.tableOf_symbols] at hxm
  rcases List.mem_append.mp hxm with hxm | hxm
  · obtain ⟨d, hd, k, hk⟩ := mem_groups hxm
    by_cases hn : ∃ b f, d = .space b ∧ f ∈ b.functions ∧ x = ⟨f.1, k, .function⟩
    · obtain ⟨_, _, -, -, rfl⟩ := hn
      rfl
    · exfalso
      rcases groupOf_function hk hn with ⟨n, t, rfl, hx⟩ | ⟨n, t, rfl, hx⟩ | ⟨b, rfl, hx⟩
      · rcases mem_defs hd with ⟨e, he, hed⟩ | ⟨e, he, hed⟩ | ⟨b, hb, hed⟩
        · simp only [Sec.Def.schema.injEq] at hed
          obtain ⟨rfl, rfl⟩ := hed
          rcases hx with hx | hx
          · exact hmade (hxn ▸ hx ▸ h.schema_made he)
          · obtain ⟨y, hy, -, e2⟩ := h.schema_names he
            rw [e2, hxn] at hx
            exact (hno y hy).1 hx
        · simp at hed
        · simp at hed
      · rcases mem_defs hd with ⟨e, he, hed⟩ | ⟨e, he, hed⟩ | ⟨b, hb, hed⟩
        · simp at hed
        · simp only [Sec.Def.source.injEq] at hed
          obtain ⟨rfl, rfl⟩ := hed
          obtain ⟨y, hy, e1, e2⟩ := mem_sources he
          have hso := h.sourceOk hy e2
          rw [hxn] at hx
          obtain ⟨n, src⟩ := e
          simp only at hso hx e2
          cases hso with
          | named ns _ _ =>
            rcases List.mem_cons.mp hx with hx | hx
            · exact hmade (hx ▸ h.source_made he)
            · exact (hno y hy).2 (by rw [Own.tables, e2]; exact hx)
          | files g _ =>
            rcases List.mem_cons.mp hx with hx | hx
            · exact hmade (hx ▸ h.source_made he)
            · rw [List.map_singleton, List.mem_singleton] at hx
              exact fileKey_not_name g (hx ▸ hname)
        · simp at hed
      · rcases mem_defs hd with ⟨e, he, hed⟩ | ⟨e, he, hed⟩ | ⟨b', hb, hed⟩
        · simp at hed
        · simp at hed
        · simp only [Sec.Def.space.injEq] at hed
          subst hed
          exact huri b hb (hxn ▸ hx)
  · exfalso
    rcases List.mem_append.mp hxm with hxm | hxm
    · have hm : x.name ∈ (Sec.relSymbols (Sec.pipelineLines (planOf s bs names r).pipelines).length
          (Sec.trees (planOf s bs names r))).map (·.name) := List.mem_map.mpr ⟨x, hxm, rfl⟩
      rw [Sec.relSymbols_names, Sec.trees_names h.parts, relationNames_plan, hxn] at hm
      exact hmade (h.relation_made hm)
    · unfold Sec.rootSymbols at hxm
      split at hxm
      · simp at hxm
      · simp only [List.mem_cons, List.not_mem_nil, or_false] at hxm
        rcases hxm with rfl | rfl
        · exact hmade (hxn ▸ rootName_made)
        · exact rootNames_not_name (by rw [show Sec.rootNamesName = f.symbol from hxn]; exact hname)

/-! ## The trees of the relations -/

/-- The tree a relation is read as. -/
noncomputable def treeOf (s : Setting) (bs : List Ext.Block) (r x : NRel) : Rel.RelTree :=
  (Sec.relLine (relOf (env0 s bs r) (place0 r x) x).1 (relOf (env0 s bs r) (place0 r x) x).2).2

theorem trees_plan : Sec.trees (planOf s bs names r) = (subs r).map (treeOf s bs r) := by
  unfold Sec.trees planOf
  rw [List.map_map]
  rfl

theorem Fine.line0 (h : Fine s bs names r) {x : NRel} (hx : x ∈ subs r) :
    Sec.RelLine (relOf (Whole.env0 s bs r) (place0 r x) x).1
      (relOf (Whole.env0 s bs r) (place0 r x) x).2
      (Sec.relLine (relOf (Whole.env0 s bs r) (place0 r x) x).1
        (relOf (Whole.env0 s bs r) (place0 r x) x).2) :=
  Sec.relLine_ok h.numerals (h.readable0 hx)

theorem lookup_relSymbols : ∀ {ts : List Rel.RelTree} (k : Nat) (rest : List Sec.Symbol)
    {t : Rel.RelTree}, t ∈ ts → (ts.map fun t => t.ref.id).Nodup →
    ∃ j, Sec.lookup (Sec.relSymbols k ts ++ rest) t.ref.id =
      some ⟨t.ref.id, j, .relation (Enum.readRelationType t.type)⟩
  | [], _, _, _, h, _ => by simp at h
  | u :: ts, k, rest, t, h, hn => by
    rw [List.map_cons, List.nodup_cons] at hn
    rcases List.mem_cons.mp h with rfl | h
    · exact ⟨k, by simp [Sec.relSymbols, Sec.lookup]⟩
    · obtain ⟨j, hj⟩ := lookup_relSymbols (k + 1) rest h hn.2
      refine ⟨j, ?_⟩
      have : u.ref.id ≠ t.ref.id := fun e => hn.1 (e ▸ List.mem_map.mpr ⟨t, h, rfl⟩)
      rw [← hj]
      simp [Sec.relSymbols, Sec.lookup, this]

theorem Fine.not_group (h : Fine s bs names r) {n : Str} (hn : ¬ DefName s bs r n) (k : Nat) :
    n ∉ (Sec.groups k (planOf s bs names r).defs).map (·.name) := by
  intro hk
  obtain ⟨x, hx, rfl⟩ := List.mem_map.mp hk
  obtain ⟨d, hd, j, hj⟩ := mem_groups hx
  refine hn (h.defName hd ?_)
  rw [← Sec.groupOf_names j d]
  exact List.mem_map.mpr ⟨x, hj, rfl⟩

theorem trees_ids (h : Fine s bs names r) :
    ((subs r).map (treeOf s bs r)).map (fun t => t.ref.id) = relNames r := by
  rw [← trees_plan (names := names), Sec.trees_names h.parts, relationNames_plan]

theorem Fine.tree_name (h : Fine s bs names r) {x : NRel} (hx : x ∈ subs r) :
    (treeOf s bs r x).ref.id = x.names.rel := by
  exact (h.line0 hx).name

theorem readKind_kindText (k : Enum.RelType) :
    Enum.readRelationType (Rel.kindText k) = some k := by
  cases k <;> decide

theorem Fine.tree_kind (h : Fine s bs names r) {x : NRel} (hx : x ∈ subs r) :
    Enum.readRelationType (treeOf s bs r x).type = some x.own.body.kind := by
  have := (h.line0 hx).kind
  unfold treeOf
  rw [this, readKind_kindText]
  congr 1
  show (newRel _ _ _ _).body.kind = _
  rw [newRel, kind_renumber, kind_withNames, NRel.filled, Own.fill, fillBody_def, kind_relabel]

theorem Fine.lookup_relation (h : Fine s bs names r) {x : NRel} (hx : x ∈ subs r) :
    ∃ j, Sec.lookup (table s bs names r).symbols x.names.rel =
      some ⟨x.names.rel, j, .relation (some x.own.body.kind)⟩ := by
  have hm : x.names.rel ∈ relNames r := List.mem_map.mpr ⟨x, hx, rfl⟩
  unfold table
  rw [Sec.tableOf_symbols, Sec.lookup_append_right (h.not_group (h.relation_no_def hm) _),
    Sec.restOf, trees_plan]
  obtain ⟨j, hj⟩ := lookup_relSymbols (ts := (subs r).map (treeOf s bs r))
    (Sec.pipelineLines (planOf s bs names r).pipelines).length
    (Sec.rootSymbols ((Sec.pipelineLines (planOf s bs names r).pipelines).length +
      ((subs r).map (treeOf s bs r)).length) (planOf s bs names r).rootNames)
    (List.mem_map.mpr ⟨x, hx, rfl⟩) (by rw [trees_ids (names := names) h]; exact h.relations_nodup)
  rw [h.tree_name hx, h.tree_kind hx] at hj
  exact ⟨j, hj⟩

/-- The environment of the reader. -/
noncomputable def env1 (s : Setting) (bs : List Ext.Block) (names : List Str) (r : NRel)
    (g : Pipe.Table) : Env :=
  env s bs (anchorOf (table s bs names r)) (relationNamed (table s bs names r).symbols g)
    (Sec.sourceSymbol (table s bs names r).symbols) (Sec.columnFields (table s bs names r).symbols)

theorem Fine.env1 (h : Fine s bs names r) {g : Pipe.Table} {outer : Nat → Int → Prop} :
    EnvFits (Whole.env1 s bs names r g) ((known s r).seeing outer) := by
  refine h.env (fun f hf => ?_) fun n hn => ?_
  · obtain ⟨x, e1, e2⟩ := h.function_symbol hf
    unfold anchorOf
    rw [e1]
    simp only [e2]
    rw [table_ext]
    rfl
  · obtain ⟨x, hx, rfl⟩ := List.mem_map.mp hn
    obtain ⟨j, hj⟩ := h.lookup_relation hx
    unfold relationNamed
    rw [hj]
    rfl

theorem Fine.tablesKnown1 (h : Fine s bs names r) {g : Pipe.Table} {x : NRel} (hx : x ∈ subs r) :
    TablesKnown (Whole.env1 s bs names r g) x.names x.own :=
  h.tablesKnown (fun _ he => (Sec.sourceOf_table h.planOk he).2)
    (fun _ he => Sec.columnFields_table h.planOk he) hx

/-- The tree is read with the table, whatever names are made up for its expressions. -/
theorem Fine.line (h : Fine s bs names r) {g : Pipe.Table} {x : NRel} {up : List NRel}
    (hpl : Placed r x up) {p : Place} (hp : p.up = upOf r x) (ho : Outers up p.outer) :
    ∃ l, Sec.RelLine (relOf (Whole.env1 s bs names r g) p x).1
      (relOf (Whole.env1 s bs names r g) p x).2 (l, treeOf s bs r x) := by
  have hx := hpl.subs
  have hz := h.line0 hx
  obtain ⟨y, hy⟩ := Sec.exists_relLine (c := (relOf (Whole.env1 s bs names r g) p x).1) h.numerals
    (h.readable rfl h.env1 hpl (h.tablesKnown1 hx) hp ho)
  have ht : (Sec.relLine (relOf (Whole.env0 s bs r) (place0 r x) x).1
      (relOf (Whole.env0 s bs r) (place0 r x) x).2).1.text = y.1.text := by
    have h1 := hy.text
    have h2 := hz.text
    have h3 := h.printed rfl rfl h.env1 hx (h.tablesKnown1 (g := g) hx) p
    rw [hp] at h3
    rw [← h.printed rfl rfl h.env0 hx (h.tablesKnown0 hx) (place0 r x),
      show (place0 r x).up = upOf r x from rfl, h3, h1] at h2
    injection h2 with h2
    injection h2 with h2
    exact h2.symm
  have hd := Sec.goodLine_unique hz.good hy.good ht
  rw [hz.detail, hy.detail] at hd
  injection hd with hd
  exact ⟨y.1, by unfold treeOf; rw [hd]; exact hy⟩

/-- The subqueries the tree asks for. -/
theorem Fine.refs (h : Fine s bs names r) {x : NRel} (hx : x ∈ subs r) :
    refsOf (treeOf s bs r x) = x.queries.map (·.names.rel) := by
  have := (h.line0 hx).refs
  unfold refsOf treeOf
  rw [this, ← (h.good x hx).asked]
  show Rel.askedBody (renumberBody _ (withNames x.names x.filled.body)) = _
  rw [askedBody_renumber, askedBody_withNames]

end Verif.Whole
