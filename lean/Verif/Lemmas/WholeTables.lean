import Verif.Lemmas.WholePlaces
import Verif.Prop.Sections

/-! # The text of a tree with names is one that can be read -/

namespace Verif.Whole

open Verif Verif.TyPb Verif.Expr Verif.Schema

/-- A tree with names and its functions, of which text can express everything. -/
structure Fine (s : Setting) (bs : List Ext.Block) (names : List Str) (r : NRel) : Prop where
  numerals : s.lib.Numerals
  tree : TreeFits s.lib (tableKnown s.functions) [] (erase r)
  named : AllNamed r
  labelled : Labelled (Sec.rootName :: labels r)
  ids : ∀ n ∈ names, Ext.IsName n
  columns : ∀ x ∈ subs r, ∀ c ∈ x.own.columns, ¬ MadeUp c
  tables : ∀ x ∈ subs r, ∀ t ∈ x.own.tables, ¬ MadeUp t ∧ t ≠ Sec.rootNamesName ∧
    ∀ y ∈ subs r, t ∉ y.own.fileKeys
  files : ((subs r).flatMap fun x => x.own.fileKeys).Nodup
  funs : FunsFit s.functions bs
  blocks : ∀ b ∈ bs, Sec.BlockOk b
  uris : ∀ b ∈ bs, ∀ u, b.uri = some u → ¬ MadeUp u ∧ u ≠ Sec.rootNamesName
  functions : ∀ f ∈ s.functions.funs, Ext.IsName f.symbol ∧
    f.symbol.map toLower ≠ "ifthen".toList ∧ ¬ MadeUp f.symbol ∧
    (∀ x ∈ subs r, f.symbol ∉ x.own.columns ∧ f.symbol ∉ x.own.tables) ∧
    ∀ b ∈ bs, b.uri ≠ some f.symbol

/-- What a list of sources says of a name. -/
def sourceIn (l : List (Str × Sec.Source)) (n : Str) : Option Rel.SourceSymbol :=
  (l.find? fun e => e.1 = n).map fun e => Sec.sourceKind e.2

/-- What a list of schemas says of a name. -/
def schemaIn (l : List (Str × Sec.NamedStruct)) (n : Str) : Option (List Field) :=
  (l.find? fun e => e.1 = n).map fun e => Sec.schemaFields n e.2

/-- The environment that is known without reading. -/
def env0 (s : Setting) (bs : List Ext.Block) (r : NRel) : Env :=
  env s bs (anchorIn (readTable bs)) (fun n => if n ∈ relNames r then some true else none)
    (sourceIn (sources r)) (schemaIn (schemas r))

/-- The fields of the relations around a relation, for the printer. -/
def upOf (r x : NRel) : List RelData := (ownersOf (skeleton r) x.names.rel).map (dataIn (nodeList r))

/-- The fields of the relations around a relation, for a reader that knows them. -/
def outerOf (r x : NRel) : List RelData :=
  (ownersOf (skeleton r) x.names.rel).map fun n =>
    (((subs r).find? fun y => y.names.rel = n).map fun y =>
      ⟨false, y.inCols.map Col.read, [], []⟩).getD ⟨false, [], [], []⟩

/-- The place of a relation for the printer. -/
def place0 (r x : NRel) : Place := ⟨fun _ => [], false, upOf r x, outerOf r x⟩

/-- A relation with what it is printed and read with. -/
def relOf (e : Env) (fresh : Place) (x : NRel) : Rel.RelContext × Rel.PbRel :=
  (ctx e x.names x.filled x.inCols fresh, newRel e x.names x.filled x.inCols)

/-- The plan with its relations as they will be read. -/
def planOf (s : Setting) (bs : List Ext.Block) (names : List Str) (r : NRel) : Sec.Plan where
  pipelines := (Pipe.allSegs Sec.rootName (skeleton r)).map Pipe.lineOf
  relations := (subs r).map fun x => relOf (env0 s bs r) (place0 r x) x
  roots := [names]
  schemas := schemas r
  sources := sources r
  blocks := bs

mutual
theorem columnsOwn_of : ∀ r, (∀ x ∈ subs r, ∀ c ∈ x.own.columns, ¬ MadeUp c) → ColumnsOwn r
  | .node n o ins, h => by
    rw [subs] at h
    exact ⟨h (.node n o ins) (by simp), columnsOwnL_of ins fun x hx => h x (by simp [hx])⟩
theorem columnsOwnL_of : ∀ rs, (∀ x ∈ subsL rs, ∀ c ∈ x.own.columns, ¬ MadeUp c) → ColumnsOwnL rs
  | [], _ => trivial
  | r :: rs, h => by
    rw [subsL] at h
    exact ⟨columnsOwn_of r fun x hx => h x (by simp [hx]),
      columnsOwnL_of rs fun x hx => h x (by simp [hx])⟩
end

variable {s : Setting} {bs : List Ext.Block} {names : List Str} {r : NRel}

theorem Fine.labels (h : Fine s bs names r) : Labelled (labels r) :=
  ⟨(List.nodup_cons.mp h.labelled.once).2, fun l hl => h.labelled.made l (by simp [hl])⟩

theorem Fine.given (h : Fine s bs names r) : Given s.lib (tableKnown s.functions).free r :=
  ⟨h.tree.loose, h.named, columnsOwn_of r h.columns, h.labels⟩

theorem Fine.good (h : Fine s bs names r) :
    ∀ x ∈ subs r, Good s.lib (tableKnown s.functions).free x := fun _ hx => h.given.good hx

/-- What the expressions of the tree may mention, with the names of subqueries. -/
def known (s : Setting) (r : NRel) : Known := (tableKnown s.functions).names fun n => n ∈ relNames r

theorem Fine.label_made (h : Fine s bs names r) {k} (hk : k ∈ relNames r) : MadeUp k :=
  h.labels.made k ((keys_labels h.labelled).2 k
    (List.mem_append_right _ (List.mem_append_right _ hk)))

theorem Fine.bodyFilled (h : Fine s bs names r) {x : NRel} (hx : x ∈ subs r) :
    BodyFits s.lib (known s r).free (x.inCols.map Col.isColumn) x.filled.emit x.filled.body :=
  (h.good x hx).bodyFilled (rel := fun n => n ∈ relNames r)
    fun _ hy => List.mem_map.mpr ⟨_, queries_subs hx hy, rfl⟩

/-- The relation may refer to relations around it. -/
theorem Fine.bodyPlaced (h : Fine s bs names r) {x : NRel} {up : List NRel} (hx : Placed r x up) :
    BodyFits s.lib ((known s r).within (widths up)) (x.inCols.map Col.isColumn) x.filled.emit
      x.filled.body := by
  have g := h.good x hx.subs
  refine bodyFits_fill (rel := fun n => n ∈ relNames r) (treeFits_body (hx.fits h.tree))
    g.queryCount ?_
  intro n hm
  rw [g.queryNames] at hm
  obtain ⟨y, hy, rfl⟩ := List.mem_map.mp hm
  exact List.mem_map.mpr ⟨_, queries_subs hx.subs hy, rfl⟩

theorem Fine.env (h : Fine s bs names r) {anchor relation source schema}
    (ha : ∀ f ∈ s.functions.funs, anchor f.symbol = anchorIn (readTable bs) f.symbol)
    (hr : ∀ n ∈ relNames r, relation n = some true) {outer : Nat → Int → Prop} :
    EnvFits (env s bs anchor relation source schema) ((known s r).seeing outer) :=
  env_fits h.funs (fun f hf => ⟨(h.functions f hf).1, (h.functions f hf).2.1⟩) ha
    fun n hn => ⟨hr n hn, (h.label_made hn).name, (h.label_made hn).notEnum⟩

theorem Fine.env0 (h : Fine s bs names r) {outer : Nat → Int → Prop} :
    EnvFits (Whole.env0 s bs r) ((known s r).seeing outer) :=
  h.env (fun _ _ => rfl) fun _ hn => if_pos hn

/-! ## Sources and schemas -/

theorem mem_schemas {e : Str × Sec.NamedStruct} (h : e ∈ schemas r) :
    ∃ x ∈ subs r, x.names.schema = some e.1 ∧ x.own.schema = some e.2 := by
  obtain ⟨x, hx, he⟩ := List.mem_flatMap.mp h
  refine ⟨x, hx, ?_⟩
  simp only [Node.schemas, NRel.toNode] at he
  split at he
  · next e1 e2 =>
    rw [List.mem_singleton] at he
    subst he
    exact ⟨e1, e2⟩
  · simp at he

theorem mem_sources {e : Str × Sec.Source} (h : e ∈ sources r) :
    ∃ x ∈ subs r, x.names.source = some e.1 ∧ x.own.source = some e.2 := by
  obtain ⟨x, hx, he⟩ := List.mem_flatMap.mp h
  refine ⟨x, hx, ?_⟩
  simp only [Node.sources, NRel.toNode] at he
  split at he
  · next e1 e2 =>
    rw [List.mem_singleton] at he
    subst he
    exact ⟨e1, e2⟩
  · simp at he

theorem schemas_mem {x : NRel} (hx : x ∈ subs r) {n : Str} {t : Sec.NamedStruct}
    (h1 : x.names.schema = some n) (h2 : x.own.schema = some t) : (n, t) ∈ schemas r := by
  refine List.mem_flatMap.mpr ⟨x, hx, ?_⟩
  simp [Node.schemas, NRel.toNode, h1, h2]

theorem sources_mem {x : NRel} (hx : x ∈ subs r) {n : Str} {t : Sec.Source}
    (h1 : x.names.source = some n) (h2 : x.own.source = some t) : (n, t) ∈ sources r := by
  refine List.mem_flatMap.mpr ⟨x, hx, ?_⟩
  simp [Node.sources, NRel.toNode, h1, h2]

/-- The schema of a relation that has one. -/
theorem Fine.schemaFits (h : Fine s bs names r) {x : NRel} (hx : x ∈ subs r) {t : Sec.NamedStruct}
    (ht : x.own.schema = some t) : SchemaFits t := by
  have := (h.good x hx).tables
  unfold TablesFit at this
  split at this
  · obtain ⟨⟨t', e, h1⟩, -⟩ := this
    rw [ht] at e
    exact Option.some.inj e ▸ h1
  · rw [ht] at this
    exact absurd this.1 (by simp)

theorem Fine.sourceOk (h : Fine s bs names r) {x : NRel} (hx : x ∈ subs r) {t : Sec.Source}
    (ht : x.own.source = some t) : Sec.SourceOk t := by
  have := (h.good x hx).tables
  unfold TablesFit at this
  split at this
  · obtain ⟨-, ⟨t', e, h1⟩⟩ := this
    rw [ht] at e
    exact Option.some.inj e ▸ h1
  · rw [ht] at this
    exact absurd this.2 (by simp)

theorem types_some (names : List Str) (ts : List PbType) (q : Nullability) :
    (⟨names, some (ts, q)⟩ : Sec.NamedStruct).types = ts := rfl

theorem kept_plain {t : Sec.NamedStruct} (h : Sec.Plain t) : Sec.kept t = t := by
  obtain ⟨names, struct⟩ := t
  have h1 := h.lengths
  have h2 := h.struct
  unfold Sec.kept
  simp only [Sec.NamedStruct.mk.injEq] at h1 h2 ⊢
  rw [← h1, List.take_length]
  refine ⟨rfl, ?_⟩
  rw [h2]
  by_cases hn : names = []
  · simp [hn]
  · rw [if_neg hn, if_neg, h1, types_some, List.take_length]
    rintro (h | h)
    · exact hn h
    · rw [types_some] at h
      rw [h] at h1
      simp at h1
      exact hn h1

theorem tableCols_read {n : Names} {o : Own} {m : Str} {t : Sec.NamedStruct}
    (hm : n.schema = some m) (ho : o.schema = some t) (hp : Sec.Plain t) :
    Sec.schemaFields m t = (tableCols n o).map Col.read := by
  unfold Sec.schemaFields tableCols Own.columns
  rw [kept_plain hp, ho, hm, List.mapIdx_eq_zipIdx_map, List.map_map]
  rfl

/-- An environment that knows the sources and schemas of the plan. -/
theorem Fine.tablesKnown (h : Fine s bs names r) {e : Env}
    (h1 : ∀ x ∈ sources r, e.source x.1 = some (Sec.sourceKind x.2))
    (h2 : ∀ x ∈ schemas r, e.schema x.1 = some (Sec.schemaFields x.1 x.2)) {x : NRel}
    (hx : x ∈ subs r) : TablesKnown e x.names x.own := by
  intro hr
  have g := h.good x hx
  obtain ⟨⟨m, hm⟩, l, hl⟩ := g.named.reads hr
  have ht := g.tables
  unfold TablesFit at ht
  rw [if_pos hr] at ht
  obtain ⟨⟨t, e1, h3⟩, u, e2, h4⟩ := ht
  refine ⟨l, m, hl, hm, ?_, ?_⟩
  · have := h1 (l, u) (sources_mem hx hl e2)
    simp only at this
    rw [this]
    cases h4 with
    | named _ _ _ => exact .inl rfl
    | files _ _ => exact .inr rfl
  · have := h2 (m, t) (schemas_mem hx hm e1)
    simp only at this
    rw [this, tableCols_read hm e1 h3.plain]

theorem Fine.keys (h : Fine s bs names r) :
    (Sec.rootName :: ((schemas r).map (·.1) ++ ((sources r).map (·.1) ++ relNames r))).Nodup ∧
      ∀ k ∈ (schemas r).map (·.1) ++ ((sources r).map (·.1) ++ relNames r), k ∈ Whole.labels r :=
  keys_labels h.labelled

theorem Fine.schemas_nodup (h : Fine s bs names r) : ((schemas r).map (·.1)).Nodup :=
  (List.nodup_append.mp (List.nodup_cons.mp h.keys.1).2).1

theorem Fine.sources_nodup (h : Fine s bs names r) : ((sources r).map (·.1)).Nodup :=
  (List.nodup_append.mp (List.nodup_append.mp (List.nodup_cons.mp h.keys.1).2).2.1).1

theorem Fine.relations_nodup (h : Fine s bs names r) : (relNames r).Nodup :=
  (List.nodup_append.mp (List.nodup_append.mp (List.nodup_cons.mp h.keys.1).2).2.1).2.1

theorem Fine.tablesKnown0 (h : Fine s bs names r) {x : NRel} (hx : x ∈ subs r) :
    TablesKnown (Whole.env0 s bs r) x.names x.own := by
  refine h.tablesKnown ?_ ?_ hx
  · intro e he
    show sourceIn (sources r) e.1 = _
    unfold sourceIn
    rw [find_unique (key := Prod.fst) h.sources_nodup he]
    rfl
  · intro e he
    show schemaIn (schemas r) e.1 = _
    unfold schemaIn
    rw [find_unique (key := Prod.fst) h.schemas_nodup he]
    rfl

/-! ## The plan can be written -/

theorem Fine.readable (h : Fine s bs names r) {e : Env} (hl : e.lib = s.lib)
    (he : ∀ {outer}, EnvFits e ((known s r).seeing outer)) {x : NRel} {up : List NRel}
    (hx : Placed r x up) (hk : TablesKnown e x.names x.own) {fresh : Place}
    (hu : fresh.up = upOf r x) (ho : Outers up fresh.outer) :
    Rel.RelReadable (relOf e fresh x).1 (relOf e fresh x).2 := by
  have g := h.good x hx.subs
  have hp := hx.placeFits (fn' := known s r) h.given (p := fresh)
    (hu.trans (hx.printed h.relations_nodup)) ho
  refine relReadable g.readyFilled he (fn := (known s r).within (widths up)) ?_
    (by rw [hl]; exact h.bodyPlaced hx) (hk.fill _) g.boundFilled
  rw [NRel.filled, Own.fill, fillBody_def, newCols_relabel]
  exact hp

theorem Fine.outers0 (h : Fine s bs names r) {x : NRel} {up : List NRel} (hx : Placed r x up) :
    Outers up (place0 r x).outer := by
  intro k y hy _
  refine ⟨false, [], ?_⟩
  show (outerOf r x)[k]? = _
  unfold outerOf
  rw [hx.ownersOf h.relations_nodup, List.map_map, List.getElem?_map, hy]
  have hm := hx.mem y (List.mem_of_getElem? hy)
  have hf := find_unique (key := fun x : NRel => x.names.rel) h.relations_nodup hm
  simp only [Option.map_some, Function.comp, hf, Option.getD_some]

theorem Fine.readable0 (h : Fine s bs names r) {x : NRel} (hx : x ∈ subs r) :
    Rel.RelReadable (relOf (Whole.env0 s bs r) (place0 r x) x).1
      (relOf (Whole.env0 s bs r) (place0 r x) x).2 := by
  obtain ⟨up, hp⟩ := placed_subs hx
  exact h.readable rfl h.env0 hp (h.tablesKnown0 hx) rfl (h.outers0 hp)

theorem context_eq (x : NRel) : (planOf s bs names r).context
    (relOf (env0 s bs r) (place0 r x) x).1 = (relOf (env0 s bs r) (place0 r x) x).1 := rfl

theorem brace_not_name {t : Str} : ¬ Ext.IsName ('{' :: t) := by
  intro h
  exact absurd (name_chars h '{' (by simp)) (by decide)

theorem fileKey_not_name (f : Sec.File) : ¬ Ext.IsName (Sec.fileKey f) := by
  unfold Sec.fileKey
  exact brace_not_name

theorem fileKey_ne_rootNames (f : Sec.File) : Sec.fileKey f ≠ Sec.rootNamesName := by
  unfold Sec.fileKey
  intro h
  have : (Sec.rootNamesName).head? = some 'r' := by decide
  rw [← h] at this
  simp at this

theorem Fine.block_function (h : Fine s bs names r) {b : Ext.Block} (hb : b ∈ bs) {f : Str × Str}
    (hf : f ∈ b.functions) : ∃ g ∈ s.functions.funs, g.symbol = f.1 ∧ g.name = f.2 := by
  have hm : (b.uri, f.1, f.2) ∈ Ext.written bs :=
    List.mem_flatMap.mpr ⟨b, hb, List.mem_map.mpr ⟨f, hf, rfl⟩⟩
  obtain ⟨g, hg, e⟩ := List.mem_map.mp (h.funs.written.mem_iff.mp hm)
  simp only [Prod.mk.injEq] at e
  exact ⟨g, hg, e.2.1, e.2.2⟩

theorem mem_defs {d : Sec.Def} (h : d ∈ (planOf s bs names r).defs) :
    (∃ e ∈ schemas r, d = .schema e.1 e.2) ∨ (∃ e ∈ sources r, d = .source e.1 e.2) ∨
      ∃ b ∈ bs, d = .space b := by
  simp only [Sec.Plan.defs, List.mem_append, List.mem_map] at h
  rcases h with ⟨e, he, rfl⟩ | ⟨e, he, rfl⟩ | ⟨b, hb, rfl⟩
  · exact .inl ⟨e, he, rfl⟩
  · exact .inr (.inl ⟨e, he, rfl⟩)
  · exact .inr (.inr ⟨b, hb, rfl⟩)

theorem Fine.key_name (h : Fine s bs names r) {k : Str}
    (hk : k ∈ (schemas r).map (·.1) ++ ((sources r).map (·.1) ++ relNames r)) : MadeUp k :=
  h.labels.made k (h.keys.2 k hk)

theorem Fine.schema_made (h : Fine s bs names r) {e} (he : e ∈ schemas r) : MadeUp e.1 :=
  h.key_name (List.mem_append_left _ (List.mem_map.mpr ⟨e, he, rfl⟩))

theorem Fine.source_made (h : Fine s bs names r) {e} (he : e ∈ sources r) : MadeUp e.1 :=
  h.key_name (List.mem_append_right _ (List.mem_append_left _ (List.mem_map.mpr ⟨e, he, rfl⟩)))

theorem Fine.relation_made (h : Fine s bs names r) {k} (hk : k ∈ relNames r) : MadeUp k :=
  h.key_name (List.mem_append_right _ (List.mem_append_right _ hk))

theorem rootName_made : MadeUp Sec.rootName := ⟨_, by decide, 0, rfl⟩

/-- The names of a definition, and what they are. -/
inductive DefName (s : Setting) (bs : List Ext.Block) (r : NRel) (k : Str) : Prop
  | schema {e} : e ∈ schemas r → k = e.1 → DefName s bs r k
  | column {x} : x ∈ subs r → k ∈ x.own.columns → DefName s bs r k
  | source {e} : e ∈ sources r → k = e.1 → DefName s bs r k
  | table {x} : x ∈ subs r → k ∈ x.own.tables → DefName s bs r k
  | file {f : Sec.File} {x} : x ∈ subs r → Sec.fileKey f ∈ x.own.fileKeys → k = Sec.fileKey f →
    DefName s bs r k
  | uri {b} : b ∈ bs → b.uri = some k → DefName s bs r k
  | function {f} : f ∈ s.functions.funs → k = f.symbol → DefName s bs r k

theorem Fine.schema_names (h : Fine s bs names r) {e} (he : e ∈ schemas r) :
    ∃ x ∈ subs r, x.own.schema = some e.2 ∧ (Sec.kept e.2).names = x.own.columns := by
  obtain ⟨x, hx, h1, h2⟩ := mem_schemas he
  refine ⟨x, hx, h2, ?_⟩
  rw [kept_plain (h.schemaFits hx h2).plain, Own.columns, h2]
  rfl

theorem Fine.defName (h : Fine s bs names r) {d : Sec.Def} (hd : d ∈ (planOf s bs names r).defs)
    {k : Str} (hk : k ∈ d.names) : DefName s bs r k := by
  rcases mem_defs hd with ⟨e, he, rfl⟩ | ⟨e, he, rfl⟩ | ⟨b, hb, rfl⟩
  · rcases List.mem_cons.mp hk with hk | hk
    · exact .schema he hk
    · obtain ⟨x, hx, -, e2⟩ := h.schema_names he
      rw [e2] at hk
      exact .column hx hk
  · obtain ⟨x, hx, h1, h2⟩ := mem_sources he
    have hs := h.sourceOk hx h2
    obtain ⟨n, src⟩ := e
    simp only at hs h1 h2 hk
    cases hs with
    | named ns _ _ =>
      rcases List.mem_cons.mp hk with hk | hk
      · exact .source he hk
      · exact .table hx (by rw [Own.tables, h2]; exact hk)
    | files f _ =>
      rcases List.mem_cons.mp hk with hk | hk
      · exact .source he hk
      · rw [List.map_singleton, List.mem_singleton] at hk
        exact .file hx (by rw [Own.fileKeys, h2]; simp) hk
  · simp only [Sec.Def.names, List.mem_append, Option.mem_toList, List.mem_map] at hk
    rcases hk with hk | ⟨f, hf, rfl⟩
    · exact .uri hb hk
    · obtain ⟨g, hg, e, -⟩ := h.block_function hb hf
      exact .function hg e.symm

theorem Fine.defs_ok (h : Fine s bs names r) : ∀ d ∈ (planOf s bs names r).defs, Sec.DefOk d := by
  intro d hd
  rcases mem_defs hd with ⟨e, he, rfl⟩ | ⟨e, he, rfl⟩ | ⟨b, hb, rfl⟩
  · obtain ⟨x, hx, h1, h2⟩ := mem_schemas he
    have := h.schemaFits hx h2
    exact .schema ⟨(h.schema_made he).name, this.names, this.types⟩
  · obtain ⟨x, hx, h1, h2⟩ := mem_sources he
    exact .source (h.source_made he).name (h.sourceOk hx h2)
  · exact .space (h.blocks b hb)

theorem Fine.fits (h : Fine s bs names r) : Pipe.Fits (skeleton r) :=
  fits_skeleton r h.good

theorem mem_names {k : Str} : k ∈ Pipe.names (skeleton r) ↔ k ∈ relNames r :=
  (names_subs r).mem_iff

theorem Fine.parts (h : Fine s bs names r) : Sec.PartsOk (planOf s bs names r) where
  pipelines := by
    intro q hq
    obtain ⟨y, hy, rfl⟩ := List.mem_map.mp hq
    refine ⟨?_, ?_⟩
    · have := allSegs_ne_nil _ _ y hy
      unfold Pipe.lineOf
      simp [this]
    · intro n hn
      rcases (Pipe.mem_line h.fits).mp ⟨y, hy, hn⟩ with rfl | hn
      · exact rootName_made.name
      · exact (h.relation_made (mem_names.mp hn)).name
  relations := by
    intro x hx
    obtain ⟨y, hy, rfl⟩ := List.mem_map.mp hx
    refine ⟨h.numerals, ?_⟩
    rw [context_eq]
    exact h.readable0 hy
  rootIds := by
    intro q hq n hn
    simp only [Sec.Plan.rootNames, planOf, List.mem_filter, List.mem_singleton] at hq
    rw [hq.1] at hn
    exact h.ids n hn
  defs := h.defs_ok

theorem relationNames_plan : (planOf s bs names r).relationNames = relNames r := by
  unfold Sec.Plan.relationNames planOf relNames
  rw [List.map_map]
  rfl

/-- A made up name that is not one of the schemas and sources is no name of a definition. -/
theorem Fine.made_no_def (h : Fine s bs names r) {k : Str} (hm : MadeUp k)
    (h1 : k ∉ (schemas r).map (·.1)) (h2 : k ∉ (sources r).map (·.1)) :
    ¬ DefName s bs r k := by
  rintro (⟨he, e⟩ | ⟨hx, hk⟩ | ⟨he, e⟩ | ⟨hx, hk⟩ | ⟨-, -, rfl⟩ | ⟨hb, hk⟩ | ⟨hf, e⟩)
  · exact h1 (e ▸ List.mem_map.mpr ⟨_, he, rfl⟩)
  · exact h.columns _ hx _ hk hm
  · exact h2 (e ▸ List.mem_map.mpr ⟨_, he, rfl⟩)
  · exact (h.tables _ hx _ hk).1 hm
  · exact fileKey_not_name _ hm.name
  · exact (h.uris _ hb _ hk).1 hm
  · exact (h.functions _ hf).2.2.1 (e ▸ hm)

theorem Fine.relation_no_def (h : Fine s bs names r) {k : Str} (hk : k ∈ relNames r) :
    ¬ DefName s bs r k := by
  have hn := (List.nodup_cons.mp h.keys.1).2
  rw [List.nodup_append] at hn
  refine h.made_no_def (h.relation_made hk) ?_ ?_
  · intro h1
    exact hn.2.2 k h1 k (List.mem_append_right _ hk) rfl
  · intro h1
    exact (List.nodup_append.mp hn.2.1).2.2 k h1 k hk rfl

theorem Fine.root_no_def (h : Fine s bs names r) : ¬ DefName s bs r Sec.rootName := by
  have hn := (List.nodup_cons.mp h.keys.1).1
  simp only [List.mem_append, not_or] at hn
  exact h.made_no_def rootName_made hn.1 hn.2.1

theorem rootNames_not_name : ¬ Ext.IsName Sec.rootNamesName := fun h =>
  name_no_dot h (by decide)

theorem Fine.rootNames_no_def (h : Fine s bs names r) : ¬ DefName s bs r Sec.rootNamesName := by
  rintro (⟨he, e⟩ | ⟨hx, hk⟩ | ⟨he, e⟩ | ⟨hx, hk⟩ | ⟨-, -, e⟩ | ⟨hb, hk⟩ | ⟨hf, e⟩)
  · exact rootNames_not_name (e ▸ (h.schema_made he).name)
  · rename_i x
    cases hs : x.own.schema with
    | none => rw [Own.columns, hs] at hk; simp at hk
    | some t =>
      rw [Own.columns, hs] at hk
      exact rootNames_not_name ((h.schemaFits hx hs).names _ hk)
  · exact rootNames_not_name (e ▸ (h.source_made he).name)
  · exact (h.tables _ hx _ hk).2.1 rfl
  · exact fileKey_ne_rootNames _ e.symm
  · exact (h.uris _ hb _ hk).2 rfl
  · exact rootNames_not_name (e ▸ (h.functions _ hf).1)

theorem Fine.namesOk (h : Fine s bs names r) : Sec.NamesOk (planOf s bs names r) where
  relationsOnce := by
    rw [relationNames_plan]
    exact h.relations_nodup
  relationsFresh := by
    intro n hn d hd hk
    rw [relationNames_plan] at hn
    exact h.relation_no_def hn (h.defName hd hk)
  roots := by
    simp only [Sec.Plan.rootNames, planOf]
    exact List.length_filter_le _ _
  rootFresh := by
    intro _ n hn
    rw [relationNames_plan]
    have hn' : n = Sec.rootName ∨ n = Sec.rootNamesName := hn
    rcases hn' with rfl | rfl
    · refine ⟨fun hk => ?_, fun d hd hk => h.root_no_def (h.defName hd hk)⟩
      have := (List.nodup_cons.mp h.keys.1).1
      simp only [List.mem_append, not_or] at this
      exact this.2.2 hk
    · exact ⟨fun hk => (h.relation_made hk).ne_rootNames rfl,
        fun d hd hk => h.rootNames_no_def (h.defName hd hk)⟩

/-! ## Nothing is taken for something else -/

theorem fresh_of : ∀ {ds : List Sec.Def} {seen : List Str},
    (∀ d ∈ ds, ∀ k ∈ d.keys, k ∉ seen) →
    ds.Pairwise (fun d d' => ∀ k ∈ d'.keys, k ∉ d.names) → (∀ d ∈ ds, True) → Sec.Fresh seen ds
  | [], _, _, _, _ => trivial
  | d :: ds, seen, h1, h2, _ => by
    rw [List.pairwise_cons] at h2
    refine ⟨h1 d (by simp), fresh_of (fun d' hd' k hk hs => ?_) h2.2 (by simp)⟩
    rcases List.mem_append.mp hs with hs | hs
    · exact h1 d' (by simp [hd']) k hk hs
    · exact h2.1 d' hd' k hk hs

theorem sublist_flatMap {α β : Type} (f : α → List β) {l l' : List α} (h : l.Sublist l') :
    (l.flatMap f).Sublist (l'.flatMap f) := by
  induction h with
  | slnil => exact .slnil
  | cons a _ ih =>
    rw [List.flatMap_cons]
    exact ih.trans (List.sublist_append_right _ _)
  | cons_cons a _ ih =>
    rw [List.flatMap_cons, List.flatMap_cons]
    exact (List.Sublist.refl _).append ih

theorem pairwise_flatMap_keys : ∀ {l : List NRel},
    (l.flatMap fun x => x.own.fileKeys).Nodup →
    ((l.flatMap fun x => x.toNode.sources).flatMap fun e =>
      (Sec.Def.source e.1 e.2).fileKeys).Nodup := by
  intro l h
  rw [List.nodup_iff_count] at h ⊢
  intro a
  refine Nat.le_trans ?_ (h a)
  clear h
  induction l with
  | nil => simp
  | cons x l ih =>
    simp only [List.flatMap_cons, List.flatMap_append, List.count_append]
    refine Nat.add_le_add ?_ ih
    simp only [Node.sources, NRel.toNode]
    split
    · next e1 e2 =>
      rename_i t
      simp only [List.flatMap_cons, List.flatMap_nil, List.append_nil, Own.fileKeys, e2]
      cases t <;> simp [Sec.Def.fileKeys]
    · simp

theorem source_keys {e : Str × Sec.Source} {k : Str}
    (hk : k ∈ (Sec.Def.source e.1 e.2).keys) :
    k = e.1 ∨ k ∈ (Sec.Def.source e.1 e.2).fileKeys ∧ ∃ f, k = Sec.fileKey f := by
  obtain ⟨n, src⟩ := e
  cases src with
  | files fs =>
    rcases List.mem_cons.mp hk with hk | hk
    · exact .inl hk
    · obtain ⟨f, hf, rfl⟩ := List.mem_map.mp hk
      exact .inr ⟨hk, f, rfl⟩
  | _ =>
    simp only [Sec.Def.keys, List.mem_singleton] at hk
    exact .inl hk

theorem Fine.fresh (h : Fine s bs names r) : Sec.Fresh [] (planOf s bs names r).defs := by
  have hn := (List.nodup_cons.mp h.keys.1).2
  rw [List.nodup_append, List.nodup_append] at hn
  have hcross : ∀ e ∈ schemas r, ∀ e' ∈ sources r, e.1 ≠ e'.1 := fun e he e' he' =>
    hn.2.2 _ (List.mem_map.mpr ⟨e, he, rfl⟩) _
      (List.mem_append_left _ (List.mem_map.mpr ⟨e', he', rfl⟩))
  have hcol : ∀ e ∈ schemas r, ∀ c ∈ (Sec.kept e.2).names, Ext.IsName c ∧ ¬ MadeUp c := by
    intro e he c hc
    obtain ⟨x, hx, h1, h2⟩ := h.schema_names he
    rw [h2] at hc
    refine ⟨?_, h.columns x hx c hc⟩
    rw [Own.columns, h1] at hc
    exact (h.schemaFits hx h1).names c hc
  refine fresh_of (by simp) ?_ (by simp)
  unfold Sec.Plan.defs
  rw [List.pairwise_append]
  refine ⟨?_, ?_, ?_⟩
  · rw [List.pairwise_map]
    refine (List.pairwise_iff_forall_sublist.mpr ?_)
    intro e e' hsub k hk hk'
    simp only [Sec.Def.keys, List.mem_singleton] at hk
    subst hk
    have he : e ∈ schemas r := hsub.subset (by simp)
    have he' : e' ∈ schemas r := hsub.subset (by simp)
    rcases List.mem_cons.mp hk' with hk' | hk'
    · have := (hsub.map Prod.fst).nodup hn.1
      simp only [List.map_cons, List.map_nil, List.nodup_cons, List.mem_singleton] at this
      exact this.1 hk'.symm
    · exact (hcol e he _ hk').2 (h.schema_made he')
  · rw [List.pairwise_append]
    refine ⟨?_, ?_, ?_⟩
    · rw [List.pairwise_map]
      refine (List.pairwise_iff_forall_sublist.mpr ?_)
      intro e e' hsub k hk hk'
      have he : e ∈ sources r := hsub.subset (by simp)
      have he' : e' ∈ sources r := hsub.subset (by simp)
      obtain ⟨x, hx, e1, e2⟩ := mem_sources he
      have hs := h.sourceOk hx e2
      rcases source_keys hk with rfl | ⟨hk, f, rfl⟩
      · have hd : e.1 ≠ e'.1 := by
          have := (hsub.map Prod.fst).nodup hn.2.1.1
          simp only [List.map_cons, List.map_nil, List.nodup_cons, List.mem_singleton] at this
          exact this.1
        obtain ⟨n, src⟩ := e
        simp only at hs hk' e2 hd
        cases hs with
        | named ns _ _ =>
          rcases List.mem_cons.mp hk' with hk' | hk'
          · exact hd hk'.symm
          · exact (h.tables x hx _ (by rw [Own.tables, e2]; exact hk')).1 (h.source_made he')
        | files f _ =>
          rcases List.mem_cons.mp hk' with hk' | hk'
          · exact hd hk'.symm
          · rw [List.map_singleton, List.mem_singleton] at hk'
            exact fileKey_not_name f (hk' ▸ (h.source_made he').name)
      · obtain ⟨n, src⟩ := e
        simp only at hs hk' e2
        cases hs with
        | named ns _ _ =>
          rcases List.mem_cons.mp hk' with hk' | hk'
          · exact fileKey_not_name f (hk' ▸ (h.source_made he).name)
          · obtain ⟨y, hy, e3, e4⟩ := mem_sources he'
            refine (h.tables x hx _ (by rw [Own.tables, e2]; exact hk')).2.2 y hy ?_
            rw [Own.fileKeys, e4]
            obtain ⟨n', src'⟩ := e'
            cases src' <;> simp only [Sec.Def.fileKeys, List.not_mem_nil] at hk
            exact hk
        | files g _ =>
          rcases List.mem_cons.mp hk' with hk' | hk'
          · exact fileKey_not_name f (hk' ▸ (h.source_made he).name)
          · have := (sublist_flatMap (fun e => (Sec.Def.source e.1 e.2).fileKeys) hsub).nodup
              (pairwise_flatMap_keys h.files)
            simp only [List.flatMap_cons, List.flatMap_nil, List.append_nil] at this
            exact (List.nodup_append.mp this).2.2 _ hk' _ hk rfl
    · rw [List.pairwise_map]
      refine (List.pairwise_iff_forall_sublist.mpr ?_)
      intro e e' hsub k hk
      simp [Sec.Def.keys] at hk
    · intro d hd d' hd' k hk
      obtain ⟨b, hb, rfl⟩ := List.mem_map.mp hd'
      simp [Sec.Def.keys] at hk
  · intro d hd d' hd' k hk hk'
    obtain ⟨e, he, rfl⟩ := List.mem_map.mp hd
    rcases List.mem_append.mp hd' with hd' | hd'
    · obtain ⟨e', he', rfl⟩ := List.mem_map.mp hd'
      have hk1 : MadeUp k ∧ k = e'.1 ∨ ∃ f, k = Sec.fileKey f := by
        rcases source_keys hk with rfl | ⟨-, hf⟩
        · exact .inl ⟨h.source_made he', rfl⟩
        · exact .inr hf
      rcases List.mem_cons.mp hk' with rfl | hk'
      · rcases hk1 with ⟨-, hk1⟩ | ⟨f, hk1⟩
        · exact hcross e he e' he' hk1
        · exact fileKey_not_name f (hk1 ▸ (h.schema_made he).name)
      · have := hcol e he k hk'
        rcases hk1 with ⟨hk1, -⟩ | ⟨f, rfl⟩
        · exact this.2 hk1
        · exact fileKey_not_name f this.1
    · obtain ⟨b, hb, rfl⟩ := List.mem_map.mp hd'
      simp [Sec.Def.keys] at hk

theorem Fine.planOk (h : Fine s bs names r) : Sec.PlanOk (planOf s bs names r) :=
  { h.parts, h.namesOk with fresh := h.fresh }

end Verif.Whole
