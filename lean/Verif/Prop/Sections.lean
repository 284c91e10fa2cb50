import Verif.Lemmas.SectionsRead
import Verif.Prop.Extension

/-!
# C61: a whole text plan survives printing and reading

and what follows for its parts: root names (C58), schemas (C59) and sources (C60).
-/

namespace Verif.Sec

open Verif Verif.TyPb Verif.Tree Verif.Literal Verif.Lex Verif.Parse Verif.Expr
open Verif.Rel (Line GoodLine)

/-! ## The lines of a plan -/

instance : Inhabited (Line PlanDetail) := ⟨⟨[], [], .pipelines []⟩⟩

/-- The line of a definition. -/
noncomputable def defLine (d : Def) : Line PlanDetail :=
  open Classical in if h : DefOk d then (exists_defLine h).choose else default

theorem defLine_ok {d : Def} (h : DefOk d) : DefLine d (defLine d) := by
  unfold defLine
  rw [dif_pos h]
  exact (exists_defLine h).choose_spec

/-- A line of the plan for a relation, and the tree it is read as. -/
structure RelLine (c : Rel.RelContext) (r : Rel.PbRel) (y : Line PlanDetail × Rel.RelTree) :
    Prop where
  good : GoodLine parsePlanDetail y.1
  text : Rel.printRelation c r = .ok (y.1.text, [])
  detail : y.1.detail = .relation y.2
  read : Rel.readTree c y.2 = .ok (r, [])
  name : y.2.ref.id = c.name
  kind : y.2.type = Rel.kindText r.body.kind
  passes : Rel.Passes c y.2.details r
  refs : y.2.details.flatMap Rel.detailRefs = Rel.askedBody r.body
  base : y.2.details.filterMap Rel.detailBase = r.body.names.2.toList

theorem exists_relLine {c : Rel.RelContext} {r : Rel.PbRel} (hl : c.expr.lib.Numerals)
    (h : Rel.RelReadable c r) : ∃ y, RelLine c r y := by
  obtain ⟨l, t, h1, h2, h3, h4, h5, h6, h7, h8, h9⟩ := good_readable c hl r h
  exact ⟨(l, t), h1, h2, h3, h4, h5, h6, h7, h8, h9⟩

/-- The line of a relation, and its tree. -/
noncomputable def relLine (c : Rel.RelContext) (r : Rel.PbRel) : Line PlanDetail × Rel.RelTree :=
  open Classical in
  if h : ∃ y, RelLine c r y then h.choose else (default, ⟨[], ⟨[], none⟩, []⟩)

theorem relLine_ok {c : Rel.RelContext} {r : Rel.PbRel} (hl : c.expr.lib.Numerals)
    (h : Rel.RelReadable c r) : RelLine c r (relLine c r) := by
  have h := exists_relLine hl h
  unfold relLine
  rw [dif_pos h]
  exact h.choose_spec

/-- The lines of the roots with names. -/
def rootLine : List Str → Line PlanDetail
  | [] => default
  | n :: ns => ⟨rootText (n :: ns), rootToks n ns, .root (n :: ns)⟩

/-- The lines of the pipelines. -/
def pipelineLines (ps : List (List Str)) : List (Line PlanDetail) :=
  if ps = [] then [] else
    [⟨Pipe.sectionText ps, Pipe.sectionToks ps, .pipelines (ps.map Pipe.refs)⟩]

theorem mapM_ok {α β : Type} (f : α → Outcome β) (g : α → β) : ∀ (l : List α),
    (∀ a ∈ l, f a = .ok (g a)) → Outcome.mapM f l = .ok (l.map g)
  | [], _ => rfl
  | a :: l, h => by
    rw [Outcome.mapM, h a (by simp), mapM_ok f g l fun b hb => h b (by simp [hb])]
    rfl

/-- The lines of a plan, by sections. -/
noncomputable def planLines (p : Plan) : List (List (Line PlanDetail)) :=
  [pipelineLines p.pipelines, p.relations.map fun x => (relLine (p.context x.1) x.2).1,
    p.rootNames.map rootLine, p.schemas.map fun e => defLine (.schema e.1 e.2),
    p.sources.map fun e => defLine (.source e.1 e.2), p.blocks.map fun b => defLine (.space b)]

variable {p : Plan}

theorem PartsOk.relLine (h : PartsOk p) {x} (hx : x ∈ p.relations) :
    RelLine (p.context x.1) x.2 (relLine (p.context x.1) x.2) :=
  relLine_ok (c := p.context x.1) (h.relations x hx).1 (h.relations x hx).2

theorem PartsOk.schema (h : PartsOk p) {e} (he : e ∈ p.schemas) : DefOk (.schema e.1 e.2) :=
  h.defs _ (by simp only [Plan.defs, List.mem_append, List.mem_map]; exact .inl ⟨e, he, rfl⟩)

theorem PartsOk.source (h : PartsOk p) {e} (he : e ∈ p.sources) : DefOk (.source e.1 e.2) :=
  h.defs _ (by
    simp only [Plan.defs, List.mem_append, List.mem_map]; exact .inr (.inl ⟨e, he, rfl⟩))

theorem PartsOk.space (h : PartsOk p) {b} (hb : b ∈ p.blocks) : DefOk (.space b) :=
  h.defs _ (by
    simp only [Plan.defs, List.mem_append, List.mem_map]; exact .inr (.inr ⟨b, hb, rfl⟩))

theorem root_nonempty (h : r ∈ p.rootNames) : ∃ n ns, r = n :: ns := by
  simp only [Plan.rootNames, List.mem_filter] at h
  cases r with
  | nil => simp at h
  | cons n ns => exact ⟨n, ns, rfl⟩

theorem good_planLines (h : PartsOk p) :
    ∀ s ∈ planLines p, ∀ l ∈ s, GoodLine parsePlanDetail l := by
  intro s hs l hl
  simp only [planLines, List.mem_cons, List.not_mem_nil, or_false] at hs
  rcases hs with rfl | rfl | rfl | rfl | rfl | rfl
  · unfold pipelineLines at hl
    split at hl
    · simp at hl
    · next hne =>
      simp only [List.mem_singleton] at hl
      subst hl
      exact good_pipelines hne (fun q hq => (h.pipelines q hq).2) (fun q hq => (h.pipelines q hq).1)
  · obtain ⟨x, hx, rfl⟩ := List.mem_map.mp hl
    exact (h.relLine hx).good
  · obtain ⟨r, hr, rfl⟩ := List.mem_map.mp hl
    obtain ⟨n, ns, rfl⟩ := root_nonempty hr
    exact good_root n ns (h.rootIds _ hr)
  · obtain ⟨e, he, rfl⟩ := List.mem_map.mp hl
    exact (defLine_ok (h.schema he)).good
  · obtain ⟨e, he, rfl⟩ := List.mem_map.mp hl
    exact (defLine_ok (h.source he)).good
  · obtain ⟨b, hb, rfl⟩ := List.mem_map.mp hl
    exact (defLine_ok (h.space hb)).good

/-- The text of the plan. -/
noncomputable def textOf (p : Plan) : Str :=
  planText ((planLines p).map fun s => Sec.separated (s.map (·.text)))

theorem prints (h : PartsOk p) : p.Prints (textOf p) := by
  refine ⟨p.relations.map fun x => (Sec.relLine (p.context x.1) x.2).1.text, ?_, ?_⟩
  · rw [List.map_map]
    apply List.map_congr_left
    intro x hx
    have := (h.relLine hx).text
    rw [Plan.context, printRelation_tables] at this
    exact this
  · have h1 : Pipe.sectionText p.pipelines =
        Sec.separated ((pipelineLines p.pipelines).map (·.text)) := by
      unfold pipelineLines
      split
      · next e => rw [e]; rfl
      · rfl
    have h2 : rootSection p.roots =
        Sec.separated ((p.rootNames.map rootLine).map (·.text)) := by
      unfold rootSection
      rw [List.map_map]
      congr 1
      apply List.map_congr_left
      intro r hr
      obtain ⟨n, ns, rfl⟩ := root_nonempty (p := p) hr
      rfl
    have h3 : schemaSection p.schemas = Sec.separated
        ((p.schemas.map fun e => defLine (.schema e.1 e.2)).map (·.text)) := by
      unfold schemaSection
      rw [List.map_map]
      congr 1
      apply List.map_congr_left
      intro e he
      have := (defLine_ok (h.schema he)).text
      simp only [defText, Outcome.ok.injEq] at this
      exact this
    have h4 : sourceSection p.sources = .ok (Sec.separated
        ((p.sources.map fun e => defLine (.source e.1 e.2)).map (·.text))) := by
      unfold sourceSection
      have hm : ∀ e ∈ p.sources, sourceText e.1 e.2 =
          .ok (defLine (.source e.1 e.2)).text := fun e he => (defLine_ok (h.source he)).text
      rw [mapM_ok (fun e : Str × Source => sourceText e.1 e.2)
          (fun e => (defLine (.source e.1 e.2)).text) _ hm,
        List.map_map]
      rfl
    have h5 : Ext.sectionText p.blocks = Sec.separated
        ((p.blocks.map fun b => defLine (.space b)).map (·.text)) := by
      rw [sectionText_separated, List.map_map]
      congr 1
      apply List.map_congr_left
      intro b hb
      have := (defLine_ok (h.space hb)).text
      simp only [defText, Outcome.ok.injEq] at this
      exact this
    unfold Parts.text
    simp only [h1, h2, h3, h4, h5, Outcome.map, textOf, planLines, List.map_cons, List.map_nil,
      List.map_map, Function.comp_def]

/-! ## What is read -/

/-- The details before the definitions. -/
noncomputable def firstDetails (p : Plan) : List PlanDetail :=
  (pipelineLines p.pipelines).map (·.detail) ++
    ((p.relations.map fun x => .relation (relLine (p.context x.1) x.2).2) ++
      p.rootNames.map .root)

/-- The details of the plan. -/
noncomputable def planDetails (p : Plan) : List PlanDetail :=
  firstDetails p ++ p.defs.map fun d => (defLine d).detail

theorem parsed (h : PartsOk p) : detailsOf (textOf p) = some (planDetails p) := by
  rw [textOf, detailsOf_sections _ (good_planLines h)]
  congr 1
  simp only [planLines, planDetails, firstDetails, Plan.defs, List.flatten_cons, List.flatten_nil,
    List.append_nil, List.map_append, List.map_map, List.append_assoc]
  congr 1
  congr 1
  · apply List.map_congr_left
    intro x hx
    exact (h.relLine hx).detail
  · congr 1
    apply List.map_congr_left
    intro r hr
    obtain ⟨n, ns, rfl⟩ := root_nonempty hr
    rfl

/-- The number of details before the definitions. -/
noncomputable def start (p : Plan) : Nat := (firstDetails p).length

/-- The trees of the relations. -/
noncomputable def trees (p : Plan) : List Rel.RelTree :=
  p.relations.map fun x => (relLine (p.context x.1) x.2).2

/-- The symbols of the roots. -/
def rootSymbols (k : Nat) : List (List Str) → List Symbol
  | [] => []
  | r :: _ => [⟨rootName, k, .rootRelation⟩, ⟨rootNamesName, k, .rootNames r⟩]

/-- The table that is read. -/
noncomputable def tableOf (p : Plan) : State where
  symbols := groups (start p) p.defs ++
    (relSymbols (pipelineLines p.pipelines).length (trees p) ++
      rootSymbols ((pipelineLines p.pipelines).length + (trees p).length) p.rootNames)
  ext := p.defs.foldl extAfter {}

theorem firstDetails_notDef (p : Plan) : ∀ x ∈ firstDetails p, ¬ IsDef x := by
  intro x hx
  simp only [firstDetails, List.mem_append, List.mem_map] at hx
  rcases hx with ⟨l, hl, rfl⟩ | ⟨y, -, rfl⟩ | ⟨y, -, rfl⟩
  · unfold pipelineLines at hl
    split at hl
    · simp at hl
    · simp only [List.mem_singleton] at hl
      subst hl
      exact id
  · exact id
  · exact id

theorem isDef_noRelation : ∀ {x : PlanDetail}, IsDef x → NoRelation x := by
  intro x h; cases x <;> first | exact trivial | exact h.elim

theorem isDef_noRoot : ∀ {x : PlanDetail}, IsDef x → NoRoot x := by
  intro x h; cases x <;> first | exact trivial | exact h.elim

theorem pipelineLines_detail {p : Plan} : ∀ x ∈ (pipelineLines p.pipelines).map (·.detail),
    ∃ ps, x = .pipelines ps := by
  intro x hx
  unfold pipelineLines at hx
  split at hx
  · simp at hx
  · simp only [List.map_cons, List.map_nil, List.mem_singleton] at hx
    exact ⟨_, hx⟩

theorem trees_names (h : PartsOk p) :
    ((trees p).map fun t => t.ref.id) = p.relationNames := by
  unfold trees Plan.relationNames
  rw [List.map_map]
  apply List.map_congr_left
  intro x hx
  exact (h.relLine hx).name

/-- The table after the definitions. -/
noncomputable def defsTable (p : Plan) : State :=
  ⟨groups (start p) p.defs, p.defs.foldl extAfter {}, []⟩

theorem visited_defs (h : PartsOk p) (hf : FreshFiles [] p.defs) :
    visitDefinitions 0 (planDetails p) {} = .ok (defsTable p) := by
  rw [planDetails, visitDefinitions_neutral _ _ _ _ (firstDetails_notDef p),
    visitDefinitions_defs defLine p.defs _ {} (fun d hd => defLine_ok (h.defs d hd)) hf]
  simp [start, defsTable]

theorem visited (h : PlanOk p) : visitPlan (planDetails p) = .ok (tableOf p) := by
  have h1 := visited_defs h.toPartsOk h.fresh.files
  unfold defsTable at h1
  have hg : ∀ n, (∀ d ∈ p.defs, n ∉ d.names) → n ∉ (groups (start p) p.defs).map (·.name) := by
    intro n hn hm
    obtain ⟨d, hd, hk⟩ := groups_names _ _ _ hm
    exact hn d hd hk
  have h2 : visitRelations 0 (planDetails p) ⟨groups (start p) p.defs,
      p.defs.foldl extAfter {}, []⟩ = ⟨groups (start p) p.defs ++
        relSymbols (pipelineLines p.pipelines).length (trees p),
        p.defs.foldl extAfter {}, []⟩ := by
    unfold planDetails firstDetails
    rw [List.append_assoc, List.append_assoc, visitRelations_append, visitRelations_append,
      visitRelations_neutral ((pipelineLines p.pipelines).map _) _ _ (by
        intro x hx
        obtain ⟨ps, rfl⟩ := pipelineLines_detail x hx
        trivial)]
    have e : (p.relations.map fun x => PlanDetail.relation (Sec.relLine (p.context x.1) x.2).2) =
        (trees p).map .relation := by
      unfold trees
      rw [List.map_map]
      rfl
    rw [e, visitRelations_trees (trees p) _ _ (by
        intro t ht
        obtain ⟨x, hx, rfl⟩ := List.mem_map.mp ht
        rw [(h.relLine hx).kind, Rel.readKind]
        rfl) (by
        intro t ht
        apply hg
        have : t.ref.id ∈ p.relationNames := by
          rw [← trees_names h.toPartsOk]
          exact List.mem_map.mpr ⟨t, ht, rfl⟩
        exact h.relationsFresh _ this) (by rw [trees_names h.toPartsOk]; exact h.relationsOnce),
      visitRelations_neutral _ _ _ (by
        intro x hx
        simp only [List.mem_append, List.mem_map] at hx
        rcases hx with ⟨r, -, rfl⟩ | ⟨d, hd, rfl⟩
        · trivial
        · exact isDef_noRelation (defLine_ok (h.defs d hd)).isDef)]
    simp
  have h3 : visitRoots 0 (planDetails p) ⟨groups (start p) p.defs ++
        relSymbols (pipelineLines p.pipelines).length (trees p),
        p.defs.foldl extAfter {}, []⟩ = tableOf p := by
    unfold planDetails firstDetails
    rw [← List.append_assoc, List.append_assoc, visitRoots_append, visitRoots_neutral _ 0 _ (by
        intro x hx
        rcases List.mem_append.mp hx with hx | hx
        · obtain ⟨ps, rfl⟩ := pipelineLines_detail x hx
          trivial
        · obtain ⟨y, -, rfl⟩ := List.mem_map.mp hx
          trivial), visitRoots_append, visitRoots_neutral (p.defs.map _) _ _ (by
        intro x hx
        obtain ⟨d, hd, rfl⟩ := List.mem_map.mp hx
        exact isDef_noRoot (defLine_ok (h.defs d hd)).isDef)]
    have hlen := h.roots
    have hroot := h.rootFresh
    unfold tableOf
    generalize p.rootNames = rs at *
    match rs, hlen with
    | [], _ => simp [visitRoots, rootSymbols]
    | [r], _ =>
      have hf : ∀ n, n = rootName ∨ n = rootNamesName → n ∉ (groups (start p) p.defs ++
          relSymbols (pipelineLines p.pipelines).length (trees p)).map (·.name) := by
        intro n hn
        have := hroot (by simp) n hn
        rw [List.map_append, List.mem_append, relSymbols_names, trees_names h.toPartsOk, not_or]
        exact ⟨hg n this.2, this.1⟩
      simp only [List.map_cons, List.map_nil, visitRoots, visitRoot]
      rw [lookup_none (hf rootNamesName (.inr rfl)), lookup_none (hf rootName (.inl rfl))]
      simp [rootSymbols, trees]
  rw [visitPlan, h1]
  simp only [Outcome.map]
  rw [h2, h3]

/-! ## Looking up -/

/-- A definition of the plan and its number. -/
theorem getElem_of_defs {d : Def} (h : d ∈ p.defs) : ∃ i : Nat, p.defs[i]? = some d := by
  obtain ⟨i, hi, e⟩ := List.getElem_of_mem h
  exact ⟨i, by rw [List.getElem?_eq_getElem hi, e]⟩

theorem schema_mem {e} (h : e ∈ p.schemas) : Def.schema e.1 e.2 ∈ p.defs := by
  simp only [Plan.defs, List.mem_append, List.mem_map]; exact .inl ⟨e, h, rfl⟩

theorem source_mem {e} (h : e ∈ p.sources) : Def.source e.1 e.2 ∈ p.defs := by
  simp only [Plan.defs, List.mem_append, List.mem_map]; exact .inr (.inl ⟨e, h, rfl⟩)

/-- The symbols after the definitions. -/
noncomputable def restOf (p : Plan) : List Symbol :=
  relSymbols (pipelineLines p.pipelines).length (trees p) ++
    rootSymbols ((pipelineLines p.pipelines).length + (trees p).length) p.rootNames

theorem tableOf_symbols : (tableOf p).symbols = groups (start p) p.defs ++ restOf p := rfl

/-- Symbols of relations and roots. -/
def IsRest : Info → Prop
  | .relation _ => True
  | .rootRelation => True
  | .rootNames _ => True
  | _ => False

theorem restOf_info : ∀ x ∈ restOf p, IsRest x.info := by
  have key : ∀ (ts : List Rel.RelTree) (k : Nat), ∀ x ∈ relSymbols k ts, IsRest x.info := by
    intro ts
    induction ts with
    | nil => intro k x hx; simp [relSymbols] at hx
    | cons t ts ih =>
      intro k x hx
      simp only [relSymbols, List.mem_cons] at hx
      rcases hx with rfl | hx
      · trivial
      · exact ih _ x hx
  intro x hx
  rcases List.mem_append.mp hx with hx | hx
  · exact key _ _ x hx
  · cases hr : p.rootNames with
    | nil => rw [hr] at hx; simp [rootSymbols] at hx
    | cons r rs =>
      rw [hr] at hx
      simp only [rootSymbols, List.mem_cons, List.not_mem_nil, or_false] at hx
      rcases hx with rfl | rfl <;> trivial

/-- What is selected of the symbols of a definition by their location. -/
theorem filterMap_table {β : Type} (F : Symbol → Option β) {d : Def} {i : Nat}
    (hi : p.defs[i]? = some d) (h1 : ∀ x, x.loc ≠ start p + i → F x = none)
    (h2 : ∀ x, IsRest x.info → F x = none) :
    (tableOf p).symbols.filterMap F = (groupOf (start p + i) d).filterMap F := by
  rw [tableOf_symbols, List.filterMap_append, filterMap_groups F p.defs _ i d hi h1]
  have : (restOf p).filterMap F = [] := by
    rw [List.filterMap_eq_nil_iff]
    exact fun x hx => h2 x (restOf_info x hx)
  rw [this, List.append_nil]

theorem lookup_table (h : PlanOk p) {d : Def} {i : Nat} (hi : p.defs[i]? = some d) {x xs}
    (hg : groupOf (start p + i) d = x :: xs) (hk : x.name ∈ d.keys) :
    lookup (tableOf p).symbols x.name = some x := by
  rw [tableOf_symbols]
  exact lookup_append_left (lookup_groups p.defs [] _ i d h.fresh hi x xs hg hk)

theorem typeOk_set {t : PbType} (h : TypeOk t) : isSet t = true := by
  cases t <;> first | rfl | exact absurd h.1 (by decide)

theorem setTypes_ok (l : List PbType) (h : ∀ t ∈ l, TypeOk t) : setTypes l = l :=
  List.filter_eq_self.mpr fun t ht => typeOk_set (h t ht)

theorem structOf_zip {n : Str} {s : NamedStruct} (h : SchemaOk n s) :
    structOf (s.names.zip s.types) = kept s := by
  unfold structOf kept
  rw [take_zip', take_zip, setTypes_ok _ fun t ht => h.types t (List.mem_of_mem_take ht)]
  congr 1
  cases hn : s.names with
  | nil => simp
  | cons a as =>
    cases ht : s.types with
    | nil => simp
    | cons b bs => simp

theorem schemaOk_of {n : Str} {s : NamedStruct} (h : DefOk (.schema n s)) : SchemaOk n s := by
  cases h with
  | schema h => exact h

theorem sourceOk_of {n : Str} {s : Source} (h : DefOk (.source n s)) : SourceOk s := by
  cases h with
  | source _ h => exact h

theorem columnsAt_table {n : Str} {s : NamedStruct} {i : Nat}
    (hi : p.defs[i]? = some (.schema n s)) :
    columnsAt (tableOf p).symbols (start p + i) = s.names.zip s.types := by
  unfold columnsAt
  rw [filterMap_table _ hi]
  · simp [groupOf, List.filterMap_map, Function.comp_def]
  · intro x hx
    cases x.info <;> simp [hx]
  · intro x hx
    cases hi : x.info <;> rw [hi] at hx <;> first | rfl | exact hx.elim

theorem schemaOf_table (h : PlanOk p) {e} (he : e ∈ p.schemas) :
    schemaOf (tableOf p).symbols e.1 = some (kept e.2) := by
  obtain ⟨i, hi⟩ := getElem_of_defs (schema_mem he)
  have hl := lookup_table h hi rfl (by simp [Def.keys])
  unfold schemaOf
  rw [show lookup (tableOf p).symbols e.1 = _ from hl]
  simp only [Option.map_some]
  rw [columnsAt_table hi, structOf_zip (schemaOk_of (h.schema he))]

theorem sourceOf_table (h : PlanOk p) {e} (he : e ∈ p.sources) :
    sourceOf (tableOf p).symbols e.1 = .ok (some e.2) ∧
      sourceSymbol (tableOf p).symbols e.1 = some (sourceKind e.2) := by
  obtain ⟨n, src⟩ := e
  obtain ⟨i, hi⟩ := getElem_of_defs (source_mem he)
  have hs := sourceOk_of (h.source he)
  simp only at hs hi ⊢
  cases hs with
  | named names _ _ =>
    have hl := lookup_table h hi rfl (by simp [Def.keys])
    unfold sourceOf sourceSymbol
    rw [show lookup (tableOf p).symbols n = _ from hl]
    refine ⟨?_, rfl⟩
    simp only
    congr 3
    unfold tablesAt
    rw [filterMap_table _ hi]
    · simp [groupOf, List.filterMap_map, Function.comp_def]
    · intro x hx
      cases x.info <;> simp [hx]
    · intro x hx
      cases hi : x.info <;> rw [hi] at hx <;> first | rfl | exact hx.elim
  | files f _ =>
    have hl := lookup_table h hi rfl (by simp [Def.keys])
    unfold sourceOf sourceSymbol
    rw [show lookup (tableOf p).symbols n = _ from hl]
    refine ⟨?_, rfl⟩
    simp only
    congr 3
    unfold filesAt
    rw [filterMap_table _ hi]
    · simp [groupOf]
    · intro x hx
      cases x.info <;> simp [hx]
    · intro x hx
      cases hi : x.info <;> rw [hi] at hx <;> first | rfl | exact hx.elim

theorem findSome_head {α β : Type} (F : α → Option β) (l : List α) :
    l.findSome? F = (l.filterMap F).head? := by
  induction l with
  | nil => rfl
  | cons a l ih =>
    cases h : F a <;> simp only [List.findSome?_cons, List.filterMap_cons, h, ih, List.head?_cons]

theorem columnFields_table (h : PlanOk p) {e} (he : e ∈ p.schemas) :
    columnFields (tableOf p).symbols e.1 = some (schemaFields e.1 e.2) := by
  obtain ⟨i, hi⟩ := getElem_of_defs (schema_mem he)
  have hl := lookup_table h hi rfl (by simp [Def.keys])
  have ha : schemaAt (tableOf p).symbols (start p + i) = some e.1 := by
    unfold schemaAt
    rw [findSome_head, filterMap_table _ hi]
    · simp [groupOf]
    · intro x hx
      cases x.info <;> simp [hx]
    · intro x hx
      cases hi : x.info <;> rw [hi] at hx <;> first | rfl | exact hx.elim
  unfold columnFields
  rw [show lookup (tableOf p).symbols e.1 = _ from hl]
  simp only [Option.map_some]
  rw [columnsAt_table hi, ha, schemaFields]
  congr 1
  have e1 : (kept e.2).names = (e.2.names.zip e.2.types).map (·.1) := by rw [take_zip]; rfl
  rw [e1]
  apply List.ext_getElem <;> simp

theorem rootNames_table : rootNamesOf (tableOf p).symbols = p.rootNames.head? := by
  unfold rootNamesOf
  rw [findSome_head, tableOf_symbols, restOf, List.filterMap_append, List.filterMap_append]
  have h1 : (groups (start p) p.defs).filterMap rootOf = [] := by
    generalize start p = k
    induction p.defs generalizing k with
    | nil => rfl
    | cons d ds ih =>
      rw [groups, List.filterMap_append, ih, List.append_nil, List.filterMap_eq_nil_iff]
      intro x hx
      cases d with
      | schema n s =>
        simp only [groupOf, List.mem_cons, List.mem_map] at hx
        rcases hx with rfl | ⟨c, _, rfl⟩ <;> rfl
      | source n s =>
        cases s <;>
          simp only [groupOf, List.mem_cons, List.mem_map, List.not_mem_nil, or_false] at hx
        · rcases hx with rfl | ⟨c, _, rfl⟩ <;> rfl
        · rcases hx with rfl | ⟨c, _, rfl⟩ <;> rfl
        · subst hx; rfl
        · subst hx; rfl
      | space b =>
        simp only [groupOf, spaceSymbols, List.mem_append, List.mem_map] at hx
        rcases hx with ⟨c, _, rfl⟩ | ⟨c, _, rfl⟩ <;> rfl
  have h2 : ∀ (ts : List Rel.RelTree) (k : Nat), (relSymbols k ts).filterMap
      rootOf = [] := by
    intro ts
    induction ts with
    | nil => intro k; rfl
    | cons t ts ih => intro k; exact ih (k + 1)
  rw [h1, h2]
  cases p.rootNames <;> rfl

theorem foldl_extAfter : ∀ (bs : List Ext.Block) (e : Ext.State),
    (bs.map Def.space).foldl extAfter e = (bs.map Ext.treeOf).foldl Ext.visitSpace e
  | [], _ => rfl
  | b :: bs, e => by
    simp only [List.map_cons, List.foldl_cons]
    rw [foldl_extAfter bs]
    rfl

theorem ext_table : (tableOf p).ext = Ext.readSpaces (p.blocks.map Ext.treeOf) := by
  have h : ∀ (ds : List Def) (e : Ext.State), (∀ d ∈ ds, ∀ b, d ≠ .space b) →
      ds.foldl extAfter e = e := by
    intro ds
    induction ds with
    | nil => intro e _; rfl
    | cons d ds ih =>
      intro e hd
      have h1 : extAfter e d = e := by
        cases d with
        | space b => exact absurd rfl (hd _ (by simp) b)
        | _ => rfl
      rw [List.foldl_cons, h1, ih e fun x hx => hd x (by simp [hx])]
  simp only [tableOf, Plan.defs, List.foldl_append, foldl_extAfter]
  rw [h (p.schemas.map _), h (p.sources.map _)]
  · rfl
  · intro d hd b
    obtain ⟨x, -, rfl⟩ := List.mem_map.mp hd
    simp
  · intro d hd b
    obtain ⟨x, -, rfl⟩ := List.mem_map.mp hd
    simp

theorem functions_table : Ext.described (tableOf p).ext.table = Ext.written p.blocks := by
  rw [ext_table, Ext.read_blocks]

/-! ## C61 -/

theorem relationTrees_plan (h : PartsOk p) : relationTrees (planDetails p) = trees p := by
  unfold relationTrees planDetails firstDetails
  simp only [List.filterMap_append]
  rw [List.filterMap_eq_nil_iff.mpr (by
      intro x hx
      obtain ⟨ps, rfl⟩ := pipelineLines_detail x hx
      rfl), List.nil_append, List.filterMap_map, List.filterMap_map, List.filterMap_map]
  have e1 : ∀ l : List (List Str), l.filterMap (asRelation ∘ PlanDetail.root) = [] := by
    intro l; rw [List.filterMap_eq_nil_iff]; intro x _; rfl
  rw [e1, (List.filterMap_eq_nil_iff (l := p.defs)).mpr (by
    intro d hd
    have := (defLine_ok (h.defs d hd)).isDef
    simp only [Function.comp]
    cases hx : (defLine d).detail <;> rw [hx] at this <;> first | rfl | exact this.elim)]
  simp only [List.append_nil]
  exact congrFun List.filterMap_eq_map' p.relations

theorem pipelineTrees_plan (h : PartsOk p) :
    pipelineTrees (planDetails p) = p.pipelines.map Pipe.refs := by
  unfold pipelineTrees planDetails firstDetails
  simp only [List.filterMap_append]
  rw [List.filterMap_map, List.filterMap_map, List.filterMap_map, List.filterMap_map]
  have e1 : ∀ l : List (List Str), l.filterMap (asPipelines ∘ PlanDetail.root) = [] := by
    intro l; rw [List.filterMap_eq_nil_iff]; intro x _; rfl
  have e2 : p.relations.filterMap (asPipelines ∘ fun x => PlanDetail.relation (Sec.relLine (p.context x.1) x.2).2) = [] := by
    rw [List.filterMap_eq_nil_iff]; intro x _; rfl
  rw [e1, e2, (List.filterMap_eq_nil_iff (l := p.defs)).mpr (by
    intro d hd
    have := (defLine_ok (h.defs d hd)).isDef
    simp only [Function.comp]
    cases hx : (defLine d).detail <;> rw [hx] at this <;> first | rfl | exact this.elim)]
  simp only [List.append_nil]
  unfold pipelineLines
  split
  · next e => rw [e]; rfl
  · exact List.append_nil _

/-- The names in the tables of the plan are found in the table that is read. -/
theorem tables_agree (h : PlanOk p) (c : Rel.RelContext) :
    (∀ n k, (p.context c).source n = some k → (readContext (tableOf p) c).source n = some k) ∧
    (∀ n k, (p.context c).schema n = some k → (readContext (tableOf p) c).schema n = some k) := by
  constructor
  · intro n k hk
    simp only [Plan.context, Option.map_eq_some_iff] at hk
    obtain ⟨e, he, rfl⟩ := hk
    have hn := List.find?_some he
    simp only [decide_eq_true_eq] at hn
    subst hn
    exact (sourceOf_table h (List.mem_of_find?_eq_some he)).2
  · intro n k hk
    simp only [Plan.context, Option.map_eq_some_iff] at hk
    obtain ⟨e, he, rfl⟩ := hk
    have hn := List.find?_some he
    simp only [decide_eq_true_eq] at hn
    subst hn
    exact columnFields_table h (List.mem_of_find?_eq_some he)

/-- A text is read in one way. -/
theorem goodLine_unique {α : Type} {f : List Token → Option (α × List Token)} {l m : Line α}
    (hl : GoodLine f l) (hm : GoodLine f m) (h : l.text = m.text) : l.detail = m.detail := by
  have h0 : lex ([] : Str) = some [] := by decide +kernel
  have h1 := hl.lexes [] trivial
  have h2 := hm.lexes [] trivial
  rw [h0, List.append_nil, Option.map_some, List.append_nil] at h1 h2
  rw [h, h2] at h1
  injection h1 with h1
  have h3 := hl.parses []
  have h4 := hm.parses []
  rw [List.append_nil] at h3 h4
  rw [← h1, h4] at h3
  injection h3 with h3
  injection h3 with h3
  exact h3.symm

/-- The tree of a relation is read with the table of the reader as the relation. -/
theorem read_line (h : PlanOk p) {x} (hx : x ∈ p.relations) :
    ∃ l, RelLine (readContext (tableOf p) x.1) x.2 (l, (relLine (p.context x.1) x.2).2) := by
  have ha := tables_agree h x.1
  have hr : Rel.RelReadable (readContext (tableOf p) x.1) x.2 :=
    readable_tables (h.relations x hx).2 ha.1 ha.2
  obtain ⟨y, hy⟩ := exists_relLine (c := readContext (tableOf p) x.1) (h.relations x hx).1 hr
  have hz := h.relLine hx
  have ht : (Sec.relLine (p.context x.1) x.2).1.text = y.1.text := by
    have h1 := hy.text
    have h2 := hz.text
    rw [readContext, printRelation_tables] at h1
    rw [Plan.context, printRelation_tables, h1] at h2
    injection h2 with h2
    injection h2 with h2
    exact h2.symm
  have hd := goodLine_unique hz.good hy.good ht
  rw [hz.detail, hy.detail] at hd
  injection hd with hd
  rw [hd]
  exact ⟨y.1, hy⟩

theorem read_tree (h : PlanOk p) {x} (hx : x ∈ p.relations) :
    Rel.readTree (readContext (tableOf p) x.1) (relLine (p.context x.1) x.2).2 =
      .ok (x.2, []) := by
  obtain ⟨l, hl⟩ := read_line h hx
  exact hl.read

/-- **C61** (`_partial`: for the plans that are `PlanOk`; what is lost, refused or taken for
something else of others is in the theorems about relations, roots, schemas, sources and
functions).  The text of a plan is printed without errors, parses, is read without errors, and
everything in it comes back: pipelines, relations, root names, schemas, sources, functions. -/
theorem plan_roundtrip_partial (p : Plan) (h : PlanOk p) :
    ∃ text ds st, p.Prints text ∧ ReadAs p text ds st := by
  refine ⟨textOf p, planDetails p, tableOf p, prints h.toPartsOk, parsed h.toPartsOk, visited h, rfl,
    pipelineTrees_plan h.toPartsOk, ?_, ?_, rootNames_table, fun e he => schemaOf_table h he,
    fun e he => (sourceOf_table h he).1, functions_table⟩
  · rw [relationTrees_plan h.toPartsOk, trees, List.length_map]
  · intro i x hi
    have hx := List.mem_of_getElem? hi
    refine ⟨(relLine (p.context x.1) x.2).2, ?_, (h.relLine hx).name, ?_⟩
    · rw [relationTrees_plan h.toPartsOk, trees, List.getElem?_map, hi]
      rfl
    · exact read_tree h hx

/-! ### Non-vacuity -/

theorem quotable_of {s : Str} (h1 : ∀ i < s.length, s[i]? = some '"' →
    (s.take i).getLast? = some '\\') (h2 : s.getLast? ≠ some '\\') : Quotable s := by
  refine ⟨fun a b e => ?_, h2⟩
  have := h1 a.length (by simp [e]) (by simp [e])
  rw [e, List.take_left] at this
  exact this

/-- The name of the file contains quotes. -/
def sampleFile : File where
  path := .uriFile "/tmp/\\\"x\\\".orc".toList
  partition := 2
  start := 0
  length := 18446744073709551615
  format := .orc

/-- A relation that is in no subquery. -/
def sampleScan : Rel.RelContext :=
  { Rel.sampleInside with name := "scan".toList, inside := false, inputs := [], outer := [] }

/-- A scan of the table with the schema, and a filter in a subquery; one root; a table and a file;
one space of functions. -/
def samplePlan : Plan where
  pipelines := [["scan".toList, "main".toList]]
  relations := [(sampleScan, ⟨.read (some "table".toList) (some "people".toList) none none false, []⟩),
    (Rel.sampleInside, ⟨.filter (some sampleExpr), []⟩)]
  roots := [["x".toList, "y".toList], []]
  schemas := [("people".toList, ⟨["a".toList, "b".toList],
    some ([.scalar .i32 .required, .scalar .string .nullable], .required)⟩)]
  sources := [("table".toList, .named ["db".toList, "people".toList]),
    ("data".toList, .files [sampleFile])]
  blocks := [⟨some "/functions.yaml".toList, [("add".toList, "add:i32_i32".toList)]⟩]

theorem sample_names : ∀ s ∈ ["scan", "main", "x", "y", "a", "b", "people", "table", "data", "add",
    "i32_i32"].map String.toList, Ext.IsName s := by
  intro s hs
  refine ⟨(lex s).getD [], ?_⟩
  revert s
  decide +kernel

theorem sampleFile_ok : FileOk sampleFile where
  path := ⟨_, rfl, quotable_of (by decide) (by decide)⟩
  format := .inr rfl
  partition := by unfold U64; decide
  start := by unfold U64; decide
  length := by unfold U64; decide

theorem samplePlan_ok : PlanOk samplePlan where
  pipelines := by
    intro q hq
    simp only [samplePlan, List.mem_singleton] at hq
    subst hq
    refine ⟨by simp, fun n hn => sample_names n ?_⟩
    revert n; decide
  relations := by
    intro x hx
    simp only [samplePlan, List.mem_cons, List.not_mem_nil, or_false] at hx
    rcases hx with rfl | rfl
    · exact ⟨sampleLib_numerals, sample_names _ (by decide), ⟨rfl, sample_names _ (by decide),
        .inl rfl, _, ⟨sample_names _ (by decide), rfl⟩, fun e he => by cases he⟩,
        fun _ => ⟨.inl rfl, rfl⟩⟩
    · exact ⟨sampleLib_numerals, Rel.name_main, Rel.sampleInside_ok.body,
        Rel.sampleInside_ok.outside⟩
  roots := by decide
  rootIds := by
    intro r hr n hn
    have : r ∈ [["x".toList, "y".toList]] := hr
    rw [List.mem_singleton] at this
    subst this
    exact sample_names n (by revert n; decide)
  defs := by
    intro d hd
    simp only [samplePlan, Plan.defs, List.map_cons, List.map_nil, List.mem_append, List.mem_cons,
      List.not_mem_nil, or_false] at hd
    rcases hd with rfl | (rfl | rfl) | rfl
    · refine .schema ⟨sample_names _ (by decide), fun n hn => sample_names n ?_, ?_⟩
      · revert n; decide
      · intro t ht
        simp only [NamedStruct.types, List.mem_cons, List.not_mem_nil, or_false] at ht
        rcases ht with rfl | rfl <;> exact ⟨by decide, trivial, by decide⟩
    · refine .source (sample_names _ (by decide)) (.named _ (by simp) ?_)
      intro n hn
      simp only [List.mem_cons, List.not_mem_nil, or_false] at hn
      rcases hn with rfl | rfl <;> exact quotable_of (by decide) (by decide)
    · exact .source (sample_names _ (by decide)) (.files _ sampleFile_ok)
    · refine .space ⟨?_, ?_, ?_, ?_⟩
      · intro u hu
        obtain rfl := Option.some.inj hu
        unfold Ext.IsUri
        decide +kernel
      · intro f hf
        simp only [List.mem_singleton] at hf
        subst hf
        exact sample_names _ (by decide)
      · intro f hf
        simp only [List.mem_singleton] at hf
        subst hf
        exact ⟨"add".toList, "i32_i32".toList, by decide, sample_names _ (by decide),
          .inr (sample_names _ (by decide))⟩
      · intro f hf
        simp only [List.mem_singleton] at hf
        subst hf
        decide
  fresh := by
    simp only [samplePlan, Plan.defs, List.map_cons, List.map_nil, List.cons_append,
      List.nil_append, Fresh, Def.keys, Def.names]
    decide
  relationsOnce := by decide
  relationsFresh := by
    intro n hn d hd
    simp only [samplePlan, Plan.defs, List.map_cons, List.map_nil, List.mem_append, List.mem_cons,
      List.not_mem_nil, or_false] at hd
    rcases hd with rfl | (rfl | rfl) | rfl <;> simp only [Def.names] <;> revert n <;> decide
  rootFresh := by
    intro _ n hn
    refine ⟨by rcases hn with rfl | rfl <;> decide, fun d hd => ?_⟩
    simp only [samplePlan, Plan.defs, List.map_cons, List.map_nil, List.mem_append, List.mem_cons,
      List.not_mem_nil, or_false] at hd
    rcases hd with rfl | (rfl | rfl) | rfl <;> simp only [Def.names] <;>
      rcases hn with rfl | rfl <;> decide

/-- Non-vacuity of C61. -/
example : ∃ text ds st, samplePlan.Prints text ∧ ReadAs samplePlan text ds st :=
  plan_roundtrip_partial _ samplePlan_ok

end Verif.Sec
