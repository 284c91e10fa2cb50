import Verif.Prop.Sections

/-!
# C58: root names; which names that are used twice are reported
-/

namespace Verif.Sec

open Verif Verif.TyPb Verif.Tree Verif.Literal Verif.Lex Verif.Parse Verif.Expr

/-! ## Names of relations -/

/-- The relations of a text have known kinds and names that nothing else has. -/
structure RelationsNew (names : List Str) (ts : List Rel.RelTree) : Prop where
  kinds : ∀ t ∈ ts, (Enum.readRelationType t.type).isSome
  once : (ts.map fun t => t.ref.id).Nodup
  new : ∀ t ∈ ts, t.ref.id ∉ names

theorem lookup_isSome {l : List Symbol} {n : Str} :
    (lookup l n).isSome ↔ n ∈ l.map (·.name) := by
  unfold lookup
  rw [List.find?_isSome, List.mem_map]
  constructor
  · rintro ⟨x, hx, h⟩
    exact ⟨x, hx, by simpa using h⟩
  · rintro ⟨x, hx, h⟩
    exact ⟨x, hx, by simpa using h⟩

theorem relationsNew_cons {names : List Str} {t : Rel.RelTree} {ts : List Rel.RelTree} :
    RelationsNew names (t :: ts) ↔ (Enum.readRelationType t.type).isSome ∧ t.ref.id ∉ names ∧
      RelationsNew (names ++ [t.ref.id]) ts := by
  constructor
  · rintro ⟨h1, h2, h3⟩
    rw [List.map_cons, List.nodup_cons] at h2
    refine ⟨h1 t (by simp), h3 t (by simp), fun u hu => h1 u (by simp [hu]), h2.2, fun u hu => ?_⟩
    rw [List.mem_append, List.mem_singleton, not_or]
    exact ⟨h3 u (by simp [hu]), fun e => h2.1 (by rw [← e]; exact List.mem_map.mpr ⟨u, hu, rfl⟩)⟩
  · rintro ⟨h1, h2, h3, h4, h5⟩
    refine ⟨?_, ?_, ?_⟩
    · intro u hu
      rcases List.mem_cons.mp hu with rfl | hu
      · exact h1
      · exact h3 u hu
    · rw [List.map_cons, List.nodup_cons]
      refine ⟨?_, h4⟩
      intro hm
      obtain ⟨u, hu, e⟩ := List.mem_map.mp hm
      exact h5 u hu (by rw [e]; simp)
    · intro u hu
      rcases List.mem_cons.mp hu with rfl | hu
      · exact h2
      · intro hm
        exact h5 u hu (List.mem_append.mpr (.inl hm))

theorem relationTrees_cons (d : PlanDetail) (ds : List PlanDetail) :
    relationTrees (d :: ds) = (asRelation d).toList ++ relationTrees ds := by
  unfold relationTrees
  rw [List.filterMap_cons]
  cases asRelation d <;> rfl

theorem rootTrees_cons (d : PlanDetail) (ds : List PlanDetail) :
    rootTrees (d :: ds) = (asRoot d).toList ++ rootTrees ds := by
  unfold rootTrees
  rw [List.filterMap_cons]
  cases asRoot d <;> rfl

/-- The pass over the relations. -/
theorem visitRelations_errs : ∀ (ds : List PlanDetail) (k : Nat) (st : State),
    ∃ x, (visitRelations k ds st).errs = st.errs ++ x ∧
      (x = [] ↔ RelationsNew st.names (relationTrees ds)) ∧
      ∀ n, n ∈ (visitRelations k ds st).names ↔
        n ∈ st.names ∨ n ∈ (relationTrees ds).map fun t => t.ref.id
  | [], k, st => ⟨[], by simp [visitRelations], by
      simp only [true_iff]
      exact ⟨by simp [relationTrees], by simp [relationTrees], by simp [relationTrees]⟩,
      by simp [visitRelations, relationTrees]⟩
  | d :: ds, k, st => by
    obtain ⟨x, h1, h2, h3⟩ := visitRelations_errs ds (k + 1) (visitRelation k st d)
    rw [visitRelations, relationTrees_cons]
    cases d with
    | relation t =>
      simp only [asRelation, Option.toList_some, List.singleton_append, relationsNew_cons,
        List.map_cons, List.mem_cons]
      by_cases hm : t.ref.id ∈ st.names
      · have hl : ∃ s, lookup st.symbols t.ref.id = some s :=
          Option.isSome_iff_exists.mp (lookup_isSome.mpr hm)
        obtain ⟨s, hs⟩ := hl
        have e : visitRelation k st (.relation t) = ⟨st.symbols, st.ext, st.errs ++
            (match Enum.readRelationType t.type with
              | some _ => []
              | none => [Err.relationType]) ++ [.relationTwice]⟩ := by
          simp only [visitRelation, hs]
          rfl
        rw [e] at h1 h2 h3 ⊢
        refine ⟨_, by rw [h1, List.append_assoc, List.append_assoc], ?_, fun n => ?_⟩
        · constructor
          · intro h
            simp at h
          · intro h
            exact absurd hm h.2.1
        · rw [h3 n]
          constructor
          · rintro (h | h)
            · exact .inl h
            · exact .inr (.inr h)
          · rintro (h | rfl | h)
            · exact .inl h
            · exact .inl hm
            · exact .inr h
      · have hs : lookup st.symbols t.ref.id = none := lookup_none hm
        have e : visitRelation k st (.relation t) =
            ⟨st.symbols ++ [⟨t.ref.id, k, .relation (Enum.readRelationType t.type)⟩], st.ext,
              st.errs ++ (match Enum.readRelationType t.type with
                | some _ => []
                | none => [Err.relationType])⟩ := by
          simp only [visitRelation, hs, List.append_nil]
          rfl
        have hn : State.names ⟨st.symbols ++ [⟨t.ref.id, k,
            .relation (Enum.readRelationType t.type)⟩], st.ext, st.errs ++
            (match Enum.readRelationType t.type with
              | some _ => []
              | none => [Err.relationType])⟩ = st.names ++ [t.ref.id] := by
          simp [State.names]
        rw [e] at h1 h2 h3 ⊢
        rw [hn] at h2 h3
        refine ⟨_, by rw [h1, List.append_assoc], ?_, fun n => ?_⟩
        · cases Enum.readRelationType t.type with
          | none => simp
          | some y => simp [h2, hm]
        · rw [h3 n]
          simp only [List.mem_append, or_assoc, List.not_mem_nil, or_false,
            List.mem_cons]
    | _ => exact ⟨x, h1, h2, h3⟩

/-! ## Roots -/

/-- At most one root, and nothing has the names it gets. -/
def RootNew (names : List Str) (rs : List (List Str)) : Prop :=
  rs.length ≤ 1 ∧ (rs ≠ [] → rootName ∉ names ∧ rootNamesName ∉ names)

theorem visitRoots_errs : ∀ (ds : List PlanDetail) (k : Nat) (st : State),
    ∃ x, (visitRoots k ds st).errs = st.errs ++ x ∧
      (x = [] ↔ RootNew st.names (rootTrees ds))
  | [], k, st => ⟨[], by simp [visitRoots], by simp [RootNew, rootTrees]⟩
  | d :: ds, k, st => by
    obtain ⟨x, h1, h2⟩ := visitRoots_errs ds (k + 1) (visitRoot k st d)
    rw [visitRoots, rootTrees_cons]
    cases d with
    | root ns =>
      simp only [asRoot, Option.toList_some, List.singleton_append]
      by_cases hm : rootNamesName ∈ st.names
      · obtain ⟨s, hs⟩ := Option.isSome_iff_exists.mp (lookup_isSome.mpr hm)
        have e : visitRoot k st (.root ns) = { st with errs := st.errs ++ [.rootTwice] } := by
          simp only [visitRoot, hs]
        rw [e] at h1 ⊢
        refine ⟨_, by rw [h1, List.append_assoc], ?_⟩
        constructor
        · intro h; simp at h
        · intro h; exact absurd hm (h.2 (by simp)).2
      · have hs : lookup st.symbols rootNamesName = none := lookup_none hm
        by_cases hr : rootName ∈ st.names
        · obtain ⟨s, ht⟩ := Option.isSome_iff_exists.mp (lookup_isSome.mpr hr)
          have e : visitRoot k st (.root ns) = { st with errs := st.errs ++ [.rootTaken] } := by
            simp only [visitRoot, hs, ht]
          rw [e] at h1 ⊢
          refine ⟨_, by rw [h1, List.append_assoc], ?_⟩
          constructor
          · intro h; simp at h
          · intro h; exact absurd hr (h.2 (by simp)).1
        · have ht : lookup st.symbols rootName = none := lookup_none hr
          have e : visitRoot k st (.root ns) = { st with symbols := st.symbols ++
              [⟨rootName, k, .rootRelation⟩, ⟨rootNamesName, k, .rootNames ns⟩] } := by
            simp only [visitRoot, hs, ht]
          have hn : State.names { st with symbols := st.symbols ++
              [⟨rootName, k, .rootRelation⟩, ⟨rootNamesName, k, .rootNames ns⟩] } =
              st.names ++ [rootName, rootNamesName] := by simp [State.names]
          rw [e] at h1 h2 ⊢
          rw [hn] at h2
          refine ⟨x, h1, h2.trans ?_⟩
          unfold RootNew
          cases hrt : rootTrees ds with
          | nil => simp [hm, hr]
          | cons a as => simp
    | _ => exact ⟨x, h1, h2⟩

/-! ## Whole plans -/

/-- **C58, names that are used twice.**  No error is reported beyond those for the definitions
if and only if the kinds of relations are known, the names of relations are used once, there is
at most one root, and nothing has the names the root gets.  (Definitions with the same names are
never reported.) -/
theorem names_reported (ds : List PlanDetail) (st0 : State)
    (h : visitDefinitions 0 ds {} = .ok st0) :
    ∃ st, visitPlan ds = .ok st ∧ (st.errs = [] ↔ st0.errs = [] ∧
      RelationsNew st0.names (relationTrees ds) ∧
      RootNew (st0.names ++ (relationTrees ds).map fun t => t.ref.id) (rootTrees ds)) := by
  refine ⟨_, by rw [visitPlan, h]; rfl, ?_⟩
  obtain ⟨x, h1, h2, h3⟩ := visitRelations_errs ds 0 st0
  obtain ⟨y, h4, h5⟩ := visitRoots_errs ds 0 (visitRelations 0 ds st0)
  have h6 : RootNew (visitRelations 0 ds st0).names (rootTrees ds) ↔
      RootNew (st0.names ++ (relationTrees ds).map fun t => t.ref.id) (rootTrees ds) := by
    unfold RootNew
    simp only [h3, List.mem_append]
  rw [h4, h1, List.append_eq_nil_iff, List.append_eq_nil_iff, h2, h5, h6, and_assoc]

variable {p : Plan}

theorem rootTrees_plan (h : PartsOk p) : rootTrees (planDetails p) = p.rootNames := by
  unfold rootTrees planDetails firstDetails
  simp only [List.filterMap_append]
  rw [List.filterMap_eq_nil_iff.mpr (by
      intro x hx
      obtain ⟨ps, rfl⟩ := pipelineLines_detail x hx
      rfl), List.nil_append, List.filterMap_map, List.filterMap_map, List.filterMap_map]
  have e2 : p.relations.filterMap (asRoot ∘ fun x =>
      PlanDetail.relation (Sec.relLine (p.context x.1) x.2).2) = [] := by
    rw [List.filterMap_eq_nil_iff]; intro x _; rfl
  rw [e2, (List.filterMap_eq_nil_iff (l := p.defs)).mpr (by
    intro d hd
    have := (defLine_ok (h.defs d hd)).isDef
    simp only [Function.comp]
    cases hx : (defLine d).detail <;> rw [hx] at this <;> first | rfl | exact this.elim)]
  simp only [List.append_nil, List.nil_append]
  exact List.filterMap_some

theorem groups_names_iff : ∀ (ds : List Def) (k : Nat) (n : Str),
    n ∈ (groups k ds).map (·.name) ↔ ∃ d ∈ ds, n ∈ d.names
  | [], _, n => by simp [groups]
  | d :: ds, k, n => by
    rw [groups, List.map_append, groupOf_names, List.mem_append, groups_names_iff ds (k + 1) n]
    simp

/-- **C58, whole plans.**  If the parts of a plan can be written and read, its text is read
without an error if and only if the names of relations are used once, at most one root has
names, and nothing else is called `root` or `root.names` if there is one. -/
theorem plan_errors (p : Plan) (h : PartsOk p) (hf : FreshFiles [] p.defs) :
    ∃ text ds st, p.Prints text ∧ detailsOf text = some ds ∧ visitPlan ds = .ok st ∧
      (st.errs = [] ↔ NamesOk p) := by
  obtain ⟨st, h1, h2⟩ := names_reported (planDetails p) (defsTable p) (visited_defs h hf)
  refine ⟨textOf p, planDetails p, st, prints h, parsed h, h1, h2.trans ?_⟩
  have hn : ∀ n, n ∈ (defsTable p).names ↔ ∃ d ∈ p.defs, n ∈ d.names := groups_names_iff _ _
  rw [relationTrees_plan h, rootTrees_plan h, trees_names h]
  have ht : ∀ n, (∃ t ∈ trees p, t.ref.id = n) ↔ n ∈ p.relationNames := by
    intro n
    rw [← trees_names h, List.mem_map]
  constructor
  · rintro ⟨-, h3, h4, h5⟩
    refine ⟨trees_names h ▸ h3.once, fun n hm d hd hx => ?_, h4, fun hne n hn' => ?_⟩
    · obtain ⟨t, hm', rfl⟩ := (ht n).mpr hm
      exact h3.new t hm' ((hn _).mpr ⟨d, hd, hx⟩)
    · have h6 := h5 hne
      have h7 : n ∉ (defsTable p).names ++ p.relationNames := by
        rcases hn' with rfl | rfl
        · exact h6.1
        · exact h6.2
      rw [List.mem_append, not_or] at h7
      exact ⟨h7.2, fun d hd hx => h7.1 ((hn n).mpr ⟨d, hd, hx⟩)⟩
  · rintro ⟨h3, h4, h5, h6⟩
    refine ⟨rfl, ⟨?_, by rw [trees_names h]; exact h3, fun t hm hx => ?_⟩, h5, fun hne => ?_⟩
    · intro t hm
      obtain ⟨x, hx, rfl⟩ := List.mem_map.mp hm
      rw [(h.relLine hx).kind, Rel.readKind]
      rfl
    · obtain ⟨d, hd, hx⟩ := (hn _).mp hx
      exact h4 _ ((ht _).mp ⟨t, hm, rfl⟩) d hd hx
    · have key : ∀ n, n = rootName ∨ n = rootNamesName →
          n ∉ (defsTable p).names ++ p.relationNames := by
        intro n hn'
        have := h6 hne n hn'
        rw [List.mem_append, not_or]
        refine ⟨fun hx => ?_, this.1⟩
        obtain ⟨d, hd, hx⟩ := (hn n).mp hx
        exact this.2 d hd hx
      exact ⟨key _ (.inl rfl), key _ (.inr rfl)⟩

/-! ## Names of roots -/

theorem namesText_split (had : Bool) (a b : Str) (post : List Str) :
    namesText had ((a ++ ",\n    ".toList ++ b) :: post) = namesText had (a :: b :: post) := by
  have e : ",\n    ".toList = ",\n".toList ++ "    ".toList := by decide
  simp only [namesText, if_true, e, List.append_assoc]

theorem rootText_split (a b : Str) (post : List Str) :
    rootText ((a ++ ",\n    ".toList ++ b) :: post) = rootText (a :: b :: post) := by
  unfold rootText
  rw [namesText_split]
  rfl

/-- **C58 as stated is false**: names are not escaped, so the text of a root with one name can
be that of a root with two, and is read as such without an error. -/
theorem root_name_split (a b : Str) (ha : Ext.IsName a) (hb : Ext.IsName b) :
    ∃ ds st, detailsOf (rootSection [[a ++ ",\n    ".toList ++ b]]) = some ds ∧
      visitPlan ds = .ok st ∧ st.errs = [] ∧ rootNamesOf st.symbols = some [a, b] := by
  have hg := good_root a [b] (by
    intro m hm
    simp only [List.mem_cons, List.not_mem_nil, or_false] at hm
    rcases hm with rfl | rfl
    · exact ha
    · exact hb)
  have h1 := detailsOf_sections [[⟨rootText [a, b], rootToks a [b], .root [a, b]⟩]] (by
    intro s hs l hl
    simp only [List.mem_singleton] at hs
    subst hs
    simp only [List.mem_singleton] at hl
    subst hl
    exact hg)
  refine ⟨[.root [a, b]], _, ?_, rfl, rfl, rfl⟩
  have h2 : rootSection [[a ++ ",\n    ".toList ++ b]] =
      planText [separated [rootText [a, b]]] := by
    have e : planText [separated [rootText [a, b]]] = rootText [a, b] := by
      unfold planText
      have : (rootText [a, b]).isEmpty = false := by
        unfold rootText; rfl
      simp [separated, this]
    rw [e, ← rootText_split]
    rfl
  rw [h2]
  exact h1

/-- Non-vacuity. -/
example : Ext.IsName "a".toList ∧ Ext.IsName "b".toList := by
  constructor
  · exact ⟨[idTok "a"], by decide +kernel, by decide +kernel⟩
  · exact ⟨[idTok "b"], by decide +kernel, by decide +kernel⟩

/-- **C58 as stated is false**: of a plan with two roots with names the text is refused. -/
theorem roots_refused (p : Plan) (h : PartsOk p) (hf : FreshFiles [] p.defs)
    (hr : 1 < p.rootNames.length) :
    ∃ text ds st, p.Prints text ∧ detailsOf text = some ds ∧ visitPlan ds = .ok st ∧
      st.errs ≠ [] := by
  obtain ⟨text, ds, st, h1, h2, h3, h4⟩ := plan_errors p h hf
  exact ⟨text, ds, st, h1, h2, h3, fun he => by have := (h4.mp he).roots; omega⟩

/-- Non-vacuity: the sample plan with two roots. -/
example : ∃ p : Plan, PartsOk p ∧ FreshFiles [] p.defs ∧ 1 < p.rootNames.length ∧ ¬ NamesOk p := by
  refine ⟨{ samplePlan with roots := [["x".toList], ["y".toList]] },
    ⟨samplePlan_ok.pipelines, samplePlan_ok.relations, ?_, samplePlan_ok.defs⟩,
    samplePlan_ok.fresh.files, by decide, fun h => absurd h.roots (by decide)⟩
  intro r hr n hn
  have : r ∈ [["x".toList], ["y".toList]] := hr
  simp only [List.mem_cons, List.not_mem_nil, or_false] at this
  rcases this with rfl | rfl <;> exact sample_names n (by revert n; decide)

/-- Roots without names leave nothing in the text. -/
theorem roots_unnamed (roots : List (List Str)) :
    rootSection roots = rootSection (roots.filter fun r => !r.isEmpty) := by
  unfold rootSection
  rw [List.filter_filter]
  simp

end Verif.Sec
