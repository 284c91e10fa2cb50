import Verif.Lemmas.Reads
import Verif.Prop.Within
import Verif.Prop.FormedTypes

/-! # C79: reading a text plan has no undefined behaviour -/

namespace Verif.Whole

open Verif Outcome

/-- The sections of a text plan that keep to the conditions of `SoundPlan` become a binary plan or end
in an error, with enough room. -/
theorem details_defined_partial {lib : Literal.Lib} (hl : lib.Defined) {ds : List Sec.PlanDetail}
    (hf : ∀ d ∈ ds, Sec.FormedPart d) (h : SoundPlan lib ds) :
    ∃ n, ∀ fuel, n ≤ fuel → (fromDetails lib fuel ds).Defined := by
  have hv := Sec.visitPlan_defined fun id cs hm => hf _ hm
  have hr : ∀ t ∈ ds.filterMap relationOf, ∀ d ∈ t.details, Rel.FormedDetail d := by
    intro t ht
    obtain ⟨d, hd, he⟩ := List.mem_filterMap.mp ht
    have := hf d hd
    cases d with
    | relation t' =>
      simp only [relationOf, Option.some.injEq] at he
      subst he
      exact this
    | _ => simp [relationOf] at he
  cases hs : Sec.visitPlan ds with
  | ub => rw [hs] at hv; exact hv.elim
  | throw e => exact ⟨0, fun fuel _ => by simp [fromDetails, hs, Outcome.bind_throw]; trivial⟩
  | ok st =>
    by_cases he : st.errs.isEmpty = true
    case neg => exact ⟨0, fun fuel _ => by simp only [fromDetails, hs, Outcome.bind_ok, he]; trivial⟩
    obtain ⟨g, hg⟩ := Pipe.visitAll_ok _ ⟨graphOf st.symbols (ds.filterMap relationOf), []⟩
      (h.pipelines st hs)
    by_cases hk : (g.errors.isEmpty && refsKnown st.symbols [] ds) = true
    case neg =>
      exact ⟨0, fun fuel _ => by simp only [fromDetails, hs, Outcome.bind_ok, he, hg, hk]; trivial⟩
    have hp := readPasses_defined hl (st := st) (g := g.table) hr h.relations (h.groups st g hs hg)
    cases hd : readPasses lib st g.table (ds.filterMap relationOf) with
    | ub => rw [hd] at hp; exact hp.elim
    | throw e =>
      exact ⟨0, fun fuel _ => by
        simp only [fromDetails, hs, Outcome.bind_ok, he, hg, hk, hd, if_true, Outcome.bind_throw]
        trivial⟩
    | ok done =>
      have hgraph : HasGraph lib ds g.table := ⟨st, g, done, hs, he, hg, hk, hd, rfl⟩
      have hb := Pipe.binaryPlan_room (hasGraph_listed hgraph) (h.apart _ hgraph)
      refine ⟨g.table.order.length + 1, fun fuel hf => ?_⟩
      obtain ⟨k, rfl⟩ := Nat.exists_eq_add_of_le hf
      simp only [fromDetails, hs, Outcome.bind_ok, he, hg, hk, hd, if_true]
      refine Defined.bind ?_ fun rs => (attachL_defined _ _ _).map
      rw [Pipe.binaryPlan_more hb k]
      exact defined_of_ne hb

/-- **C79** (`_partial`: for the text plans that keep to the conditions of `SoundPlan`).  Whatever the
text, if it has no syntax error and keeps to them, turning it into a binary plan ends, with a plan or
with an error. -/
theorem text_defined_partial {lib : Literal.Lib} (hl : lib.Defined) {text : Str}
    {ds : List Sec.PlanDetail} (hd : Sec.detailsOf text = some ds) (h : SoundPlan lib ds) :
    ∃ n, ∀ fuel, n ≤ fuel → ∃ o, fromText lib fuel text = some o ∧ o.Defined := by
  obtain ⟨n, hn⟩ := details_defined_partial hl (Sec.text_formed hd) h
  exact ⟨n, fun fuel hf => ⟨_, by unfold fromText; rw [hd]; rfl, hn fuel hf⟩⟩

/-! ## A plan that keeps to the conditions -/

/-- The test for `OwnColumn`. -/
def ownColumnB (c : Rel.RelContext) (st : Rel.State) (e : Tree.ExprTree) : Bool :=
  match Expr.column e with
  | none => true
  | some n =>
    match Schema.find false (st.data :: c.outer) n with
    | none => true
    | some (_, i) => decide (i < st.data.fields.length)

/-- The test for `OwnColumns`. -/
def ownColumnsB (first : Bool) (c : Rel.RelContext) (st : Rel.State) : List Rel.Detail → Bool
  | [] => true
  | d :: ds =>
    (match d with
      | .grouping e => ownColumnB c st e
      | _ => true) &&
    match Rel.readDetail first c st d with
    | .ok r => ownColumnsB first c r.1 ds
    | _ => true

theorem ownColumnB_spec {c : Rel.RelContext} {st : Rel.State} {e : Tree.ExprTree}
    (h : ownColumnB c st e = true) : Rel.OwnColumn c st e := by
  intro n hn k i hi
  unfold ownColumnB at h
  rw [hn] at h
  simp only [hi] at h
  exact of_decide_eq_true h

theorem ownColumnsB_spec {first : Bool} {c : Rel.RelContext} : ∀ {ds : List Rel.Detail}
    {st : Rel.State}, ownColumnsB first c st ds = true → Rel.OwnColumns first c st ds
  | [], _, _ => trivial
  | d :: ds, st, h => by
    simp only [ownColumnsB, Bool.and_eq_true] at h
    refine ⟨fun e he => ?_, fun r hr => ?_⟩
    · subst he
      exact ownColumnB_spec h.1
    · have h2 := h.2
      rw [hr] at h2
      exact ownColumnsB_spec h2

/-- The test for `GroupsOwn`. -/
def groupsOwnB (lib : Literal.Lib) (st : Sec.State) (g : Pipe.Table) (first : Bool) (u : Counters)
    (done : Relations) (t : Rel.RelTree) : Bool :=
  match Enum.readRelationType t.type with
  | none => true
  | some k =>
    let c := readerContext lib st g done (freshOf first u t).2 t.ref.id
    ownColumnsB first c (Rel.startState first c k (done.namesOf t.ref.id)) t.details

theorem groupsOwnB_spec {lib : Literal.Lib} {st : Sec.State} {g : Pipe.Table} {first : Bool}
    {u : Counters} {done : Relations} {t : Rel.RelTree}
    (h : groupsOwnB lib st g first u done t = true) : GroupsOwn lib st g first u done t := by
  intro k hk
  unfold groupsOwnB at h
  rw [hk] at h
  exact ownColumnsB_spec h

/-- The test for all relations of a pass. -/
def passB (lib : Literal.Lib) (st : Sec.State) (g : Pipe.Table) (first : Bool) :
    Counters → Relations → List Rel.RelTree → Bool
  | _, _, [] => true
  | u, done, t :: ts =>
    groupsOwnB lib st g first u done t &&
    match readRelation lib st g first done (freshOf first u t).2 t with
    | .ok r => passB lib st g first (freshOf first u t).1 ((t.ref.id, r) :: done) ts
    | _ => true

/-- The test for both passes. -/
def passesB (lib : Literal.Lib) (st : Sec.State) (g : Pipe.Table) (ts : List Rel.RelTree) : Bool :=
  passB lib st g true Sym.Table.empty [] ts &&
  match readRelations lib st g true Sym.Table.empty [] ts with
  | .ok done => passB lib st g false Sym.Table.empty done ts
  | _ => true

theorem passesB_reached {lib : Literal.Lib} {st : Sec.State} {g : Pipe.Table}
    {ts : List Rel.RelTree} (h : passesB lib st g ts = true) {first : Bool} {u : Counters}
    {done : Relations} {l : List Rel.RelTree} (hr : Reached lib st g ts first u done l) :
    passB lib st g first u done l = true := by
  simp only [passesB, Bool.and_eq_true] at h
  induction hr with
  | start => exact h.1
  | again hd =>
    have h2 := h.2
    rw [hd] at h2
    exact h2
  | next _ hread ih =>
    simp only [passB, Bool.and_eq_true] at ih
    have h2 := ih.2
    rw [hread] at h2
    exact h2

/-- The name is not that of another symbol. -/
def notOtherB (t : Pipe.Table) (n : Str) : Bool :=
  match t.get n with
  | some .other => false
  | _ => true

/-- The test for `SoundPlan`, without the last condition. -/
def soundPlanB (lib : Literal.Lib) (ds : List Sec.PlanDetail) : Bool :=
  ((ds.filterMap relationOf).all fun t => t.details.all Rel.soundDetail) &&
  match Sec.visitPlan ds with
  | .ok st =>
    ((ds.filterMap pipelinesOf).flatten.all fun p =>
      p.all fun r => notOtherB (graphOf st.symbols (ds.filterMap relationOf)) r.name) &&
    match Pipe.visitAll (ds.filterMap pipelinesOf).flatten
        ⟨graphOf st.symbols (ds.filterMap relationOf), []⟩ with
    | .ok g => passesB lib st g.table (ds.filterMap relationOf)
    | _ => true
  | _ => true

theorem hasGraph_unique {lib : Literal.Lib} {ds : List Sec.PlanDetail} {t t' : Pipe.Table}
    (h : HasGraph lib ds t) (h' : HasGraph lib ds t') : t = t' := by
  obtain ⟨st, g, _, hs, _, hg, _, _, rfl⟩ := h
  obtain ⟨st', g', _, hs', _, hg', _, _, rfl⟩ := h'
  rw [hs] at hs'
  cases hs'
  rw [hg] at hg'
  cases hg'
  rfl

theorem soundPlanB_spec {lib : Literal.Lib} {ds : List Sec.PlanDetail} {fuel : Nat} {b : Binary}
    (h : soundPlanB lib ds = true) (ha : fromDetails lib fuel ds = .ok b) : SoundPlan lib ds := by
  simp only [soundPlanB, Bool.and_eq_true, List.all_eq_true] at h
  obtain ⟨h1, h2⟩ := h
  refine ⟨h1, fun st hs => ?_, fun st g hs hg first u done t rest hr => ?_, fun t ht => ?_⟩
  · rw [hs] at h2
    simp only [Bool.and_eq_true, List.all_eq_true] at h2
    intro p hp r hr he
    have := h2.1 p hp r hr
    unfold notOtherB at this
    rw [he] at this
    cases this
  · rw [hs] at h2
    simp only [Bool.and_eq_true] at h2
    have h3 := h2.2
    rw [hg] at h3
    have := passesB_reached h3 hr
    simp only [passB, Bool.and_eq_true] at this
    exact groupsOwnB_spec this.1
  · obtain ⟨t', hg, hp⟩ := accepted_apart ha
    rw [hasGraph_unique ht hg]
    exact hp

/-- A plan that reads a table and aggregates it. -/
def aggregating (pipelines aggregate : String) : Str :=
  ("pipelines { " ++ pipelines ++ " } read relation r { source t; base_schema s; } " ++
   "aggregate relation g { " ++ aggregate ++ " } schema s { a interval_year; b i64; } " ++
   "source named_table t { names = [\"t\"] } extension_space { function sum:i64 as sum; }").toList

/-- A plan with a grouping by a column, one by an interval, and a measure. -/
def soundText : Str :=
  aggregating "r -> g -> root;" ("grouping b; grouping {1, 2}_interval_year; " ++
    "measure { measure sum(b)->i64 @INITIAL_TO_RESULT NAMED x; }")

theorem sampleLib_defined : Expr.sampleLib.Defined :=
  ⟨fun _ h => (by cases h), fun _ h => (by cases h)⟩

/-- The conditions hold of it. -/
example : ∃ ds, Sec.detailsOf soundText = some ds ∧ SoundPlan Expr.sampleLib ds := by
  have h : (Sec.detailsOf soundText).any (fun ds => soundPlanB Expr.sampleLib ds &&
      match fromDetails Expr.sampleLib 4 ds with
      | .ok _ => true
      | _ => false) = true := by decide +kernel
  cases hd : Sec.detailsOf soundText with
  | none => rw [hd] at h; simp at h
  | some ds =>
    rw [hd] at h
    simp only [Option.any_some, Bool.and_eq_true] at h
    refine ⟨ds, rfl, ?_⟩
    cases hb : fromDetails Expr.sampleLib 4 ds with
    | ok b => exact soundPlanB_spec h.1 hb
    | throw e => rw [hb] at h; simp at h
    | ub => rw [hb] at h; simp at h

/-! ## Texts that do not keep to them -/

/-- The text is read with undefined behaviour, before there is a plan to go through. -/
def readsBadly (lib : Literal.Lib) (text : Str) : Bool :=
  match Sec.detailsOf text with
  | none => false
  | some ds =>
    match Sec.visitPlan ds with
    | .ok st =>
      st.errs.isEmpty &&
      match Pipe.visitAll (ds.filterMap pipelinesOf).flatten
          ⟨graphOf st.symbols (ds.filterMap relationOf), []⟩ with
      | .ub => true
      | .throw _ => false
      | .ok g => (g.errors.isEmpty && refsKnown st.symbols [] ds) &&
        match readPasses lib st g.table (ds.filterMap relationOf) with
        | .ub => true
        | _ => false
    | _ => false

theorem readsBadly_spec {lib : Literal.Lib} {text : Str} (h : readsBadly lib text = true)
    (fuel : Nat) : fromText lib fuel text = some .ub := by
  unfold readsBadly at h
  unfold fromText
  cases hd : Sec.detailsOf text with
  | none => rw [hd] at h; cases h
  | some ds =>
    rw [hd] at h
    simp only at h
    simp only [Option.map_some, Option.some.injEq, fromDetails]
    cases hs : Sec.visitPlan ds with
    | ub => rw [hs] at h; cases h
    | throw e => rw [hs] at h; cases h
    | ok st =>
      rw [hs] at h
      simp only [Bool.and_eq_true] at h
      simp only [Outcome.bind_ok, h.1, if_true]
      have h2 := h.2
      cases hg : Pipe.visitAll (ds.filterMap pipelinesOf).flatten
          ⟨graphOf st.symbols (ds.filterMap relationOf), []⟩ with
      | ub => rfl
      | throw e => rw [hg] at h2; cases h2
      | ok g =>
        rw [hg] at h2
        simp only [Bool.and_eq_true] at h2
        have hk : (g.errors.isEmpty && refsKnown st.symbols [] ds) = true := by simp [h2.1]
        simp only [Outcome.bind_ok, hk, if_true]
        have h3 := h2.2
        cases hr : readPasses lib st g.table (ds.filterMap relationOf) with
        | ub => rfl
        | throw e => rw [hr] at h3; cases h3
        | ok d => rw [hr] at h3; cases h3

/-- **C79 is false.**  An interval in braces with too few fields, a measure that is a column and has no
name, a grouping twice by the same column, a schema in a pipeline and a filter that asks whether it has
rows itself are read with undefined behaviour, however much room there is. -/
theorem text_undefined (fuel : Nat) :
    fromText Expr.sampleLib fuel (aggregating "r -> g -> root;" "grouping {1}_interval_year;") =
      some .ub ∧
    fromText Expr.sampleLib fuel (aggregating "r -> g -> root;" "measure { measure b; }") =
      some .ub ∧
    fromText Expr.sampleLib fuel (aggregating "r -> g -> root;" "grouping b; grouping b;") =
      some .ub ∧
    fromText Expr.sampleLib fuel (aggregating "r -> s -> root;" "grouping b;") = some .ub ∧
    fromText Expr.sampleLib fuel ownQuery = some .ub :=
  ⟨readsBadly_spec (by decide +kernel) fuel, readsBadly_spec (by decide +kernel) fuel,
    readsBadly_spec (by decide +kernel) fuel, readsBadly_spec (by decide +kernel) fuel,
    own_query_endless fuel⟩

/-- **C79 is false**, as a statement about all texts. -/
theorem text_defined_fails : ¬ ∀ (lib : Literal.Lib) (text : Str) (ds : List Sec.PlanDetail),
    lib.Defined → Sec.detailsOf text = some ds →
    ∃ n, ∀ fuel, n ≤ fuel → (fromDetails lib fuel ds).Defined := by
  intro h
  have hu := fun fuel => (text_undefined fuel).1
  unfold fromText at hu
  cases hd : Sec.detailsOf (aggregating "r -> g -> root;" "grouping {1}_interval_year;") with
  | none => have := hu 0; rw [hd] at this; cases this
  | some ds =>
    obtain ⟨n, hn⟩ := h _ _ ds sampleLib_defined hd
    have h1 := hu n
    rw [hd] at h1
    simp only [Option.map_some, Option.some.injEq] at h1
    have h2 := hn n (Nat.le_refl _)
    rw [h1] at h2
    exact h2

end Verif.Whole
