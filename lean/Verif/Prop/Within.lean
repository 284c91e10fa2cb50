import Verif.Lemmas.Within
import Verif.Prop.Renumber

/-! # C78: turning a text plan into a binary plan ends -/

namespace Verif.Whole

open Verif

/-- The room given to the model does not change what comes out, for any text. -/
theorem text_room {lib : Literal.Lib} {fuel : Nat} {text : Str} {o : Outcome Binary}
    (h : fromText lib fuel text = some o) (ho : o ≠ .ub) (k : Nat) :
    fromText lib (fuel + k) text = some o := by
  unfold fromText at h ⊢
  cases hd : Sec.detailsOf text with
  | none => rw [hd] at h; simp at h
  | some ds =>
    rw [hd] at h
    simp only [Option.map_some, Option.some.injEq] at h ⊢
    subst h
    exact fromDetails_more ho k

/-- In a text plan that becomes a binary plan no relation is within itself. -/
theorem accepted_apart {lib : Literal.Lib} {fuel : Nat} {ds : List Sec.PlanDetail} {b : Binary}
    (h : fromDetails lib fuel ds = .ok b) :
    ∃ t, HasGraph lib ds t ∧ ∀ n, Pipe.Part t n → ¬ Pipe.WithinItself t n := by
  obtain ⟨t, rs, hg, hb⟩ := fromDetails_graph h
  exact ⟨t, hg, fun n hp => Pipe.acc_irrefl (Pipe.binaryPlan_apart hb hp)⟩

/-- C78 for the text plans in which no relation is within itself: the recursion is not deeper than
the number of relations, and one. -/
theorem text_ends_partial {lib : Literal.Lib} {ds : List Sec.PlanDetail} {t : Pipe.Table}
    (hg : HasGraph lib ds t) (h : ∀ n, Pipe.Part t n → ¬ Pipe.WithinItself t n) :
    Pipe.binaryPlan t (t.order.length + 1) ≠ .ub ∧
    ∀ k, fromDetails lib (t.order.length + 1 + k) ds = fromDetails lib (t.order.length + 1) ds := by
  have hr := Pipe.binaryPlan_room (hasGraph_listed hg) h
  refine ⟨hr, fun k => ?_⟩
  obtain ⟨F, hF⟩ := fromDetails_of_graph hg
  rw [hF, hF, Pipe.binaryPlan_more hr k]

/-- A text plan in which a relation is within itself is never turned into a binary plan. -/
theorem within_never {lib : Literal.Lib} {ds : List Sec.PlanDetail} {t : Pipe.Table}
    (hg : HasGraph lib ds t) {n : Str} (hp : Pipe.Part t n) (hn : Pipe.WithinItself t n)
    (fuel : Nat) (b : Binary) : fromDetails lib fuel ds ≠ .ok b := by
  intro e
  obtain ⟨F, hF⟩ := fromDetails_of_graph hg
  rw [hF] at e
  obtain ⟨rs, hb, -⟩ := Rel.bind_ok_iff e
  exact Pipe.acc_irrefl (Pipe.binaryPlan_apart hb hp) hn

/-- C78 does not hold: if a relation of an accepted text is within itself the recursion has no end. -/
theorem within_endless {lib : Literal.Lib} {ds : List Sec.PlanDetail} {t : Pipe.Table}
    (hg : HasGraph lib ds t) (hc : Pipe.Complete t) {n : Str} (hp : Pipe.Part t n)
    (hn : Pipe.WithinItself t n) (fuel : Nat) : fromDetails lib fuel ds = .ub := by
  obtain ⟨F, hF⟩ := fromDetails_of_graph hg
  rw [hF]
  cases hb : Pipe.binaryPlan t fuel with
  | ub => rfl
  | throw e => exact absurd hb (Pipe.binaryPlan_no_throw hc fuel e)
  | ok rs => exact absurd hn (Pipe.acc_irrefl (Pipe.binaryPlan_apart hb hp))

/-- A text plan with a subquery. -/
def otherQuery : Str :=
  ("pipelines { q -> g; r -> f -> root; } read relation r { source t; base_schema s; } " ++
   "read relation q { source t; base_schema s; } filter relation g { filter true_bool; } " ++
   "filter relation f { filter not(EXISTS IN SUBQUERY g)->boolean; } schema s { a boolean; } " ++
   "source named_table t { names = [\"t\"] } extension_space { function not:bool as not; }").toList

/-- It is turned into a binary plan, with any room from 5 on. -/
theorem other_query_ends : ∃ ds b, Sec.detailsOf otherQuery = some ds ∧
    ∀ k, fromDetails Expr.sampleLib (5 + k) ds = .ok b := by
  have h : (Sec.detailsOf otherQuery).any
      (fun ds => isOk (fromDetails Expr.sampleLib 5 ds)) = true := by decide +kernel
  cases hd : Sec.detailsOf otherQuery with
  | none => rw [hd] at h; simp at h
  | some ds =>
    rw [hd] at h
    simp only [Option.any_some] at h
    cases hf : fromDetails Expr.sampleLib 5 ds with
    | throw e => rw [hf] at h; simp [isOk] at h
    | ub => rw [hf] at h; simp [isOk] at h
    | ok b => exact ⟨ds, b, rfl, fun k => by rw [fromDetails_more (by rw [hf]; simp) k, hf]⟩

/-- The hypotheses of `text_ends_partial` hold of it. -/
example : ∃ ds t, Sec.detailsOf otherQuery = some ds ∧ HasGraph Expr.sampleLib ds t ∧
    ∀ n, Pipe.Part t n → ¬ Pipe.WithinItself t n := by
  obtain ⟨ds, b, hd, h⟩ := other_query_ends
  obtain ⟨t, hg, ha⟩ := accepted_apart (h 0)
  exact ⟨ds, t, hd, hg, ha⟩

/-! ## A filter that asks whether it has rows itself -/

/-- A text plan in which the filter of a relation has this relation as its subquery. -/
def ownQuery : Str :=
  ("pipelines { r -> f -> root; } read relation r { source t; base_schema s; } " ++
   "filter relation f { filter not(EXISTS IN SUBQUERY f)->boolean; } schema s { a boolean; } " ++
   "source named_table t { names = [\"t\"] } extension_space { function not:bool as not; }").toList

/-- The relation uses itself, and every single input is there. -/
def usesItself (t : Pipe.Table) (n : Str) : Bool :=
  (match t.kind n with
    | some k => match Pipe.inputsOf k (t.data n) with
      | .ok ins => Pipe.takesSubs k ins.length && (t.data n).subs.contains n
      | _ => false
    | none => false) &&
  t.order.all fun m => match t.kind m with
    | some k => match Pipe.inputsOf k (t.data m) with
      | .ok _ => true
      | _ => false
    | none => true

/-- The relation is the first one of the plan. -/
def startsPlan (t : Pipe.Table) (n root : Str) : Bool :=
  t.order.contains root && !Pipe.isSubquery t root && (t.data root).start.isNone &&
    (t.data root).news.head? == some n

/-- The text is accepted and has such a relation. -/
def acceptsItself (lib : Literal.Lib) (n root : Str) (ds : List Sec.PlanDetail) : Bool :=
  match Sec.visitPlan ds with
  | .ok st => st.errs.isEmpty &&
    match Pipe.visitAll (ds.filterMap pipelinesOf).flatten
        ⟨graphOf st.symbols (ds.filterMap relationOf), []⟩ with
    | .ok g => (g.errors.isEmpty && refsKnown st.symbols [] ds) &&
      (match readPasses lib st g.table (ds.filterMap relationOf) with
        | .ok _ => true
        | _ => false) && usesItself g.table n && startsPlan g.table n root
    | _ => false
  | _ => false

theorem usesItself_spec {t : Pipe.Table} {n : Str} (hl : Pipe.InOrder t)
    (h : usesItself t n = true) : Pipe.Complete t ∧ Pipe.WithinItself t n := by
  simp only [usesItself, Bool.and_eq_true, List.all_eq_true] at h
  obtain ⟨h1, h2⟩ := h
  constructor
  · intro m k hk
    have := h2 m (hl m k hk)
    rw [hk] at this
    cases hi : Pipe.inputsOf k (t.data m) with
    | ok ins => exact ⟨ins, rfl⟩
    | throw e => simp [hi] at this
    | ub => simp [hi] at this
  · cases hk : t.kind n with
    | none => rw [hk] at h1; simp at h1
    | some k =>
      rw [hk] at h1
      simp only at h1
      cases hi : Pipe.inputsOf k (t.data n) with
      | ok ins =>
        rw [hi] at h1
        simp only [Bool.and_eq_true, List.contains_iff_mem] at h1
        exact .single ⟨k, ins, hk, hi, .inr h1⟩
      | throw e => rw [hi] at h1; simp at h1
      | ub => rw [hi] at h1; simp at h1

theorem acceptsItself_spec {lib : Literal.Lib} {n root : Str} {ds : List Sec.PlanDetail}
    (h : acceptsItself lib n root ds = true) :
    ∃ t, HasGraph lib ds t ∧ Pipe.Complete t ∧ Pipe.Part t n ∧ Pipe.WithinItself t n := by
  unfold acceptsItself at h
  cases h1 : Sec.visitPlan ds with
  | throw e => rw [h1] at h; simp at h
  | ub => rw [h1] at h; simp at h
  | ok st =>
    rw [h1] at h
    simp only [Bool.and_eq_true] at h
    obtain ⟨h2, h⟩ := h
    cases h3 : Pipe.visitAll (ds.filterMap pipelinesOf).flatten
        ⟨graphOf st.symbols (ds.filterMap relationOf), []⟩ with
    | throw e => rw [h3] at h; simp at h
    | ub => rw [h3] at h; simp at h
    | ok g =>
      rw [h3] at h
      simp only [Bool.and_eq_true] at h
      obtain ⟨⟨⟨h4, h5⟩, h6⟩, h7⟩ := h
      cases h8 : readPasses lib st g.table (ds.filterMap relationOf) with
      | throw e => rw [h8] at h5; simp at h5
      | ub => rw [h8] at h5; simp at h5
      | ok done =>
        have hg : HasGraph lib ds g.table :=
          ⟨st, g, done, h1, h2, h3, by simpa using h4, h8, rfl⟩
        obtain ⟨hc, hw⟩ := usesItself_spec (hasGraph_listed hg) h6
        refine ⟨g.table, hg, hc, ?_, hw⟩
        simp only [startsPlan, Bool.and_eq_true, List.contains_iff_mem, Bool.not_eq_true',
          Option.isNone_iff_eq_none, beq_iff_eq] at h7
        obtain ⟨⟨⟨h8, h9⟩, h10⟩, h11⟩ := h7
        cases hn : (g.table.data root).news with
        | nil => rw [hn] at h11; simp at h11
        | cons m l =>
          rw [hn] at h11
          simp only [List.head?_cons, Option.some.injEq] at h11
          subst h11
          exact .first h8 h9 h10 hn

/-- C78 does not hold: the text is accepted and there is no end, however much room there is. -/
theorem own_query_endless (fuel : Nat) :
    fromText Expr.sampleLib fuel ownQuery = some .ub := by
  have h : (Sec.detailsOf ownQuery).any
      (acceptsItself Expr.sampleLib "f".toList "root".toList) = true := by decide +kernel
  unfold fromText
  cases hd : Sec.detailsOf ownQuery with
  | none => rw [hd] at h; simp at h
  | some ds =>
    rw [hd] at h
    obtain ⟨t, hg, hc, hp, hw⟩ := acceptsItself_spec (by simpa using h)
    simp [within_endless hg hc hp hw fuel]

end Verif.Whole
