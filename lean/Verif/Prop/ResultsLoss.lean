import Verif.Prop.Results

/-! # C62, C63: references to the relations around a subquery that text loses

Each plan meets all conditions of `Expressible` but one. -/

namespace Verif.Whole

open Verif Verif.TyPb Verif.Literal Verif.Expr

/-- The rows that are equal to a value around them. -/
def relatedFilter : BRel :=
  .node ⟨.filter (some (sampleCall 7 (sampleField 1) (sampleOuter 1 1) .bool)), [], none, none⟩
    [sampleTable]

/-- The rows for which there are rows of a subquery. -/
def existsIn (q : BRel) : Input :=
  { sampleInput with
    rel := .node ⟨.filter (some (.call 9 0 [.value (.setPredicate 1 (some []))] []
      (.scalar .bool .required))), [], none, none⟩ [q, sampleTable] }

/-- A join of the related rows. -/
def relatedJoin : BRel :=
  .node ⟨.join 1 (some (sampleCall 7 (sampleField 0) (sampleField 2) .bool)) none, [], none, none⟩
    [relatedFilter, sampleFiles]

def relatedJoinAbove : BRel :=
  .node ⟨.filter (some (sampleCall 7 (sampleField 1) (sampleOuter 1 1) .bool)), [], none, none⟩
    [.node ⟨.join 1 (some (sampleCall 7 (sampleField 0) (sampleField 2) .bool)) none, [], none, none⟩
      [sampleTable, sampleFiles]]

/-- An error is reported, and there is no text. -/
def unprinted : Outcome Str → Bool
  | .throw _ => true
  | _ => false

theorem unprinted_some {x : Outcome Str} (h : unprinted x = true) : ∃ e, x = .throw e := by
  unfold unprinted at h
  split at h
  · exact ⟨_, rfl⟩
  · cases h

/-- **C62** (violated for references to the relations around a subquery from below a join).  The
inputs of a join do not know what is around the join, and the plan is not printed; with the same
condition above the join it is. -/
theorem related_below_join :
    (∃ e, toText sampleLib id 6 (existsIn relatedJoin) = .throw e) ∧
    ∃ text, toText sampleLib id 6 (existsIn relatedJoinAbove) = .ok text := by
  refine ⟨unprinted_some (by decide +kernel), ?_⟩
  have h : (match toText sampleLib id 6 (existsIn relatedJoinAbove) with
    | .ok _ => true
    | _ => false) = true := by decide +kernel
  split at h
  · next t e => exact ⟨t, e⟩
  · cases h

/-- For each of the rows with one value, a column of the row around them. -/
def outerColumn : BRel :=
  .node ⟨.project [sampleOuter 1 1], [2], none, none⟩
    [.node ⟨.filter (some (sampleCall 7 (sampleField 1) (.literal (.atom (.i32 2) false)) .bool)),
      [], none, none⟩ [sampleTable]]

/-- The rows with a column that is equal to a row of the subquery. -/
def outerPlan : Input :=
  { sampleInput with
    rel := .node ⟨.filter (some (.setComparison (sampleField 1) 1 1 (some []))), [], none, none⟩
      [outerColumn, sampleTable] }

/-- **C63** (violated for projects of columns of the relations around a subquery).  Such a column is
taken for the column of the project with the same number: the plan that comes back has other
results, without an error. -/
theorem outer_column_replaced :
    ∃ text out, toText sampleLib id 5 outerPlan = .ok text ∧
      fromText sampleLib 5 text = some (.ok out) ∧
      (answers sampleMeaning outerPlan.binary).map (·.2) = [(2, [[1, 2], [3, 4]])] ∧
      (answers sampleMeaning out).map (·.2) = [(2, [[1, 2]])] := by
  have h : answersOf (throughText sampleLib id 5 outerPlan) = some [(2, [[1, 2]])] := by
    decide +kernel
  unfold answersOf at h
  split at h
  · next b hb =>
    obtain ⟨text, h1, h2⟩ := throughText_some hb
    exact ⟨text, b, h1, h2, by decide +kernel, by simpa using h⟩
  · cases h

end Verif.Whole
