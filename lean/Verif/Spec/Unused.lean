import Verif.Spec.Order

/-! # Definitions that nothing refers to -/

namespace Verif.Whole

open Verif Verif.Tree

mutual
/-- The names of functions and relations in an expression. -/
def namesIn : ExprTree → List Str
  | .call id args _ _ => id :: namesInL args
  | .const _ => []
  | .column _ _ => []
  | .cast e _ _ => namesIn e
  | .scalarSubquery _ ref => [ref.id, ref.text]
  | .inSubquery es _ ref => ref.id :: ref.text :: namesInL es
  | .setPredicate _ _ ref => [ref.id, ref.text]
  | .setComparison e _ _ _ ref => ref.id :: ref.text :: namesIn e
def namesInL : List ExprTree → List Str
  | [] => []
  | e :: es => namesIn e ++ namesInL es
end

/-- The names in a part of a measure. -/
def measureNames : Rel.MeasureDetail → List Str
  | .measure e _ _ => namesIn e
  | .filter e => namesIn e
  | .invocation _ => []
  | .sort e _ => namesIn e

/-- The names in a part of a relation; those of its fields are not looked for in the symbol table. -/
def detailNames : Rel.Detail → List Str
  | .schema id => [id]
  | .source id => [id]
  | .filter _ e => namesIn e
  | .expression e _ => namesIn e
  | .grouping e => namesIn e
  | .measure ds => ds.flatMap measureNames
  | .sort e _ => namesIn e
  | _ => []

/-- The names that a part of a text uses. -/
def namesUsed : Sec.PlanDetail → List Str
  | .relation t => t.ref.id :: t.details.flatMap detailNames
  | .pipelines ps => ps.flatten.map (·.name)
  | _ => []

/-- The names that a part of a text gives to something. -/
def namesGiven (d : Sec.PlanDetail) : List Str := (given d).map (·.1)

/-- The names of the files of a source. -/
def filesOf : Sec.PlanDetail → List Str
  | .source (.localFiles _ fs) => fs.map (·.text)
  | _ => []

/-- A schema or a source. -/
def isData : Sec.PlanDetail → Bool
  | .schema _ _ => true
  | .source _ => true
  | _ => false

/-- A schema or a source between the parts `a` and `b` of a text that can be read by itself and whose
names are not used.  (The details of a file go to the first symbol that is called like the file.) -/
structure Unused (a : List Sec.PlanDetail) (d : Sec.PlanDetail) (b : List Sec.PlanDetail) : Prop where
  data : isData d = true
  readable : ∃ st, Sec.visitPlan [d] = .ok st ∧ st.errs = []
  unused : ∀ n ∈ namesGiven d, ∀ e ∈ a ++ b, n ∉ namesUsed e
  root : ∀ n ∈ namesGiven d, n ≠ "root".toList ∧ n ≠ "root.names".toList
  filesBefore : ∀ n ∈ filesOf d, ∀ e ∈ a, n ∉ namesGiven e
  filesAfter : ∀ n ∈ namesGiven d, ∀ e ∈ b, n ∉ filesOf e

end Verif.Whole
