import Verif.Model.Whole
import Verif.Spec.TypeProto

/-! # The types written in a text plan -/

namespace Verif.Literal

open Verif Tree TyPb

/-- The type, if there is one, is one the grammar can build. -/
def Formed : Option TypeTree → Prop
  | some t => WellFormed t
  | none => True

mutual
/-- So are the types in a constant. -/
def FormedConst : ConstTree → Prop
  | .number _ own => Formed own
  | .string _ own => Formed own
  | .bool _ _ own => Formed own
  | .null _ own => Formed own
  | .structLit items own => Formed own ∧ FormedConsts items
  | .mapLit keys values own => Formed own ∧ FormedConsts keys ∧ FormedConsts values
def FormedConsts : List ConstTree → Prop
  | [] => True
  | c :: cs => FormedConst c ∧ FormedConsts cs
end

end Verif.Literal

namespace Verif.Expr

open Verif Tree Literal

mutual
/-- The types in an expression. -/
def Formed : ExprTree → Prop
  | .call _ args _ ty => FormedL args ∧ Literal.Formed ty
  | .const k => FormedConst k
  | .column _ _ => True
  | .cast e _ ty => Formed e ∧ TyPb.WellFormed ty
  | .scalarSubquery _ _ => True
  | .inSubquery es _ _ => FormedL es
  | .setPredicate _ _ _ => True
  | .setComparison e _ _ _ _ => Formed e
def FormedL : List ExprTree → Prop
  | [] => True
  | e :: es => Formed e ∧ FormedL es
end

end Verif.Expr

namespace Verif.Rel

open Verif Tree

/-- The types in a part of a measure. -/
def FormedMeasure : MeasureDetail → Prop
  | .measure t ty _ => Expr.Formed t ∧ Literal.Formed ty
  | .filter t => Expr.Formed t
  | .invocation _ => True
  | .sort t _ => Expr.Formed t

/-- The types in a detail of a relation. -/
def FormedDetail : Detail → Prop
  | .filter _ e => Expr.Formed e
  | .expression e _ => Expr.Formed e
  | .grouping e => Expr.Formed e
  | .measure ds => ∀ d ∈ ds, FormedMeasure d
  | .sort e _ => Expr.Formed e
  | _ => True

end Verif.Rel

namespace Verif.Sec

open Verif

/-- The types in a section of a text plan. -/
def FormedPart : PlanDetail → Prop
  | .relation t => ∀ d ∈ t.details, Rel.FormedDetail d
  | .schema _ cs => ∀ c ∈ cs, TyPb.WellFormed c.2
  | _ => True

end Verif.Sec
