import Verif.Model.Whole

/-! # Runs that come to an end -/

namespace Verif

/-- A normal return or an exception. -/
def Outcome.Defined {α : Type} : Outcome α → Prop
  | .ok _ => True
  | .throw _ => True
  | .ub => False

namespace Whole

mutual
/-- The number of relations in a relation of a binary plan, itself included. -/
def relations : BRel → Nat
  | .node _ kids => 1 + relationsL kids
def relationsL : List BRel → Nat
  | [] => 0
  | r :: rs => relations r + relationsL rs
end

end Whole

end Verif
