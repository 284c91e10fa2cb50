import Verif.Spec.Traverse

/-! # The line of inputs below a relation -/

namespace Verif.Trav

/-- The input of a relation that has exactly one. -/
def onlyInput (r : Msg) : Option Msg :=
  match r.fields.caseOf relCases with
  | some (.filterRel, m) | some (.fetch, m) | some (.aggregate, m) | some (.sortRel, m)
  | some (.project, m) | some (.extensionSingle, m) | some (.window, m) | some (.exchange, m)
  | some (.expand, m) | some (.write, m) => m.fields.get .input
  | _ => none

/-- A relation, its only input, the only input of that, and so on to a relation that has none or
several. -/
inductive Line : Msg → List Nat → Prop
  | last {r : Msg} (h : onlyInput r = none) : Line r [r.loc]
  | more {r x : Msg} {xs : List Nat} (h : onlyInput r = some x) (hx : Line x xs) :
      Line r (r.loc :: xs)

end Verif.Trav
