import Verif.Model.Exceptions

/-! # What exceptions say -/

namespace Verif.Fault

open Verif

/-- There are no braces in the text. -/
def NoBraces (s : Str) : Prop := '{' ∉ s ∧ '}' ∉ s

/-- The types with parameters. -/
def compoundNames : List Str :=
  ["list".toList, "map".toList, "struct".toList, "decimal".toList, "varchar".toList,
   "fixedchar".toList, "fixedbinary".toList]

/-- The text is one with parameters of a type that is not known. -/
def Unknown (raw : Str) : Prop :=
  ∃ base rest, raw = base ++ '<' :: rest ∧ '<' ∉ base ∧ base.map toLower ∉ compoundNames

/-- The exception names this text as the type that is not supported. -/
def Names (r : Raised) (raw : Str) : Prop :=
  r = .substrait true "UNSUPPORTED".toList ("Unsupported type: ".toList ++ raw)

/-- What the model without messages says of an exception. -/
def Raised.kind : Raised → Exc
  | .substrait true _ _ => .unsupported
  | .substrait false _ _ => .fail
  | .format => .unsupported
  | .outOfRange => .outOfRange

def Says.kind {α : Type} : Says α → Outcome α
  | .ok a => .ok a
  | .raised r => .throw r.kind
  | .ub => .ub

end Verif.Fault
