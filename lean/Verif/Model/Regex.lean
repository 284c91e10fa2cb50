import Verif.Model.Basic

/-!
Regular expressions, as far as `std::regex` is used in the code.  `std::regex_search` finds a
match iff some substring is in the language; which match is found plays no role.  The model
decides membership by derivatives.
-/

namespace Verif.Regex

open Verif

inductive Re where
  | none
  | eps
  | chr (p : Char → Bool)
  | seq (a b : Re)
  | alt (a b : Re)
  | star (a : Re)

/-- The empty string is in the language. -/
def Re.nullable : Re → Bool
  | .none => false
  | .eps => true
  | .chr _ => false
  | .seq a b => a.nullable && b.nullable
  | .alt a b => a.nullable || b.nullable
  | .star _ => true

/-- What may follow after `c`. -/
def Re.deriv (c : Char) : Re → Re
  | .none => .none
  | .eps => .none
  | .chr p => if p c then .eps else .none
  | .seq a b => if a.nullable then .alt (.seq (a.deriv c) b) (b.deriv c) else .seq (a.deriv c) b
  | .alt a b => .alt (a.deriv c) (b.deriv c)
  | .star a => .seq (a.deriv c) (.star a)

/-- A match at the start of the text. -/
def matchPrefix : Re → Str → Bool
  | r, [] => r.nullable
  | r, c :: cs => r.nullable || matchPrefix (r.deriv c) cs

/-- `std::regex_search`: a match anywhere. -/
def search (r : Re) : Str → Bool
  | [] => matchPrefix r []
  | c :: cs => matchPrefix r (c :: cs) || search r cs

/-- A literal text. -/
def lit : Str → Re
  | [] => .eps
  | c :: cs => .seq (.chr (· == c)) (lit cs)

/-- Alternatives. -/
def alts : List Re → Re
  | [] => .none
  | [r] => r
  | r :: rs => .alt r (alts rs)

/-- `r+`. -/
def plus (r : Re) : Re := .seq r (.star r)

/-- `std::regex_search` for `(^|\n)r`: `^` is the start of the text only (no `multiline`
flag). -/
def searchLine (r : Re) (s : Str) : Bool :=
  matchPrefix r s || search (.seq (.chr (· == '\n')) r) s

end Verif.Regex
