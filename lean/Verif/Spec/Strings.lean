import Verif.Model.Basic

/-! # Specification of the string helpers -/

namespace Verif.StringSpec

open Verif

/-- The blanks. -/
def blanks : List Char := [' ', '\n', '\r', '\t', '\x0c', '\x0b']

/-- `t` is `s` without its blanks in front and behind: only blanks are removed, and no blank
is left at either end. -/
def IsTrim (s t : Str) : Prop :=
  (∃ pre post, s = pre ++ t ++ post ∧ (∀ c ∈ pre, c ∈ blanks) ∧ (∀ c ∈ post, c ∈ blanks)) ∧
  (∀ c, t.head? = some c → c ∉ blanks) ∧ (∀ c, t.getLast? = some c → c ∉ blanks)

/-- One or more decimal digits. -/
def IsDigits (s : Str) : Prop := s ≠ [] ∧ ∀ c ∈ s, c ∈ "0123456789".toList

end Verif.StringSpec
