import Verif.Model.Basic

/-!
# Specification of string literals

The escapes are those of the table in src/substrait/textplan/README.md:109-118, with `\b` and
`\f` added.
-/

namespace Verif.StrLit

open Verif

/-- The hexadecimal digits and their values. -/
def hexTable : List (Char × Nat) :=
  [('0', 0), ('1', 1), ('2', 2), ('3', 3), ('4', 4), ('5', 5), ('6', 6), ('7', 7), ('8', 8),
   ('9', 9), ('a', 10), ('b', 11), ('c', 12), ('d', 13), ('e', 14), ('f', 15),
   ('A', 10), ('B', 11), ('C', 12), ('D', 13), ('E', 14), ('F', 15)]

/-- `c` is the hexadecimal digit of value `n`. -/
def IsHex (c : Char) (n : Nat) : Prop := (c, n) ∈ hexTable

instance (c : Char) (n : Nat) : Decidable (IsHex c n) := inferInstanceAs (Decidable (_ ∈ _))

/-- `s` is the hexadecimal numeral of value `n`, most significant digit first. -/
inductive HexNumeral : Str → Nat → Prop
  | nil : HexNumeral [] 0
  | snoc (s : Str) (c : Char) (n d : Nat) : HexNumeral s n → IsHex c d →
      HexNumeral (s ++ [c]) (16 * n + d)

/-- One piece of the text of a string literal, together with the bytes it stands for. -/
inductive Piece : Str → Str → Prop
  /-- Any character but a backslash stands for itself. -/
  | plain (c : Char) : c ≠ '\\' → Piece [c] [c]
  | backslash : Piece ['\\', '\\'] ['\\']
  | quote : Piece ['\\', '\''] ['\'']
  | doubleQuote : Piece ['\\', '"'] ['"']
  | backspace : Piece ['\\', 'b'] [Char.ofNat 8]
  | formFeed : Piece ['\\', 'f'] [Char.ofNat 12]
  | newline : Piece ['\\', 'n'] [Char.ofNat 10]
  | carriageReturn : Piece ['\\', 'r'] [Char.ofNat 13]
  | tab : Piece ['\\', 't'] [Char.ofNat 9]
  /-- `\xHH` is one byte. -/
  | byte (a b : Char) (n : Nat) : HexNumeral [a, b] n → Piece ['\\', 'x', a, b] [Char.ofNat n]
  /-- `\u{H}` and `\u{HH}` are one byte. -/
  | one (ds : Str) (n : Nat) : HexNumeral ds n → 1 ≤ ds.length → ds.length ≤ 2 →
      Piece ('\\' :: 'u' :: '{' :: ds ++ ['}']) [Char.ofNat n]
  /-- `\u{HHH}` and `\u{HHHH}` are two bytes. -/
  | two (ds : Str) (a b : Nat) : HexNumeral ds (256 * a + b) → a < 256 → b < 256 →
      3 ≤ ds.length → ds.length ≤ 4 →
      Piece ('\\' :: 'u' :: '{' :: ds ++ ['}']) [Char.ofNat a, Char.ofNat b]
  /-- `\u{HHHHH}` and `\u{HHHHHH}` are three bytes. -/
  | three (ds : Str) (a b c : Nat) : HexNumeral ds (65536 * a + 256 * b + c) →
      a < 256 → b < 256 → c < 256 → 5 ≤ ds.length → ds.length ≤ 6 →
      Piece ('\\' :: 'u' :: '{' :: ds ++ ['}']) [Char.ofNat a, Char.ofNat b, Char.ofNat c]

/-- A text made of well-formed pieces, together with the bytes it stands for. -/
inductive Pieces : Str → Str → Prop
  | nil : Pieces [] []
  | cons (t v ts vs : Str) : Piece t v → Pieces ts vs → Pieces (t ++ ts) (v ++ vs)

/-- `(ESCAPEDQUOTE | ~["])*` of SubstraitPlanLexer.g4:112. -/
inductive StringBody : Str → Prop
  | nil : StringBody []
  | char (c : Char) (r : Str) : c ≠ '"' → StringBody r → StringBody (c :: r)
  | escaped (r : Str) : StringBody r → StringBody ('\\' :: '"' :: r)

/-- The tokens of rule STRING, SubstraitPlanLexer.g4:112. -/
def IsStringToken (t : Str) : Prop := ∃ b, StringBody b ∧ t = '"' :: b ++ ['"']

/-- The letters that may follow a backslash. -/
def escapeLetters : Str := ['\\', '\'', '"', 'b', 'f', 'n', 'r', 't', 'x', 'u']

/-- UTF-8 of a character above 127 and below 2048. -/
def utf8Two (n : Nat) : Str := [Char.ofNat (192 + n / 64), Char.ofNat (128 + n % 64)]

end Verif.StrLit
