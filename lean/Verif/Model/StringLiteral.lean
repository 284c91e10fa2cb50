import Verif.Model.StringUtils
import Verif.Model.StringManipulation

/-!
Model of string literals in text plans: `stringEscape`
(src/substrait/textplan/PlanPrinterVisitor.cpp:34-44) and `visitString`, `escapeText`
(src/substrait/textplan/parser/SubstraitPlanRelationVisitor.cpp:1466-1649).

The error listener is modelled by the list of the positions handed to it, relative to the
position of the token.
-/

namespace Verif.StrLit

open Verif

/-- PlanPrinterVisitor.cpp:34-44 `stringEscape`. -/
def stringEscape : Str → Str
  | [] => []
  | c :: cs => if c = '"' then '\\' :: c :: stringEscape cs else c :: stringEscape cs

/-! ## `absl::SimpleHexAtoi` -/

/-- Value of a hexadecimal digit. -/
def hexDigit (c : Char) : Option Nat :=
  if 48 ≤ c.toNat ∧ c.toNat ≤ 57 then some (c.toNat - 48)
  else if 65 ≤ c.toNat ∧ c.toNat ≤ 70 then some (c.toNat - 55)
  else if 97 ≤ c.toNat ∧ c.toNat ≤ 102 then some (c.toNat - 87)
  else none

/-- Value of a hexadecimal numeral read so far as `acc`; `none` at any other character. -/
def hexVal (acc : Nat) : Str → Option Nat
  | [] => some acc
  | c :: cs =>
    match hexDigit c with
    | some d => hexVal (16 * acc + d) cs
    | none => none

/-- The optional prefix `0x`. -/
def dropHexPrefix : Str → Str
  | '0' :: 'x' :: r => r
  | '0' :: 'X' :: r => r
  | r => r

/-- The optional plus sign. -/
def dropPlus : Str → Str
  | '+' :: u => u
  | u => u

/-- `absl::SimpleHexAtoi` into a signed integer of `bits` bits: blanks around the text are
skipped, then an optional sign, an optional `0x`, at least one digit; overflow is a
failure. -/
def simpleHexAtoi (bits : Nat) (s : Str) : Option Int :=
  match StringUtils.trim s with
  | '-' :: u =>
    if dropHexPrefix u = [] then none
    else
      match hexVal 0 (dropHexPrefix u) with
      | some n => if n ≤ 2 ^ (bits - 1) then some (-(n : Int)) else none
      | none => none
  | t =>
    if dropHexPrefix (dropPlus t) = [] then none
    else
      match hexVal 0 (dropHexPrefix (dropPlus t)) with
      | some n => if n < 2 ^ (bits - 1) then some (n : Int) else none
      | none => none

/-- `static_cast<char>(v & 0xff)`. -/
def lowByte (v : Int) : Char := Char.ofNat (v % 256).toNat

/-! ## `escapeText` -/

/-- `a - b` on `size_t`. -/
def subSize (a b : Nat) : Nat := if b ≤ a then a - b else a + 2 ^ 64 - b

/-- `str[i]` on a `const std::string`: the position after the end is a null character. -/
def charAt (str : Str) (i : Nat) : Outcome Char :=
  match str[i]? with
  | some c => .ok c
  | none => if i = str.length then .ok (Char.ofNat 0) else .ub

/-- `str.substr(pos, n)`. -/
def substr (str : Str) (pos n : Nat) : Outcome Str :=
  if pos ≤ str.length then .ok ((str.drop pos).take n) else .throw .outOfRange

/-- The one-character escapes, SubstraitPlanRelationVisitor.cpp:1571-1594. -/
def simpleEscape (c : Char) : Option Char :=
  if c = '\\' then some '\\'
  else if c = '\'' then some '\''
  else if c = '"' then some '"'
  else if c = 'b' then some (Char.ofNat 8)
  else if c = 'f' then some (Char.ofNat 12)
  else if c = 'n' then some (Char.ofNat 10)
  else if c = 'r' then some (Char.ofNat 13)
  else if c = 't' then some (Char.ofNat 9)
  else none

/-- SubstraitPlanRelationVisitor.cpp:1618-1627: the bytes for `x` digits of value `hex`;
`none` is a missing closing brace, `x` then is `npos`. -/
def unicodeBytes (x : Option Nat) (hex : Int) : Str :=
  match x with
  | some x =>
    if x ≤ 2 then [lowByte hex]
    else if x ≤ 4 then [lowByte (hex / 256), lowByte hex]
    else if x ≤ 6 then [lowByte (hex / 65536), lowByte (hex / 256), lowByte hex]
    else []
  | none => []

/-- What one round of the loop does: text written, whether an error was reported at the
position of the round, and the next value of `i`. -/
structure Round where
  out : Str
  error : Bool
  next : Nat
  deriving DecidableEq, Repr

/-- SubstraitPlanRelationVisitor.cpp:1633-1640: the `default` case and line 1642. -/
def unknownEscape (c d : Char) (i : Nat) : Round := ⟨[c, d], true, i + 2⟩

/-- SubstraitPlanRelationVisitor.cpp:1595-1608, `c` is `str[i]`. -/
def escapeX (str : Str) (c : Char) (i : Nat) : Outcome Round :=
  if i < subSize str.length 3 then
    (substr str (i + 2) 2).bind fun digits =>
      match simpleHexAtoi 32 digits with
      | some hex => .ok ⟨[lowByte hex], false, i + 4⟩
      | none => .ok ⟨[c, 'x'], false, i + 2⟩
  else .ok ⟨[c, 'x'], false, i + 2⟩

/-- SubstraitPlanRelationVisitor.cpp:1609-1632.  If the closing brace is missing, `x` is
`npos`, so `i += x + 3` wraps to `i + 2`. -/
def escapeU (str : Str) (c : Char) (i : Nat) : Outcome Round :=
  if i < subSize str.length 3 then
    (charAt str (i + 2)).bind fun b =>
      if b ≠ '{' then .ok ⟨[], false, i + 2⟩
      else
        (substr str (i + 3) str.length).bind fun sub =>
          let x := findFirst '}' sub
          if x ≠ some 0 then
            match simpleHexAtoi 64 (match x with
              | some n => sub.take n
              | none => sub) with
            | some hex =>
              .ok ⟨unicodeBytes x hex, false,
                match x with
                | some n => i + n + 4
                | none => i + 3⟩
            | none => .ok (unknownEscape c 'u' i)
          else .ok (unknownEscape c 'u' i)
  else .ok (unknownEscape c 'u' i)

/-- SubstraitPlanRelationVisitor.cpp:1569-1645: one round of the loop. -/
def escapeRound (str : Str) (i : Nat) : Outcome Round :=
  (charAt str i).bind fun c =>
    if c = '\\' ∧ i < subSize str.length 1 then
      (charAt str (i + 1)).bind fun d =>
        match simpleEscape d with
        | some v => .ok ⟨[v], false, i + 2⟩
        | none =>
          if d = 'x' then escapeX str c i
          else if d = 'u' then escapeU str c i
          else .ok (unknownEscape c d i)
    else .ok ⟨[c], false, i + 1⟩

/-- SubstraitPlanRelationVisitor.cpp:1568-1646: the loop.  Every round increases `i`, so
`str.length` rounds are enough (`escapeText_total`); running out of `fuel` stands for an
endless loop and is `ub`. -/
def escapeLoop (str : Str) : Nat → Nat → Outcome (Str × List Nat)
  | fuel, i =>
    if i < str.length then
      match fuel with
      | 0 => .ub
      | fuel + 1 =>
        (escapeRound str i).bind fun r =>
          (escapeLoop str fuel r.next).bind fun rest =>
            .ok (r.out ++ rest.1, if r.error then i :: rest.2 else rest.2)
    else .ok ([], [])

/-- SubstraitPlanRelationVisitor.cpp:1563-1649 `escapeText`: the text and the positions of
the errors. -/
def escapeText (str : Str) : Outcome (Str × List Nat) := escapeLoop str str.length 0

/-! ## `visitString` -/

/-- SubstraitPlanRelationVisitor.cpp:1472-1482: removal of the quote marks.  The token is
not empty, `input[0]` exists. -/
def unquote (input : Str) : Outcome Str :=
  if StringManipulation.startsWith input "```".toList then
    substr input 3 (subSize input.length 6)
  else if StringManipulation.startsWith input "``".toList then
    substr input 2 (subSize input.length 4)
  else
    (charAt input 0).bind fun c =>
      if c = '"' ∨ c = '`' then substr input 1 (subSize input.length 2) else .ok input

/-- SubstraitPlanRelationVisitor.cpp:1470-1491: the text a STRING token stands for, and the
positions of the errors. -/
def stringText (input : Str) : Outcome (Str × List Nat) :=
  (unquote input).bind fun str =>
    if StringManipulation.startsWith input "`".toList then .ok (str, []) else escapeText str

/-- `std::isxdigit` in the `"C"` locale. -/
def isHexDigit (c : Char) : Bool := (hexDigit c).isSome

/-- The two error messages for UUIDs. -/
inductive UuidError where
  | notHex
  | length
  deriving DecidableEq, Repr

/-- SubstraitPlanRelationVisitor.cpp:1516-1543: value of the `uuid` field and the error. -/
def uuidValue (text : Str) : Str × Option UuidError :=
  let s := text.filter (· ≠ '-')
  if s.any (fun c => !isHexDigit c) then ("0".toList, some .notHex)
  else if s.length ≠ 32 then (s.take 32, some .length)
  else (s, none)

end Verif.StrLit
