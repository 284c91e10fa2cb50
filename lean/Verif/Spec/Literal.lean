import Verif.Model.Literal
import Verif.Spec.TypeProto
import Verif.Spec.Decimal

/-!
# Specification of literals in text plans
-/

namespace Verif.Literal

open Verif Verif.TyPb

/-- The value of a 64-bit field. -/
def Int64 (i : Int) : Prop := -9223372036854775808 ≤ i ∧ i ≤ 9223372036854775807

instance (i : Int) : Decidable (Int64 i) := inferInstanceAs (Decidable (_ ∧ _))

/-- The numbers are values of the fields of the message. -/
def Atom.fits : Atom → Prop
  | .i8 v | .i16 v | .i32 v | .date v => Int32 v
  | .i64 v => Int64 v
  | .intervalYear y m => Int32 y ∧ Int32 m
  | .intervalDay d s u => Int32 d ∧ Int32 s ∧ Int32 u
  | .varChar _ l => 0 ≤ l ∧ l < 4294967296
  | .decimal d => Int32 d.precision ∧ Int32 d.scale
  | _ => True

/-- The texts in a literal have no backslash (C34 says what happens to backslashes). -/
def Atom.noBackslash : Atom → Prop
  | .string s | .fixedChar s | .varChar s _ => '\\' ∉ s
  | _ => True

/-- What the library prints for numbers that are not finite. -/
def notFinite : List Str := ["inf".toList, "-inf".toList, "nan".toList, "-nan".toList]

/-- The library prints floating point numbers as a numeral (an optional sign, digits, an
optional fraction, an optional exponent with a sign) or as one of the four words. -/
def Lib.Numerals (lib : Lib) : Prop :=
  (∀ x, IsNumberText (lib.print32 x) ∨ lib.print32 x ∈ notFinite) ∧
  (∀ x, IsNumberText (lib.print64 x) ∨ lib.print64 x ∈ notFinite)

/-- The literal is printed without an error and the text is read back, without an error, as
the same literal. -/
def ReadsBack (lib : Lib) (l : PbLit) : Prop :=
  (printLiteral lib l).2 = [] ∧
  readLiteral lib (printLiteral lib l).1 = some (.ok (l, []))

/-- The literals that survive printing and reading. -/
def Survives (lib : Lib) : Atom → Bool → Prop
  | .i8 _, _ | .i16 _, _ | .i32 _, _ | .i64 _, _ => True
  | .fp32 x, _ => lib.print32 x ∉ notFinite ∧ lib.read32 (lib.print32 x) = .ok x
  | .fp64 x, _ => lib.print64 x ∉ notFinite ∧ lib.read64 (lib.print64 x) = .ok x
  | .date d, n => n = false ∧ -4371587 ≤ d ∧ d ≤ 2932896
  | .string _, n => n = false
  | .intervalYear _ _, n => n = false
  | .intervalDay _ _ _, n => n = false
  | .fixedChar s, n => n = false ∧ s.length ≤ 2147483647
  | .varChar _ l, n => n = false ∧ l ≤ 2147483647
  | .decimal d, n =>
    n = false ∧ d.value.length = 16 ∧ 2 * Decimal.unsigned d.value < 256 ^ 16 ∧
      1 ≤ d.precision ∧ d.precision ≤ 38
  | _, _ => False

end Verif.Literal
