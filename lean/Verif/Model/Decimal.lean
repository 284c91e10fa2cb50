import Verif.Model.StringUtils

/-!
Model of `src/substrait/expression/DecimalLiteral.cpp` and its header.
-/

namespace Verif.Decimal

open Verif

/-- DecimalLiteral.h:47-56.  `value` is the `std::string` of bytes. -/
structure Literal where
  value : List UInt8
  precision : Int
  scale : Int
  deriving DecidableEq, Repr

/-- DecimalLiteral.cpp:19-27: the loop of `negate`, with the carry. -/
def negateLoop : Bool → List UInt8 → List UInt8
  | _, [] => []
  | carry, b :: bs =>
    let newB : UInt8 := if carry then ~~~b + 1 else ~~~b
    newB :: negateLoop (carry && newB == 0) bs

/-- DecimalLiteral.cpp:16-29. -/
def negate (value : List UInt8) : List UInt8 := negateLoop true value

/-- The lowest `n` bytes of a number, lowest first. -/
def leBytes : Nat → Nat → List UInt8
  | 0, _ => []
  | n + 1, v => UInt8.ofNat v :: leBytes n (v / 256)

/-- DecimalLiteral.cpp:31-39: the memory of an `absl::uint128` on a little-endian machine. -/
def uint128ToBytes (v : Nat) : List UInt8 := leBytes 16 v

/-- `absl::SimpleAtoi(str, absl::uint128*)`: white space around the text is skipped, a `+` is
allowed, a `-` is refused, then one or more digits with a value below 2^128. -/
def simpleAtoiU128 (s : Str) : Option Nat :=
  let digits (ds : Str) : Option Nat :=
    if NumberUtils.isNonNegativeInteger ds && digitsVal ds < 2 ^ 128 then some (digitsVal ds) else none
  match StringUtils.trim s with
  | '-' :: _ => none
  | '+' :: ds => digits ds
  | ds => digits ds

/-- DecimalLiteral.cpp:48-60. -/
def fromString (s : Str) (precision scale : Int) : Literal :=
  match simpleAtoiU128 s with
  | none => ⟨[], 0, 0⟩
  | some v => ⟨uint128ToBytes v, precision, scale⟩

/-- DecimalLiteral.cpp:62-64. -/
def Literal.isValid (d : Literal) : Bool :=
  d.value.length == 16 && decide (d.precision ≥ 1) && decide (d.precision ≤ 38)

/-- DecimalLiteral.cpp:83-86: the bytes are taken from the last to the first; the
`absl::uint128` shift drops the bits above 128. -/
def accumulate (bytes : List UInt8) : Nat :=
  bytes.reverse.foldl (fun v b => (v <<< 8) % 2 ^ 128 ||| b.toNat) 0

/-- DecimalLiteral.cpp:90-94: the digits, lowest first.  `fuel` bounds the number of rounds;
the value shrinks in each round, so `value` rounds suffice. -/
def digitsBack : Nat → Nat → Str
  | 0, v => [Char.ofNat (48 + v)]
  | fuel + 1, v =>
    if v ≥ 10 then Char.ofNat (48 + v % 10) :: digitsBack fuel (v / 10) else [Char.ofNat (48 + v)]

/-- DecimalLiteral.cpp:66-103. -/
def Literal.toBaseString (d : Literal) : Str :=
  match d.value.getLast? with
  | none => "0".toList
  | some last =>
    let isNegative := last &&& 0x80 ≠ 0
    let processing := if isNegative then negate d.value else d.value
    let v := accumulate processing
    (if isNegative then "-".toList else []) ++ (digitsBack v v).reverse

/-- DecimalLiteral.cpp:105-118.  Simplification: `-scale_` overflows for the smallest `int`;
the model negates exactly. -/
def Literal.toString (d : Literal) : Str :=
  d.toBaseString ++
    (if d.scale > 0 then "E-".toList ++ intText d.scale
      else if d.scale < 0 then "E+".toList ++ intText (-d.scale) else []) ++
    "@precision=".toList ++ intText d.precision

/-- The protobuf message `Expression.Literal.Decimal`. -/
structure Proto where
  value : List UInt8
  precision : Int
  scale : Int
  deriving DecidableEq, Repr

/-- DecimalLiteral.cpp:43-46. -/
def fromProto (p : Proto) : Literal := ⟨p.value, p.precision, p.scale⟩

/-- DecimalLiteral.cpp:120-126. -/
def Literal.toProto (d : Literal) : Proto := ⟨d.value, d.precision, d.scale⟩

end Verif.Decimal
