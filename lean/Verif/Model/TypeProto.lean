import Verif.Model.Type

/-!
Model of the two conversions between text and the protobuf message `substrait.Type`:
`PlanPrinterVisitor::visitType` (src/substrait/textplan/PlanPrinterVisitor.cpp) and
`SubstraitPlanTypeVisitor` (src/substrait/textplan/parser/SubstraitPlanTypeVisitor.cpp).
-/

namespace Verif.TyPb

open Verif Verif.Ty

/-- `substrait.Type.Nullability`.  Simplification: numbers that are not enumerators (proto3
enumerations are open) are left out; the code treats them like `unspecified`. -/
inductive Nullability where
  | unspecified | nullable | required
  deriving DecidableEq, Repr

/-- The message `substrait.Type`.  `notSet` is the message without a kind.  Simplifications:
type variation references are left out (no code here reads or writes them); an absent
element, key or value type is `notSet`; `other` stands for the two user defined kinds. -/
inductive PbType where
  | notSet
  | scalar (k : Scalar) (n : Nullability)
  | fixedChar (length : Int) (n : Nullability)
  | varchar (length : Int) (n : Nullability)
  | fixedBinary (length : Int) (n : Nullability)
  | decimal (precision scale : Int) (n : Nullability)
  | struct (types : List PbType) (n : Nullability)
  | list (element : PbType) (n : Nullability)
  | map (key value : PbType) (n : Nullability)
  | other
  deriving Repr

/-! ## Printing -/

/-- The errors `visitType` reports. -/
inductive PrintErr where
  /-- "Invalid type message -- type was not included." -/
  | missing
  /-- "Unsupported type requested: ..." -/
  | unsupported
  deriving DecidableEq, Repr

/-- The `?` written for a nullable type (PlanPrinterVisitor.cpp:455-533). -/
def nullMark (n : Nullability) : Str := if n = .nullable then ['?'] else []

/-- The names `visitType` prints (PlanPrinterVisitor.cpp:454-538); `none` for the scalar
kinds it does not support (:543-549). -/
def printName : Scalar → Option Str
  | .bool => some "bool".toList
  | .i8 => some "i8".toList
  | .i16 => some "i16".toList
  | .i32 => some "i32".toList
  | .i64 => some "i64".toList
  | .fp32 => some "fp32".toList
  | .fp64 => some "fp64".toList
  | .string => some "string".toList
  | .date => some "date".toList
  | _ => none

/-- PlanPrinterVisitor.cpp:454-508, 532-537, 543-549: the kinds without parameters. -/
def printScalar (k : Scalar) (n : Nullability) : Str × List PrintErr :=
  match printName k with
  | some name => (name ++ nullMark n, [])
  | none => ("UNSUPPORTED_TYPE".toList, [.unsupported])

/-- PlanPrinterVisitor.cpp:452-563 `visitType`: the text and the errors reported. -/
def printType : PbType → Str × List PrintErr
  | .scalar k n => printScalar k n
  | .decimal p s n =>
    ("decimal".toList ++ nullMark n ++ '<' :: intText p ++ ',' :: intText s ++ ['>'], [])
  | .varchar l n => ("varchar".toList ++ nullMark n ++ '<' :: intText l ++ ['>'], [])
  | .fixedChar l n => ("fixedchar".toList ++ nullMark n ++ '<' :: intText l ++ ['>'], [])
  | .notSet => ("MISSING_TYPE".toList, [.missing])
  | .fixedBinary _ _ | .struct _ _ | .list _ _ | .map _ _ _ | .other =>
    ("UNSUPPORTED_TYPE".toList, [.unsupported])

/-! ## Reading -/

/-- The errors `SubstraitPlanTypeVisitor` reports. -/
inductive TypeErr where
  /-- "Failed to decode type." -/
  | cannotDecode
  /-- "Could not parse fixedchar length." -/
  | fixedCharLength
  /-- "Missing varchar length." -/
  | varcharMissing
  /-- "Could not parse varchar length." -/
  | varcharLength
  /-- "Could not parse decimal precision and scale." -/
  | decimalParams
  /-- "Maps require both a key and a value type." -/
  | mapParts
  /-- "Unable to recognize requested type." -/
  | unrecognized
  deriving DecidableEq, Repr

/-- The digits at the start of a text: the part `strtol` reads. -/
def leadDigits (s : Str) : Str := s.takeWhile isDigit

/-- The sign (true for minus) and the digits `strtol` reads after the blanks. -/
def signDigits : Str → Bool × Str
  | '-' :: r => (true, leadDigits r)
  | '+' :: r => (false, leadDigits r)
  | r => (false, leadDigits r)

/-- `std::stoi`/`std::stol` of a text with the bounds `-bound - 1` and `bound`: blanks, an
optional sign, digits; what follows is ignored. -/
def stoBound (bound : Nat) (s : Str) : Outcome Int :=
  let r := signDigits (s.dropWhile StringUtils.isSpace)
  if r.2.isEmpty then .throw .invalidArgument
  else if r.1 then
    if digitsVal r.2 ≤ bound + 1 then .ok (-(digitsVal r.2 : Int)) else .throw .outOfRange
  else
    if digitsVal r.2 ≤ bound then .ok (digitsVal r.2) else .throw .outOfRange

/-- `std::stoi`: `int` has 32 bits. -/
def stoi32 (s : Str) : Outcome Int := stoBound 2147483647 s

/-- The value and the errors reported so far. -/
abbrev Typed := PbType × List TypeErr

/-- SubstraitPlanTypeVisitor.cpp:40-43. -/
def nullValue (nullable : Bool) : Nullability := if nullable then .nullable else .required

/-- SubstraitPlanTypeVisitor.cpp:92-107.  The length pointer is dereferenced without a test;
a failed conversion leaves length 0. -/
def fixedCharToProto (length : PType) (n : Bool) : Outcome Typed :=
  match length with
  | .lit v _ _ =>
    match stoi32 v with
    | .ok l => .ok (.fixedChar l (nullValue n), [])
    | _ => .ok (.fixedChar 0 (nullValue n), [.fixedCharLength])
  | _ => .ub

/-- SubstraitPlanTypeVisitor.cpp:108-127.  The `break` inside `try` leaves the type unset. -/
def varcharToProto (length : PType) (n : Bool) : Outcome Typed :=
  match length with
  | .lit v _ _ =>
    if NumberUtils.isInteger v then
      match stoi32 v with
      | .ok l => .ok (.varchar l (nullValue n), [])
      | _ => .ok (.varchar 0 (nullValue n), [.varcharLength])
    else .ok (.notSet, [.varcharMissing])
  | _ => .ub

/-- SubstraitPlanTypeVisitor.cpp:131-146.  Both conversions come before both stores. -/
def decimalToProto (precision scale : PType) (n : Bool) : Outcome Typed :=
  match precision with
  | .lit pv _ _ =>
    match stoi32 pv with
    | .ok p =>
      match scale with
      | .lit sv _ _ =>
        match stoi32 sv with
        | .ok s => .ok (.decimal p s (nullValue n), [])
        | _ => .ok (.decimal 0 0 (nullValue n), [.decimalParams])
      | _ => .ub
    | _ => .ok (.decimal 0 0 (nullValue n), [.decimalParams])
  | _ => .ub

mutual
/-- SubstraitPlanTypeVisitor.cpp:37-187 `typeToProto`.  `inside` is the value of
`insideStructLiteralWithExternalType(ctx)` (:171-185).  Only objects decoded in the
parameterised mode are passed: a null pointer and the classes without parameters that the
code would `reinterpret_cast` are undefined behaviour. -/
def typeToProto (inside : Bool) : PType → Outcome Typed
  | .null => .ub
  | .scalar k n => .ok (.scalar k (nullValue n), [])
  | .pFixedChar l n => fixedCharToProto l n
  | .pVarchar l n => varcharToProto l n
  | .pFixedBinary _ n => .ok (.fixedBinary 0 (nullValue n), [])
  | .pDecimal p s n => decimalToProto p s n
  | .pStruct cs n =>
    (typesToProto inside cs).bind fun r => .ok (.struct r.1 (nullValue n), r.2)
  | .pList e n =>
    (typeToProto inside e).bind fun r => .ok (.list r.1 (nullValue n), r.2)
  | .pMap k v n =>
    if k.isNull || v.isNull then .ok (.notSet, [.mapParts])
    else
      (typeToProto inside k).bind fun a => (typeToProto inside v).bind fun b =>
        .ok (.map a.1 b.1 (nullValue n), a.2 ++ b.2)
  | .lit _ _ _ => .ok (.notSet, if inside then [] else [.unrecognized])
  | _ => .ub
/-- SubstraitPlanTypeVisitor.cpp:148-153, the loop over the children. -/
def typesToProto (inside : Bool) : List PType → Outcome (List PbType × List TypeErr)
  | [] => .ok ([], [])
  | c :: cs =>
    (typeToProto inside c).bind fun a => (typesToProto inside cs).bind fun b =>
      .ok (a.1 :: b.1, a.2 ++ b.2)
end

/-- SubstraitPlanTypeVisitor.cpp:24-35 `textToTypeProto`: every exception of the decoder is
turned into an error and the empty type. -/
def textToTypeProto (inside : Bool) (text : Str) : Outcome Typed :=
  match decode true text with
  | .ok t => typeToProto inside t
  | .throw _ => .ok (.notSet, [.cannotDecode])
  | .ub => .ub

end Verif.TyPb
