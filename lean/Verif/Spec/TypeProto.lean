import Verif.Model.TypeProto
import Verif.Model.ParseTree
import Verif.Spec.Types

/-!
# Specification of type text in text plans

What a type written in a text plan means, without the decoder and the visitor.
-/

namespace Verif.TyPb

open Verif Verif.Ty Verif.Tree

/-- The nullability of a type as the message says it. -/
def nullabilityOf (nullable : Bool) : Nullability :=
  if nullable then .nullable else .required

mutual
/-- The message for a concrete type. -/
def pbOf : CType → PbType
  | .scalar k n => .scalar k (nullabilityOf n)
  | .decimal p s n => .decimal p s (nullabilityOf n)
  | .fixedBinary l n => .fixedBinary l (nullabilityOf n)
  | .fixedChar l n => .fixedChar l (nullabilityOf n)
  | .varchar l n => .varchar l (nullabilityOf n)
  | .list e n => .list (pbOf e) (nullabilityOf n)
  | .struct cs n => .struct (pbsOf cs) (nullabilityOf n)
  | .map k v n => .map (pbOf k) (pbOf v) (nullabilityOf n)
def pbsOf : List CType → List PbType
  | [] => []
  | c :: cs => pbOf c :: pbsOf cs
end

mutual
/-- No fixed binary type inside. -/
def noFixedBinary : CType → Bool
  | .fixedBinary _ _ => false
  | .list e _ => noFixedBinary e
  | .struct cs _ => noFixedBinaries cs
  | .map k v _ => noFixedBinary k && noFixedBinary v
  | _ => true
def noFixedBinaries : List CType → Bool
  | [] => true
  | c :: cs => noFixedBinary c && noFixedBinaries cs
end

/-- The names of the simple types, with the two short forms. -/
def simpleNames : List (String × Scalar) :=
  [("boolean", .bool), ("bool", .bool), ("i8", .i8), ("i16", .i16), ("i32", .i32),
   ("i64", .i64), ("fp32", .fp32), ("fp64", .fp64), ("string", .string), ("str", .string),
   ("binary", .binary), ("timestamp", .timestamp), ("date", .date), ("time", .time),
   ("interval_year", .intervalYear), ("interval_day", .intervalDay),
   ("timestamp_tz", .timestampTz), ("uuid", .uuid)]

/-- The simple type with this name, in any mixture of cases. -/
def simpleType (id : Str) : Option Scalar :=
  (simpleNames.find? fun e => e.1.toList = id.map toLower).map (·.2)

/-- A numeral without sign, fraction and exponent. -/
def IsDigits (s : Str) : Prop := s ≠ [] ∧ ∀ c ∈ s, isDigit c = true

instance (s : Str) : Decidable (IsDigits s) := inferInstanceAs (Decidable (_ ∧ _))

/-- The parameter a numeral stands for, if it fits an `int`. -/
def param (s : Str) : Option Int :=
  if IsDigits s ∧ digitsVal s ≤ 2147483647 then some (digitsVal s) else none

/-- The characters of an identifier of the grammar. -/
def IsIdText (s : Str) : Prop :=
  s ≠ [] ∧ ∀ c ∈ s, Lex.isLetter c = true ∨ isDigit c = true ∨ c = '$' ∨ c = '_'

/-- The texts of NUMBER tokens: sign, digits, fraction, exponent. -/
def IsNumberText (s : Str) : Prop :=
  ∃ sign digits frac exp : Str, s = sign ++ digits ++ frac ++ exp ∧
    (sign = [] ∨ sign = ['-']) ∧ IsDigits digits ∧
    (frac = [] ∨ ∃ f, frac = '.' :: f ∧ IsDigits f) ∧
    (exp = [] ∨ ∃ e sg x, exp = e :: sg :: x ∧ (e = 'e' ∨ e = 'E') ∧ (sg = '+' ∨ sg = '-') ∧
      IsDigits x)

/-- The words of the grammar for types with parts; they are not identifiers. -/
def typeKeywords : List Str := ["list".toList, "map".toList, "struct".toList]

mutual
/-- The trees the grammar can build: identifiers, numbers and keywords are what the lexer
makes of them, and a struct has at least one (possibly absent) item. -/
def WellFormed : TypeTree → Prop
  | .absent => True
  | .basic id _ numbers =>
    IsIdText id ∧ id.map toLower ∉ typeKeywords ∧ ∀ x ∈ numbers, IsNumberText x
  | .list kw _ e => kw.map toLower = "list".toList ∧ WellFormed e
  | .map kw _ k _ v => kw.map toLower = "map".toList ∧ WellFormed k ∧ WellFormed v
  | .struct kw _ items =>
    kw.map toLower = "struct".toList ∧ items ≠ [] ∧ AllWellFormed items
def AllWellFormed : List TypeTree → Prop
  | [] => True
  | t :: ts => WellFormed t ∧ AllWellFormed ts
end

/-- The type a name with parameters stands for. -/
def basicMeaning (id : Str) (q : Bool) (numbers : List Str) : Option CType :=
  match numbers with
  | [] => (simpleType id).map fun k => .scalar k q
  | [x] =>
    (param x).bind fun l =>
      if id.map toLower = "fixedchar".toList then some (.fixedChar l q)
      else if id.map toLower = "varchar".toList then some (.varchar l q)
      else if id.map toLower = "fixedbinary".toList then some (.fixedBinary l q)
      else none
  | [x, y] =>
    (param x).bind fun p => (param y).bind fun s =>
      if id.map toLower = "decimal".toList then some (.decimal p s q) else none
  | _ => none

mutual
/-- The type a tree stands for, if it stands for one. -/
def meaning : TypeTree → Option CType
  | .absent => none
  | .basic id q numbers => basicMeaning id q numbers
  | .list _ q e => (meaning e).map fun t => .list t q
  | .map _ q k c v =>
    if c then (meaning k).bind fun a => (meaning v).map fun b => .map a b q else none
  | .struct _ q items => (meanings items).map fun ts => .struct ts q
def meanings : List TypeTree → Option (List CType)
  | [] => some []
  | t :: ts => (meaning t).bind fun a => (meanings ts).map fun as => a :: as
end

/-- The names of the types with one length. -/
def lengthNames : List Str := ["fixedchar".toList, "varchar".toList, "fixedbinary".toList]

mutual
/-- Every number in the tree is a plain numeral, the types with a length have exactly one
number, and the length of a `fixedbinary` fits an `int`.  The trees the reader treats
wrongly are outside this set. -/
def PlainNumbers : TypeTree → Prop
  | .absent => True
  | .basic id _ numbers =>
    (∀ x ∈ numbers, IsDigits x) ∧ (id.map toLower ∈ lengthNames → numbers.length ≤ 1) ∧
    (id.map toLower = "fixedbinary".toList → ∀ x ∈ numbers, digitsVal x ≤ 2147483647)
  | .list _ _ e => PlainNumbers e
  | .map _ _ k _ v => PlainNumbers k ∧ PlainNumbers v
  | .struct _ _ items => AllPlainNumbers items
def AllPlainNumbers : List TypeTree → Prop
  | [] => True
  | t :: ts => PlainNumbers t ∧ AllPlainNumbers ts
end

/-- The value of a parameter field of the message: a 32-bit integer. -/
def Int32 (i : Int) : Prop := -2147483648 ≤ i ∧ i ≤ 2147483647

instance (i : Int) : Decidable (Int32 i) := inferInstanceAs (Decidable (_ ∧ _))

/-- The scalar kinds the printer supports. -/
def printableScalar : Scalar → Bool
  | .bool | .i8 | .i16 | .i32 | .i64 | .fp32 | .fp64 | .string | .date => true
  | .binary | .timestamp | .time | .intervalYear | .intervalDay | .timestampTz | .uuid => false

/-- The kinds of type the printer supports. -/
def printable : PbType → Bool
  | .scalar k _ => printableScalar k
  | .decimal _ _ _ | .varchar _ _ | .fixedChar _ _ => true
  | _ => false

/-- A message whose parameters are 32-bit integers (only the outermost kind matters for
the kinds the printer supports). -/
def paramsFit : PbType → Prop
  | .decimal p s _ => Int32 p ∧ Int32 s
  | .varchar l _ | .fixedChar l _ | .fixedBinary l _ => Int32 l
  | _ => True

/-- The nullability of the outermost type. -/
def nullability : PbType → Nullability
  | .notSet | .other => .unspecified
  | .scalar _ n | .fixedChar _ n | .varchar _ n | .fixedBinary _ n | .decimal _ _ n
  | .struct _ n | .list _ n | .map _ _ n => n

/-- The same type with another nullability. -/
def withNullability (m : Nullability) : PbType → PbType
  | .notSet => .notSet
  | .other => .other
  | .scalar k _ => .scalar k m
  | .fixedChar l _ => .fixedChar l m
  | .varchar l _ => .varchar l m
  | .fixedBinary l _ => .fixedBinary l m
  | .decimal p s _ => .decimal p s m
  | .struct ts _ => .struct ts m
  | .list e _ => .list e m
  | .map k v _ => .map k v m

end Verif.TyPb
