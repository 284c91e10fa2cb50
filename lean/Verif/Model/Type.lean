import Verif.Model.StringUtils

/-!
Model of `include/substrait/type/Type.h` and `src/substrait/type/Type.cpp`:
the type objects, text decoding, matching and signatures.
-/

namespace Verif.Ty

open Verif

/-- The type kinds without parameters (Type.h:13-38, the `ScalarType` instances). -/
inductive Scalar where
  | bool | i8 | i16 | i32 | i64 | fp32 | fp64 | string | binary | timestamp
  | date | time | intervalYear | intervalDay | timestampTz | uuid
  deriving DecidableEq, Repr

/-- All values of `TypeKind` (Type.h:13-38). -/
inductive Kind where
  | scalar (k : Scalar)
  | fixedChar | varchar | fixedBinary | decimal | struct | list | map | notSet
  deriving DecidableEq, Repr

/-- `TypeTraits<Kind>::kTypeString` of the scalar kinds (Type.h:43-137). -/
def Scalar.typeString : Scalar → Str
  | .bool => "boolean".toList
  | .i8 => "i8".toList
  | .i16 => "i16".toList
  | .i32 => "i32".toList
  | .i64 => "i64".toList
  | .fp32 => "fp32".toList
  | .fp64 => "fp64".toList
  | .string => "string".toList
  | .binary => "binary".toList
  | .timestamp => "timestamp".toList
  | .date => "date".toList
  | .time => "time".toList
  | .intervalYear => "interval_year".toList
  | .intervalDay => "interval_day".toList
  | .timestampTz => "timestamp_tz".toList
  | .uuid => "uuid".toList

/-- `TypeTraits<Kind>::kSignature` of the scalar kinds (Type.h:43-137). -/
def Scalar.signature : Scalar → Str
  | .bool => "bool".toList
  | .i8 => "i8".toList
  | .i16 => "i16".toList
  | .i32 => "i32".toList
  | .i64 => "i64".toList
  | .fp32 => "fp32".toList
  | .fp64 => "fp64".toList
  | .string => "str".toList
  | .binary => "vbin".toList
  | .timestamp => "ts".toList
  | .date => "date".toList
  | .time => "time".toList
  | .intervalYear => "iyear".toList
  | .intervalDay => "iday".toList
  | .timestampTz => "tstz".toList
  | .uuid => "uuid".toList

/-- A `std::shared_ptr<const ParameterizedType>` with the object it points to
(Type.h:181-633).  `null` is the null pointer.  `lit` is `StringLiteral`
(its nullability is always false, Type.h:413-417).  The constructors starting with
`p` are the `Parameterized...` classes; their length, precision and scale members are
`StringLiteralPtr`, so here they are `lit` or `null`. -/
inductive PType where
  | null
  | scalar (k : Scalar) (nullable : Bool)
  | decimal (precision scale : Int) (nullable : Bool)
  | fixedBinary (length : Int) (nullable : Bool)
  | fixedChar (length : Int) (nullable : Bool)
  | varchar (length : Int) (nullable : Bool)
  | list (element : PType) (nullable : Bool)
  | struct (children : List PType) (nullable : Bool)
  | map (key value : PType) (nullable : Bool)
  | lit (value : Str) (wildcard placeholder : Bool)
  | pDecimal (precision scale : PType) (nullable : Bool)
  | pFixedBinary (length : PType) (nullable : Bool)
  | pFixedChar (length : PType) (nullable : Bool)
  | pVarchar (length : PType) (nullable : Bool)
  | pList (element : PType) (nullable : Bool)
  | pStruct (children : List PType) (nullable : Bool)
  | pMap (key value : PType) (nullable : Bool)
  deriving Repr

/-! ## Decoding -/

/-- Type.cpp:17-30, the scanning loop of `findNextComma`: the rest of the text, the
bracket counter and the absolute index of the next character.  Simplification: the
counter does not overflow (`int` needs more than 2^31 brackets). -/
def scanComma : Str → Int → Nat → Option Nat
  | [], _, _ => none
  | c :: cs, cnt, i =>
    if c = '<' then scanComma cs (cnt + 1) (i + 1)
    else if c = '>' then scanComma cs (cnt - 1) (i + 1)
    else if cnt = 0 ∧ c = ',' then some i
    else scanComma cs cnt (i + 1)

/-- Type.cpp:17-30 `findNextComma`; `none` is `npos`. -/
def findNextComma (s : Str) (start : Nat) : Option Nat := scanComma (s.drop start) 0 start

/-- `std::string::substr(pos, right - pos)` with `size_t` arithmetic: when `right` is
`npos` or below `pos` the wrapped count is larger than any string, so the rest of the
text is returned (Type.cpp:272). -/
def substrTo (s : Str) (pos : Nat) (right : Option Nat) : Str :=
  match right with
  | some r => if pos ≤ r then (s.drop pos).take (r - pos) else s.drop pos
  | none => s.drop pos

/-- Type.cpp:264-273: the token loop of `decode`, started at `prev`.  `fuel` bounds the
number of rounds; each round moves `prev` forward, so `s.length + 1` rounds suffice
(`Verif.Ty.tokens_eq` in Lemmas/TypeDecode). -/
def tokensF : Nat → Str → Option Nat → Nat → List Str
  | 0, _, _, _ => []
  | fuel + 1, s, right, prev =>
    match findNextComma s prev with
    | some c => (s.drop prev).take (c - prev) :: tokensF fuel s right (c + 1)
    | none => [substrTo s prev right]

def tokens (s : Str) (right : Option Nat) (prev : Nat) : List Str :=
  tokensF (s.length + 1) s right prev

/-- `std::dynamic_pointer_cast<const Type>`: null for null and for the classes derived
from `ParameterizedTypeBase` (Type.h:230-233, 404-408). -/
def castType : PType → PType
  | .scalar k n => .scalar k n
  | .decimal p s n => .decimal p s n
  | .fixedBinary l n => .fixedBinary l n
  | .fixedChar l n => .fixedChar l n
  | .varchar l n => .varchar l n
  | .list e n => .list e n
  | .struct cs n => .struct cs n
  | .map k v n => .map k v n
  | _ => .null

/-- `std::dynamic_pointer_cast<const StringLiteral>`. -/
def castLit : PType → PType
  | .lit v w p => .lit v w p
  | _ => .null

/-- `std::stoi` on a non-empty all-digit string: `std::out_of_range` above `INT_MAX`. -/
def stoi (s : Str) : Outcome Int :=
  if digitsVal s ≤ 2147483647 then .ok (digitsVal s) else .throw .outOfRange

/-- Type.cpp:47-58. -/
def decodeList (isParam nullable : Bool) (ps : List PType) : Outcome PType :=
  match ps with
  | p0 :: _ => if isParam then .ok (.pList p0 nullable) else .ok (.list (castType p0) nullable)
  | [] => .ub

/-- Type.cpp:60-81. -/
def decodeMap (isParam nullable : Bool) (ps : List PType) : Outcome PType :=
  if isParam then
    match ps with
    | p0 :: p1 :: _ => .ok (.pMap p0 p1 nullable)
    | [p0] => .ok (.pMap p0 .null nullable)
    | [] => .ok (.pMap .null .null nullable)
  else
    match ps with
    | p0 :: p1 :: _ => .ok (.map (castType p0) (castType p1) nullable)
    | _ => .ub

/-- Type.cpp:83-99. -/
def decodeStruct (isParam nullable : Bool) (ps : List PType) : Outcome PType :=
  if isParam then .ok (.pStruct ps nullable) else .ok (.struct (ps.map castType) nullable)

/-- Type.cpp:101-128. -/
def decodeDecimal (isParam nullable : Bool) (ps : List PType) : Outcome PType :=
  match ps with
  | [p0, p1] =>
    if isParam then .ok (.pDecimal (castLit p0) (castLit p1) nullable)
    else
      match castLit p0 with
      | .lit pv _ _ =>
        if NumberUtils.isNonNegativeInteger pv then
          match castLit p1 with
          | .lit sv _ _ =>
            if NumberUtils.isNonNegativeInteger sv then
              (stoi pv).bind fun p => (stoi sv).bind fun s => .ok (.decimal p s nullable)
            else .throw .fail
          | _ => .ub
        else .throw .fail
      | _ => .ub
  | _ => .throw .fail

/-- Type.cpp:130-148 `decodeLengthBaseType`; `pcls` and `cls` are the two classes. -/
def decodeLength (pcls : PType → Bool → PType) (cls : Int → Bool → PType)
    (isParam nullable : Bool) (ps : List PType) : Outcome PType :=
  match ps with
  | p0 :: _ =>
    if isParam then .ok (pcls (castLit p0) nullable)
    else
      match castLit p0 with
      | .lit v _ _ =>
        if NumberUtils.isNonNegativeInteger v then (stoi v).bind fun l => .ok (cls l nullable)
        else .throw .fail
      | _ => .ub
  | [] => .ub

/-- Type.cpp:212-246: the scalar names, in the order the code tests them. -/
def scalarTable : List (Str × Scalar) :=
  [("boolean".toList, .bool), ("bool".toList, .bool), ("i8".toList, .i8), ("i16".toList, .i16),
   ("i32".toList, .i32), ("i64".toList, .i64), ("fp32".toList, .fp32), ("fp64".toList, .fp64),
   ("string".toList, .string), ("str".toList, .string), ("binary".toList, .binary),
   ("uuid".toList, .uuid), ("interval_year".toList, .intervalYear),
   ("interval_day".toList, .intervalDay), ("timestamp".toList, .timestamp),
   ("timestamp_tz".toList, .timestampTz), ("date".toList, .date), ("time".toList, .time)]

/-- Type.cpp:212-246: the `if` chain, the first equal name wins. -/
def scalarOfName (base : Str) : Option Scalar :=
  (scalarTable.find? fun e => e.1 = base).map (·.2)

/-- Type.cpp:200-252: the branch of `decode` for text without `'<'`; `raw` is the trimmed
text.  `m.substr(0, questionMaskPos)` removes the final `'?'`, because the text ends in
`'?'` and `questionMaskPos` is the last one. -/
def decodeSimple (raw : Str) : PType :=
  let m := raw.map toLower
  let nullable := m.getLast? = some '?'
  let base := if nullable then m.dropLast else m
  match scalarOfName base with
  | some k => .scalar k nullable
  | none =>
    let wildcard := "any".toList.isPrefixOf base
    .lit raw wildcard (!wildcard && !NumberUtils.isInteger raw)

/-- Type.cpp:275-297: selection by base name, after the parameters were decoded. -/
def decodeByName (base : Str) (isParam nullable : Bool) (ps : List PType) : Outcome PType :=
  if base = "list".toList then decodeList isParam nullable ps
  else if base = "map".toList then decodeMap isParam nullable ps
  else if base = "struct".toList then decodeStruct isParam nullable ps
  else if base = "decimal".toList then decodeDecimal isParam nullable ps
  else if base = "varchar".toList then decodeLength .pVarchar .varchar isParam nullable ps
  else if base = "fixedchar".toList then decodeLength .pFixedChar .fixedChar isParam nullable ps
  else if base = "fixedbinary".toList then
    decodeLength .pFixedBinary .fixedBinary isParam nullable ps
  else .throw .unsupported

/-- Type.cpp:254-261: nullability and base name of bracketed text; `left` is the position
of the first `'<'` in the trimmed text `raw`. -/
def bracketHead (raw : Str) (left : Nat) : Str × Bool :=
  let m := raw.map toLower
  let nullable := 1 < left ∧ m[left - 1]? = some '?'
  let basePos :=
    if nullable then
      match findLast '?' m with
      | some q => min left q
      | none => left
    else left
  (m.take basePos, nullable)

/-- Type.cpp:185-299 `ParameterizedType::decode`.  `fuel` bounds the recursion depth; every
recursive call is on a shorter text, so `value.length + 1` is enough
(`Verif.Ty.decode_eq` in Lemmas/TypeDecode shows the bound is never reached).
Simplification: `SUBSTRAIT_UNSUPPORTED("Unsupported type: " + rawType)` uses the text as an
fmt format string, so text with braces raises `fmt::format_error` instead; both are
exceptions and the model does not distinguish them. -/
def decodeF : Nat → Bool → Str → Outcome PType
  | 0, _, _ => .ub
  | fuel + 1, isParam, value =>
    let raw := StringUtils.trim value
    match findFirst '<' raw with
    | none => .ok (decodeSimple raw)
    | some left =>
      let head := bracketHead raw left
      (Outcome.mapM (decodeF fuel isParam) (tokens raw (findLast '>' raw) (left + 1))).bind
        fun ps => decodeByName head.1 isParam head.2 ps

/-- Type.cpp:185-299 and Type.h:196-198. -/
def decode (isParam : Bool) (value : Str) : Outcome PType :=
  decodeF (value.length + 1) isParam value

/-! ## Matching -/

/-- Type.h:200-202 `nullable()`; `none` for the null pointer. -/
def PType.nullable : PType → Option Bool
  | .null => none
  | .scalar _ n | .decimal _ _ n | .fixedBinary _ n | .fixedChar _ n | .varchar _ n
  | .list _ n | .struct _ n | .map _ _ n => some n
  | .lit _ _ _ => some false
  | .pDecimal _ _ n | .pFixedBinary _ n | .pFixedChar _ n | .pVarchar _ n
  | .pList _ n | .pStruct _ n | .pMap _ _ n => some n

/-- `kind()` overrides in Type.h; `none` for the null pointer. -/
def PType.kind : PType → Option Kind
  | .null => none
  | .scalar k _ => some (.scalar k)
  | .decimal _ _ _ | .pDecimal _ _ _ => some .decimal
  | .fixedBinary _ _ | .pFixedBinary _ _ => some .fixedBinary
  | .fixedChar _ _ | .pFixedChar _ _ => some .fixedChar
  | .varchar _ _ | .pVarchar _ _ => some .varchar
  | .list _ _ | .pList _ _ => some .list
  | .struct _ _ | .pStruct _ _ => some .struct
  | .map _ _ _ | .pMap _ _ _ => some .map
  | .lit _ _ _ => some .notSet

/-- Type.h:204-207 `nullMatch`, for a receiver with nullability `self`.  A nullable
receiver does not look at the argument. -/
def nullMatch (self : Bool) (t : PType) : Outcome Bool :=
  if self then .ok true
  else
    match t.nullable with
    | some n => .ok (self == n)
    | none => .ub

/-- Type.h:251-254 `TypeBase::isMatch`. -/
def baseMatch (k : Kind) (self : Bool) (t : PType) : Outcome Bool :=
  match t.kind with
  | some k' => if k = k' then nullMatch self t else .ok false
  | none => .ub

mutual
/-- The `isMatch` overrides: Type.h:251-254, Type.cpp:308-316, 325-332, 341-347, 356-362,
371-377, 395-409, 422-428, 437-446, 455-462, 471-478, 487-494, 503-510, 528-542, 559-566,
666-677.  A call on the null pointer is undefined behaviour. -/
def isMatch : PType → PType → Outcome Bool
  | .null, _ => .ub
  | .scalar k n, t => baseMatch (.scalar k) n t
  | .decimal p s n, t =>
    match t with
    | .decimal p' s' _ =>
      (baseMatch .decimal n t).andThen (.ok (p == p' && s == s'))
    | _ => .ok false
  | .fixedBinary l n, t =>
    match t with
    | .fixedBinary l' _ => (baseMatch .fixedBinary n t).andThen (.ok (l == l'))
    | _ => .ok false
  | .fixedChar l n, t =>
    match t with
    | .fixedChar l' _ => (baseMatch .fixedChar n t).andThen (.ok (l == l'))
    | _ => .ok false
  | .varchar l n, t =>
    match t with
    | .varchar l' _ => (baseMatch .varchar n t).andThen (.ok (l == l'))
    | _ => .ok false
  | .list e n, t =>
    match t with
    | .list e' _ => (baseMatch .list n t).andThen (isMatch e e')
    | _ => .ok false
  | .struct cs _, t =>
    match t with
    | .struct cs' _ => if cs'.length = cs.length then isMatchAll cs cs' else .ok false
    | _ => .ok false
  | .map k v n, t =>
    match t with
    | .map k' v' _ =>
      (baseMatch .map n t).andThen ((isMatch k k').andThen (isMatch v v'))
    | _ => .ok false
  | .lit v w _, t =>
    if w then .ok true
    else
      match t with
      | .lit v' _ _ => .ok (v == v')
      | _ => .ok false
  | .pFixedBinary l n, t =>
    match t with
    | .pFixedBinary l' _ => (isMatch l l').andThen (nullMatch n t)
    | _ => .ok false
  | .pDecimal _ _ n, t =>
    match t with
    | .decimal _ _ _ => nullMatch n t
    | _ => .ok false
  | .pFixedChar _ n, t =>
    match t with
    | .fixedChar _ _ => nullMatch n t
    | _ => .ok false
  | .pVarchar _ n, t =>
    match t with
    | .varchar _ _ => nullMatch n t
    | _ => .ok false
  | .pList e n, t =>
    match t with
    | .list e' _ => (isMatch e e').andThen (nullMatch n t)
    | _ => .ok false
  | .pStruct cs n, t =>
    match t with
    | .struct cs' _ =>
      if cs'.length = cs.length then (isMatchAll cs cs').andThen (nullMatch n t)
      else .ok false
    | _ => .ok false
  | .pMap k v n, t =>
    match t with
    | .map k' v' _ =>
      (isMatch k k').andThen ((isMatch v v').andThen (nullMatch n t))
    | _ => .ok false
/-- The loops at Type.cpp:400-405 and 533-537 over two vectors of equal size. -/
def isMatchAll : List PType → List PType → Outcome Bool
  | c :: cs, c' :: cs' => (isMatch c c').andThen (isMatchAll cs cs')
  | _, _ => .ok true
end

/-! ## Signatures -/

/-- Text of a list of signatures separated by commas (Type.cpp:383-390, 516-523). -/
def joinComma : List Str → Str
  | [] => []
  | [s] => s
  | s :: rest => s ++ ',' :: joinComma rest

/-- `length_->value()` of a `StringLiteralPtr`. -/
def litValue : PType → Outcome Str
  | .lit v _ _ => .ok v
  | _ => .ub

def PType.isNull : PType → Bool
  | .null => true
  | _ => false

mutual
/-- The `signature` overrides: Type.h:243-245, 419-421, Type.cpp:301-306, 318-323, 334-339,
349-354, 364-369, 379-393, 411-420, 430-435, 448-453, 464-469, 480-485, 496-501, 512-526,
544-557. -/
def signature : PType → Outcome Str
  | .null => .ub
  | .scalar k _ => .ok k.signature
  | .decimal p s _ => .ok ("dec<".toList ++ intText p ++ ',' :: intText s ++ ['>'])
  | .fixedBinary l _ => .ok ("fbin<".toList ++ intText l ++ ['>'])
  | .fixedChar l _ => .ok ("fchar<".toList ++ intText l ++ ['>'])
  | .varchar l _ => .ok ("vchar<".toList ++ intText l ++ ['>'])
  | .list e _ => (signature e).bind fun s => .ok ("list<".toList ++ s ++ ['>'])
  | .struct cs _ =>
    (signatures cs).bind fun ss => .ok ("struct<".toList ++ joinComma ss ++ ['>'])
  | .map k v _ =>
    (signature k).bind fun a => (signature v).bind fun b =>
      .ok ("map<".toList ++ a ++ ',' :: b ++ ['>'])
  | .lit v _ _ => .ok v
  | .pFixedBinary l _ => (litValue l).bind fun s => .ok ("fbin<".toList ++ s ++ ['>'])
  | .pDecimal p s _ =>
    (litValue p).bind fun a => (litValue s).bind fun b =>
      .ok ("dec<".toList ++ a ++ ',' :: b ++ ['>'])
  | .pFixedChar l _ => (litValue l).bind fun s => .ok ("fchar<".toList ++ s ++ ['>'])
  | .pVarchar l _ => (litValue l).bind fun s => .ok ("vchar<".toList ++ s ++ ['>'])
  | .pList e _ => (signature e).bind fun s => .ok ("list<".toList ++ s ++ ['>'])
  | .pStruct cs _ =>
    (signatures cs).bind fun ss => .ok ("struct<".toList ++ joinComma ss ++ ['>'])
  | .pMap k v _ =>
    -- Type.cpp:548-554: a null key or value contributes nothing.
    (if k.isNull then .ok [] else signature k).bind fun a =>
      (if v.isNull then .ok [] else signature v).bind fun b =>
        .ok ("map<".toList ++ a ++ ',' :: b ++ ['>'])
def signatures : List PType → Outcome (List Str)
  | [] => .ok []
  | c :: cs => (signature c).bind fun s => (signatures cs).bind fun ss => .ok (s :: ss)
end

end Verif.Ty
