import Verif.Model.Type

/-!
# Exceptions and their messages

include/substrait/common/Exceptions.h, src/substrait/common/Exceptions.cpp, and the exceptions of
`ParameterizedType::decode` (Type.cpp:32-299) with their messages.
-/

namespace Verif.Fault

open Verif Verif.Ty

/-- `fmt::vformat` (Exceptions.h:89-92) with texts as arguments; `none` is `fmt::format_error`.
Simplification: a field other than `{}` is refused.  Without arguments this is what fmt does with
all fields; the formats with arguments in the code have no others. -/
def vformat : Str → List Str → Option Str
  | [], _ => some []
  | '{' :: '{' :: s, as => (vformat s as).map fun t => '{' :: t
  | '{' :: '}' :: s, a :: as => (vformat s as).map fun t => a ++ t
  | '{' :: _, _ => none
  | '}' :: '}' :: s, as => (vformat s as).map fun t => '}' :: t
  | '}' :: _, _ => none
  | c :: s, as => (vformat s as).map fun t => c :: t

/-- What is thrown: a `SubstraitException` with its code, its reason and whether it is a user error
(Exceptions.h:35-87), `fmt::format_error`, or `std::out_of_range`. -/
inductive Raised where
  | substrait (user : Bool) (code reason : Str)
  | format
  | outOfRange
  deriving DecidableEq, Repr

/-- `SUBSTRAIT_THROW` (Exceptions.h:94-98): the message is formatted first. -/
def raise (user : Bool) (code fmt : Str) (args : List Str) : Raised :=
  match vformat fmt args with
  | some reason => .substrait user code reason
  | none => .format

/-- `SUBSTRAIT_UNSUPPORTED` (Exceptions.h:100-104). -/
def unsupported (fmt : Str) (args : List Str) : Raised := raise true "UNSUPPORTED".toList fmt args

/-- `SUBSTRAIT_FAIL` (Exceptions.h:112-116). -/
def fail (fmt : Str) (args : List Str) : Raised := raise false "INVALID_STATE".toList fmt args

/-- `SubstraitException::what` (Exceptions.cpp:9-26, Exceptions.h:61-63), with the place of the
throw. -/
def what (file function : Str) (line : Nat) (user : Bool) (code reason : Str) : Str :=
  "Exception: ".toList ++ (if user then "SubstraitUserError" else "SubstraitRuntimeError").toList ++
    "\nError Code: ".toList ++ code ++ "\nError Type: ".toList ++
    (if user then "user" else "system").toList ++ "\nReason: ".toList ++ reason ++
    "\nFunction: ".toList ++ function ++ "\nLocation: ".toList ++ file ++ "(Line:".toList ++
    (toString line).toList ++ ")\n".toList

/-- A result, or an exception with its message. -/
inductive Says (α : Type) where
  | ok (a : α)
  | raised (r : Raised)
  | ub

def Says.bind {α β : Type} : Says α → (α → Says β) → Says β
  | .ok a, f => f a
  | .raised r, _ => .raised r
  | .ub, _ => .ub

/-- In order. -/
def Says.all {α β : Type} (f : α → Says β) : List α → Says (List β)
  | [] => .ok []
  | a :: as => (f a).bind fun b => (Says.all f as).bind fun bs => .ok (b :: bs)

/-- The formats and arguments of Type.cpp:107-108, 123-125 and 143-145.  The class for
`fixedbinary` is made with the traits of `binary` (Type.cpp:177-180). -/
def failure (base : Str) (count : Nat) : Raised :=
  if base = "decimal".toList then
    if count = 2 then
      fail ("Fail decode to Decimal type, precision or scale parameter must be a " ++
        "positive number").toList []
    else fail "Decimal types should have both precision and scale specifiers.".toList []
  else
    fail "Fail decode to {} type, length parameter must be a positive integer".toList
      [if base = "fixedbinary".toList then "binary".toList else base]

/-- Type.cpp:275-297 with the exceptions. -/
def byName (raw base : Str) (isParam nullable : Bool) (ps : List PType) : Says PType :=
  match decodeByName base isParam nullable ps with
  | .ok t => .ok t
  | .throw .unsupported => .raised (unsupported ("Unsupported type: ".toList ++ raw) [])
  | .throw .fail => .raised (failure base ps.length)
  | .throw _ => .raised .outOfRange
  | .ub => .ub

/-- Type.cpp:185-299 `ParameterizedType::decode` with the exceptions; like `decodeF`. -/
def decodeF : Nat → Bool → Str → Says PType
  | 0, _, _ => .ub
  | fuel + 1, isParam, value =>
    let raw := StringUtils.trim value
    match findFirst '<' raw with
    | none => .ok (decodeSimple raw)
    | some left =>
      let head := bracketHead raw left
      (Says.all (decodeF fuel isParam) (tokens raw (findLast '>' raw) (left + 1))).bind
        fun ps => byName raw head.1 isParam head.2 ps

def decode (isParam : Bool) (value : Str) : Says PType :=
  decodeF (value.length + 1) isParam value

end Verif.Fault
