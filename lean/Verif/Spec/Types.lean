import Verif.Model.Type

/-!
# Specification of concrete types

A concrete type is a finite tree without null pointers and without symbolic parameters.
Everything here is written without the model's decoding, matching and signature code.
-/

namespace Verif.Ty

open Verif

/-- A concrete Substrait type. -/
inductive CType where
  | scalar (k : Scalar) (nullable : Bool)
  | decimal (precision scale : Int) (nullable : Bool)
  | fixedBinary (length : Int) (nullable : Bool)
  | fixedChar (length : Int) (nullable : Bool)
  | varchar (length : Int) (nullable : Bool)
  | list (element : CType) (nullable : Bool)
  | struct (children : List CType) (nullable : Bool)
  | map (key value : CType) (nullable : Bool)
  deriving Repr

mutual
/-- The API object for a concrete type. -/
def CType.obj : CType → PType
  | .scalar k n => .scalar k n
  | .decimal p s n => .decimal p s n
  | .fixedBinary l n => .fixedBinary l n
  | .fixedChar l n => .fixedChar l n
  | .varchar l n => .varchar l n
  | .list e n => .list e.obj n
  | .struct cs n => .struct (CType.objs cs) n
  | .map k v n => .map k.obj v.obj n
def CType.objs : List CType → List PType
  | [] => []
  | c :: cs => c.obj :: CType.objs cs
end

/-- The documented names of the simple types. -/
def specName : Scalar → String
  | .bool => "boolean"
  | .i8 => "i8"
  | .i16 => "i16"
  | .i32 => "i32"
  | .i64 => "i64"
  | .fp32 => "fp32"
  | .fp64 => "fp64"
  | .string => "string"
  | .binary => "binary"
  | .timestamp => "timestamp"
  | .date => "date"
  | .time => "time"
  | .intervalYear => "interval_year"
  | .intervalDay => "interval_day"
  | .timestampTz => "timestamp_tz"
  | .uuid => "uuid"

/-- The nullability mark. -/
def mark : Bool → Str
  | true => ['?']
  | false => []

/-- `a<b>` text. -/
def angle (name : String) (nullable : Bool) (inner : Str) : Str :=
  name.toList ++ mark nullable ++ '<' :: inner ++ ['>']

/-- Items separated by commas. -/
def commas : List Str → Str
  | [] => []
  | [s] => s
  | s :: t :: rest => s ++ ',' :: commas (t :: rest)

mutual
/-- The text of a concrete type in the Substrait type syntax:
the name, `?` if nullable, then the parameters in angle brackets. -/
def CType.text : CType → Str
  | .scalar k n => (specName k).toList ++ mark n
  | .decimal p s n => angle "decimal" n (commas [intText p, intText s])
  | .fixedBinary l n => angle "fixedbinary" n (intText l)
  | .fixedChar l n => angle "fixedchar" n (intText l)
  | .varchar l n => angle "varchar" n (intText l)
  | .list e n => angle "list" n e.text
  | .struct cs n => angle "struct" n (commas (CType.texts cs))
  | .map k v n => angle "map" n (commas [k.text, v.text])
def CType.texts : List CType → List Str
  | [] => []
  | c :: cs => c.text :: CType.texts cs
end

/-- A type parameter that fits a C++ `int` and is not negative. -/
def IntParam (i : Int) : Prop := 0 ≤ i ∧ i ≤ 2147483647

instance (i : Int) : Decidable (IntParam i) := inferInstanceAs (Decidable (_ ∧ _))

mutual
/-- The types the text syntax can spell: parameters are non-negative `int`s and every
struct has at least one field (`struct<>` is not in the syntax). -/
def CType.spellable : CType → Bool
  | .scalar _ _ => true
  | .decimal p s _ => decide (IntParam p) && decide (IntParam s)
  | .fixedBinary l _ => decide (IntParam l)
  | .fixedChar l _ => decide (IntParam l)
  | .varchar l _ => decide (IntParam l)
  | .list e _ => e.spellable
  | .struct cs _ => !cs.isEmpty && CType.spellables cs
  | .map k v _ => k.spellable && v.spellable
def CType.spellables : List CType → Bool
  | [] => true
  | c :: cs => c.spellable && CType.spellables cs
end

/-- Outermost nullability. -/
def CType.nullable : CType → Bool
  | .scalar _ n | .decimal _ _ n | .fixedBinary _ n | .fixedChar _ n | .varchar _ n
  | .list _ n | .struct _ n | .map _ _ n => n

mutual
/-- Some part of the type is nullable. -/
def CType.hasNullable : CType → Bool
  | .scalar _ n | .decimal _ _ n | .fixedBinary _ n | .fixedChar _ n | .varchar _ n => n
  | .list e n => n || e.hasNullable
  | .struct cs n => n || CType.anyNullable cs
  | .map k v n => n || k.hasNullable || v.hasNullable
def CType.anyNullable : List CType → Bool
  | [] => false
  | c :: cs => c.hasNullable || CType.anyNullable cs
end

mutual
/-- No nullable list, map or struct contains a nullable part, at any depth. -/
def CType.noNullInNull : CType → Bool
  | .scalar _ _ | .decimal _ _ _ | .fixedBinary _ _ | .fixedChar _ _ | .varchar _ _ => true
  | .list e n => e.noNullInNull && !(n && e.hasNullable)
  | .struct cs n => CType.allNoNullInNull cs && !(n && CType.anyNullable cs)
  | .map k v n =>
    k.noNullInNull && v.noNullInNull && !(n && (k.hasNullable || v.hasNullable))
def CType.allNoNullInNull : List CType → Bool
  | [] => true
  | c :: cs => c.noNullInNull && CType.allNoNullInNull cs
end

end Verif.Ty
