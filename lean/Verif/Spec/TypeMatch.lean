import Verif.Spec.Types

/-!
# Specification of type matching and type identity
-/

namespace Verif.Ty

open Verif

mutual
/-- The type with all nullability deleted. -/
def CType.erase : CType → CType
  | .scalar k _ => .scalar k false
  | .decimal p s _ => .decimal p s false
  | .fixedBinary l _ => .fixedBinary l false
  | .fixedChar l _ => .fixedChar l false
  | .varchar l _ => .varchar l false
  | .list e _ => .list e.erase false
  | .struct cs _ => .struct (CType.erases cs) false
  | .map k v _ => .map k.erase v.erase false
def CType.erases : List CType → List CType
  | [] => []
  | c :: cs => c.erase :: CType.erases cs
end

mutual
/-- The nullability flags of all parts, outermost first, left to right. -/
def CType.flags : CType → List Bool
  | .scalar _ n | .decimal _ _ n | .fixedBinary _ n | .fixedChar _ n | .varchar _ n => [n]
  | .list e n => n :: e.flags
  | .struct cs n => n :: CType.flagss cs
  | .map k v n => n :: (k.flags ++ v.flags)
def CType.flagss : List CType → List Bool
  | [] => []
  | c :: cs => c.flags ++ CType.flagss cs
end

/-- Flag by flag: wherever the actual part is nullable, the declared part is nullable. -/
def FlagsLe : List Bool → List Bool → Prop
  | [], [] => True
  | d :: ds, a :: as => (a = true → d = true) ∧ FlagsLe ds as
  | _, _ => False

/-- A concrete declared type accepts a concrete actual type: equal up to nullability, and
nullable wherever the actual type is. -/
def Accepts (declared actual : CType) : Prop :=
  declared.erase = actual.erase ∧ FlagsLe declared.flags actual.flags

mutual
/-- The type with the nullability of all structs (and only of structs) deleted. -/
def CType.forgetStruct : CType → CType
  | .list e n => .list e.forgetStruct n
  | .struct cs _ => .struct (CType.forgetStructs cs) false
  | .map k v n => .map k.forgetStruct v.forgetStruct n
  | t => t
def CType.forgetStructs : List CType → List CType
  | [] => []
  | c :: cs => c.forgetStruct :: CType.forgetStructs cs
end

mutual
/-- No struct in the type is nullable. -/
def CType.noNullStruct : CType → Bool
  | .list e _ => e.noNullStruct
  | .struct cs n => !n && CType.noNullStructs cs
  | .map k v _ => k.noNullStruct && v.noNullStruct
  | _ => true
def CType.noNullStructs : List CType → Bool
  | [] => true
  | c :: cs => c.noNullStruct && CType.noNullStructs cs
end

mutual
/-- The declarations an extension file can contain: what text decodes to in parameterised
mode, with no null pointer where matching would follow it. -/
def PType.isDecl : PType → Bool
  | .scalar _ _ => true
  | .lit _ _ _ => true
  | .pDecimal _ _ _ => true
  | .pFixedBinary _ _ => true
  | .pFixedChar _ _ => true
  | .pVarchar _ _ => true
  | .pList e _ => e.isDecl
  | .pStruct cs _ => PType.isDecls cs
  | .pMap k v _ => k.isDecl && v.isDecl
  | _ => false
def PType.isDecls : List PType → Bool
  | [] => true
  | c :: cs => c.isDecl && PType.isDecls cs
end

mutual
/-- The declaration mentions `fixedbinary`. -/
def PType.usesFixedBinary : PType → Bool
  | .pFixedBinary _ _ => true
  | .pList e _ => e.usesFixedBinary
  | .pStruct cs _ => PType.useFixedBinary cs
  | .pMap k v _ => k.usesFixedBinary || v.usesFixedBinary
  | _ => false
def PType.useFixedBinary : List PType → Bool
  | [] => false
  | c :: cs => c.usesFixedBinary || PType.useFixedBinary cs
end

mutual
/-- What a declaration should accept: `any...` everything, another symbol nothing concrete,
a simple type itself, a type constructor every instance with acceptable parts; everywhere a
part that is not declared nullable accepts no nullable part. -/
def DeclAccepts : PType → CType → Prop
  | .lit _ wildcard _, _ => wildcard = true
  | .scalar k n, .scalar k' n' => k = k' ∧ (n' = true → n = true)
  | .pDecimal _ _ n, .decimal _ _ n' => n' = true → n = true
  | .pFixedBinary _ n, .fixedBinary _ n' => n' = true → n = true
  | .pFixedChar _ n, .fixedChar _ n' => n' = true → n = true
  | .pVarchar _ n, .varchar _ n' => n' = true → n = true
  | .pList e n, .list e' n' => DeclAccepts e e' ∧ (n' = true → n = true)
  | .pStruct cs n, .struct cs' n' => DeclAcceptsAll cs cs' ∧ (n' = true → n = true)
  | .pMap k v n, .map k' v' n' =>
    DeclAccepts k k' ∧ DeclAccepts v v' ∧ (n' = true → n = true)
  | _, _ => False
def DeclAcceptsAll : List PType → List CType → Prop
  | [], [] => True
  | c :: cs, c' :: cs' => DeclAccepts c c' ∧ DeclAcceptsAll cs cs'
  | _, _ => False
end

end Verif.Ty

namespace Verif.Ty

/-- The components of a concrete type. -/
def CType.children : CType → List CType
  | .list e _ => [e]
  | .struct cs _ => cs
  | .map k v _ => [k, v]
  | _ => []

/-- The component types of a type object. -/
def PType.children : PType → List PType
  | .list e _ | .pList e _ => [e]
  | .struct cs _ | .pStruct cs _ => cs
  | .map k v _ | .pMap k v _ => [k, v]
  | _ => []

/-- The component at a path of child numbers; `none` if there is none. -/
def CType.at : CType → List Nat → Option CType
  | t, [] => some t
  | t, i :: p => (t.children[i]?).bind fun c => c.at p

/-- The component at a path of child numbers; `none` if there is none. -/
def PType.at : PType → List Nat → Option PType
  | t, [] => some t
  | t, i :: p => (t.children[i]?).bind fun c => c.at p

/-- A symbolic parameter or wildcard. -/
def PType.isLit : PType → Bool
  | .lit _ _ _ => true
  | _ => false

/-- A concrete struct object. -/
def PType.isConcreteStruct : PType → Bool
  | .struct _ _ => true
  | _ => false

mutual
/-- A declaration in which every `map` has both its parameters. -/
def PType.mapsComplete : PType → Bool
  | .pMap k v _ => !k.isNull && !v.isNull && k.mapsComplete && v.mapsComplete
  | .pList e _ => e.mapsComplete
  | .pStruct cs _ => PType.allMapsComplete cs
  | _ => true
def PType.allMapsComplete : List PType → Bool
  | [] => true
  | c :: cs => c.mapsComplete && PType.allMapsComplete cs
end

end Verif.Ty
