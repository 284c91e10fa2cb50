import Verif.Spec.Types

/-!
# Specification of parameter splitting, case folding and usable types
-/

namespace Verif.Ty

open Verif

/-- As many opening as closing brackets. -/
def Balanced (w : Str) : Prop := w.count '<' = w.count '>'

/-- No comma of `w` is at nesting depth zero. -/
def NoTopComma (w : Str) : Prop := ∀ a b, w = a ++ ',' :: b → ¬ Balanced a

/-- `ws` is `body` cut at its top-level commas: joined by commas the pieces give `body`,
no piece has a comma at depth zero, and every piece that is followed by a cut is balanced. -/
structure IsTopSplit (body : Str) (ws : List Str) : Prop where
  ne : ws ≠ []
  join : commas ws = body
  noComma : ∀ w ∈ ws, NoTopComma w
  balanced : ∀ w ∈ ws.dropLast, Balanced w

mutual
/-- The same type object with the text of all symbolic parameters in lower case. -/
def PType.fold : PType → PType
  | .null => .null
  | .scalar k n => .scalar k n
  | .decimal p s n => .decimal p s n
  | .fixedBinary l n => .fixedBinary l n
  | .fixedChar l n => .fixedChar l n
  | .varchar l n => .varchar l n
  | .list e n => .list e.fold n
  | .struct cs n => .struct (PType.folds cs) n
  | .map k v n => .map k.fold v.fold n
  | .lit v w p => .lit (v.map toLower) w p
  | .pDecimal p s n => .pDecimal p.fold s.fold n
  | .pFixedBinary l n => .pFixedBinary l.fold n
  | .pFixedChar l n => .pFixedChar l.fold n
  | .pVarchar l n => .pVarchar l.fold n
  | .pList e n => .pList e.fold n
  | .pStruct cs n => .pStruct (PType.folds cs) n
  | .pMap k v n => .pMap k.fold v.fold n
def PType.folds : List PType → List PType
  | [] => []
  | c :: cs => c.fold :: PType.folds cs
end

mutual
/-- No null pointer anywhere in the object. -/
def PType.noNull : PType → Bool
  | .null => false
  | .scalar _ _ | .decimal _ _ _ | .fixedBinary _ _ | .fixedChar _ _ | .varchar _ _ => true
  | .lit _ _ _ => true
  | .list e _ => e.noNull
  | .struct cs _ => PType.noNulls cs
  | .map k v _ => k.noNull && v.noNull
  | .pDecimal p s _ => p.noNull && s.noNull
  | .pFixedBinary l _ => l.noNull
  | .pFixedChar l _ => l.noNull
  | .pVarchar l _ => l.noNull
  | .pList e _ => e.noNull
  | .pStruct cs _ => PType.noNulls cs
  | .pMap k v _ => k.noNull && v.noNull
def PType.noNulls : List PType → Bool
  | [] => true
  | c :: cs => c.noNull && PType.noNulls cs
end

end Verif.Ty
