import Verif.Model.Filter

/-!
# Specification of the filters of relations
-/

namespace Verif.Filter

open Verif

/-- The filters a relation can have (algebra.proto). -/
def Legal : RelationType → Behavior → Bool
  | .read, .default => true
  | .read, .bestEffort => true
  | .join, .postJoin => true
  | .filter, .default => true
  | _, _ => false

/-- The words before `filter` name a behaviour: letters and digits count, case does not. -/
def Names (words : Str) : Behavior → Prop
  | .default => False
  | .bestEffort => (words.map toLower).filter isAlnum = "besteffort".toList
  | .postJoin => (words.map toLower).filter isAlnum = "postjoin".toList

/-- The clause asks for this filter in a way the language has. -/
def Asks {E : Type} (c : Clause E) (b : Behavior) : Prop :=
  match c.words with
  | none => b = .default
  | some w => Names w b

instance (w : Str) (b : Behavior) : Decidable (Names w b) := by
  cases b <;> unfold Names <;> infer_instance

instance {E : Type} (c : Clause E) (b : Behavior) : Decidable (Asks c b) := by
  unfold Asks; split <;> infer_instance

/-- The words before `filter` mean something. -/
def Meaningful {E : Type} (c : Clause E) : Prop := ∃ b, Asks c b

/-- The expression of the first clause that asks for this filter. -/
def firstOf {E : Type} (b : Behavior) (cs : List (Clause E)) : Option E :=
  (cs.find? fun c => Asks c b).bind (·.value)

/-- The filters a relation must have: of every legal kind the first one written. -/
def expected {E : Type} (k : RelationType) (cs : List (Clause E)) : Filters E where
  filter := if k = .read then firstOf .default cs else none
  bestEffort := if k = .read then firstOf .bestEffort cs else none
  postJoin := if k = .join then firstOf .postJoin cs else none
  condition := if k = .filter then firstOf .default cs else none

end Verif.Filter
