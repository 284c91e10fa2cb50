import Verif.Spec.Whole

/-! # Vocabulary for going from binary to text and back more than once -/

namespace Verif.Ext

/-- `operator<` of `std::pair<std::string, std::string>`. -/
def pairLess (a b : Str × Str) : Bool :=
  strLess a.1 b.1 || (!strLess b.1 a.1 && strLess a.2 b.2)

/-- A correct `std::sort`: what it leaves is a rearrangement in which nothing is before something
that is less. -/
structure Sorts (sort : Sorter) : Prop where
  same : Rearranges sort
  sorted : ∀ l, (sort l).Pairwise fun a b => pairLess b a = false

end Verif.Ext

namespace Verif.Whole

open Verif

/-- The plan `p` has this text, and the plan that is made of the text is `q`. -/
def Trip (lib : Literal.Lib) (sort : Ext.Sorter) (fuel : Nat) (p : Input) (text : Str) (q : Input) :
    Prop :=
  toText lib sort fuel p = .ok text ∧ fromText lib fuel text = some (.ok q.binary)

/-- `q` is what is made of `p` after going through text this number of times. -/
inductive Trips (lib : Literal.Lib) (sort : Ext.Sorter) (fuel : Nat) : Nat → Input → Input → Prop
  | none (p) : Trips lib sort fuel 0 p p
  | more {n p q r text} : Trip lib sort fuel p text q → Trips lib sort fuel n q r →
    Trips lib sort fuel (n + 1) p r

/-- No two functions have the same name in front of their types. -/
def NoOverloads (p : Input) : Prop := (p.functions.map fun f => Ext.shortName f.name).Nodup

/-- At most nine functions have the same name in front of their types. -/
def FewOverloads (p : Input) : Prop :=
  ∀ b, (p.functions.map fun f => Ext.shortName f.name).count b ≤ 9

end Verif.Whole
