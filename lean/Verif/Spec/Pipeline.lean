import Verif.Model.Pipeline

/-!
# Vocabulary for the relation graph

A pipeline is written here as in the text: from left to right, the source of the rows first.
-/

namespace Verif.Pipe

open Verif

/-- `l` feeds its rows to `r` in the pipeline. -/
def Feeds (p : List Str) (l r : Str) : Prop := ∃ a b, p = a ++ l :: r :: b

/-- `x` stands between two others in the pipeline. -/
def Inner (p : List Str) (x : Str) : Prop := ∃ a l r b, p = a ++ l :: x :: r :: b

/-- The relation in front of `x` in a pipeline that ends with `x`. -/
def feeder (x : Str) (p : List Str) : Option Str :=
  match p.reverse with
  | y :: l :: _ => if y = x then some l else none
  | _ => none

/-- The pipelines a section should consist of, as far as the program checks: no relation
comes twice in a pipeline, and none that stands inside a pipeline comes in a later one. -/
structure Accepted (ps : List (List Str)) : Prop where
  nodup : ∀ p ∈ ps, p.Nodup
  apart : ps.Pairwise fun p q => ∀ x, Inner p x → x ∉ q

/-- Plain references to relations, as the parser gives them: from right to left. -/
def refs (p : List Str) : List Ref := p.reverse.map fun n => ⟨n, n⟩

/-- No relation has a place in a pipeline yet. -/
def Fresh (t : Table) : Prop :=
  ∀ n, (t.data n).start = none ∧ (t.data n).cont = none ∧ (t.data n).news = []

/-- A name of something that is not a relation. -/
def IsOther (t : Table) (n : Str) : Prop := t.get n = some .other

/-- `l` is an input of `x`. -/
def Input (t : Table) (x l : Str) : Prop :=
  (t.data x).cont = some l ∨ l ∈ (t.data x).news

/-- One or more steps from a relation to an input. -/
inductive Reaches (t : Table) : Str → Str → Prop where
  | one {x y : Str} : Input t x y → Reaches t x y
  | more {x y z : Str} : Input t x y → Reaches t y z → Reaches t x z

/-- One or more steps from right to left in the pipelines. -/
inductive Upstream (ps : List (List Str)) : Str → Str → Prop where
  | one {x y : Str} : (∃ p ∈ ps, Feeds p y x) → Upstream ps x y
  | more {x y z : Str} : (∃ p ∈ ps, Feeds p y x) → Upstream ps y z → Upstream ps x z

/-! ## Relation trees -/

mutual
/-- The names of the relations in a tree. -/
def names : Rel → List Str
  | .node _ n ins subs => n :: (namesL ins ++ namesL subs)
def namesL : List Rel → List Str
  | [] => []
  | r :: rs => names r ++ namesL rs
end

/-- The relation types that can be written in a text plan. -/
def Writable (k : RelKind) : Prop :=
  k ∈ [.read, .project, .join, .cross, .fetch, .aggregate, .sort, .filter, .set]

instance (k : RelKind) : Decidable (Writable k) := inferInstanceAs (Decidable (k ∈ _))

/-- The relation has as many inputs as its type asks for. -/
def Arity (k : RelKind) (ins : List Rel) : Prop :=
  match k with
  | .read => ins.length = 0
  | .join | .cross => ins.length = 2
  | .set => True
  | _ => ins.length = 1

mutual
/-- A tree of relations that can be written as text, with subqueries only in the relations
that have expressions, other than `read`. -/
def Fits : Rel → Prop
  | .node k _ ins subs =>
    Writable k ∧ Arity k ins ∧ (subs ≠ [] → k ∉ [.read, .cross, .fetch, .set]) ∧
      FitsL ins ∧ FitsL subs
def FitsL : List Rel → Prop
  | [] => True
  | r :: rs => Fits r ∧ FitsL rs
end

/-- A text that is an identifier of the grammar. -/
def IsName (s : Str) : Prop := ∃ ts, Lex.lex s = some ts ∧ Parse.parseId ts = some (s, [])

end Verif.Pipe
