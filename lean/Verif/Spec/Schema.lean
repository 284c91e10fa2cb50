import Verif.Model.Schema

/-!
# What the field numbers of a plan mean

Substrait's rules for the fields of a relation, and a reading of a relation tree in which every
field number is replaced by the field it stands for.  Two trees with the same reading compute
the same thing whatever their numbers are.
-/

namespace Verif.Schema

open Verif

/-- Number `i` of a list; negative numbers and numbers past the end denote nothing. -/
def at? {α : Type} (l : List α) (i : Int) : Option α :=
  if i < 0 then none else l[i.toNat]?

/-- The number denotes an element of the list. -/
def InRange {α : Type} (l : List α) (i : Int) : Prop := 0 ≤ i ∧ i < l.length

instance {α} (l : List α) (i : Int) : Decidable (InRange l i) :=
  inferInstanceAs (Decidable (_ ∧ _))

/-- A field number of a protobuf message. -/
def IsInt32 (i : Int) : Prop := -2 ^ 31 ≤ i ∧ i < 2 ^ 31

/-- What a relation gives without an output mapping: the fields of its inputs and the
expressions of a project, or the groupings and measures of an aggregate. -/
def unmapped (d : RelData) : List Field :=
  if d.aggregate then d.generated else d.fields ++ d.generated

/-- The schema before the output mapping is applied: no output yet, except that an aggregate
gives its groupings and measures. -/
def Unmapped (d : RelData) : Prop := d.output = if d.aggregate then d.generated else []

instance (d : RelData) : Decidable (Unmapped d) := inferInstanceAs (Decidable (_ = _))

/-! ## Names -/

/-- `n` is one of the names of the field. -/
def Called (f : Field) (n : Str) : Prop :=
  (f.alias ≠ [] ∧ f.alias = n) ∨ f.name = n ∨ qualified f = n

instance (f : Field) (n : Str) : Decidable (Called f n) :=
  inferInstanceAs (Decidable (_ ∨ _ ∨ _))

/-- A field whose printed name is a single identifier. -/
def Plain (f : Field) : Prop := f.alias ≠ [] ∨ f.schema = none

instance (f : Field) : Decidable (Plain f) := inferInstanceAs (Decidable (_ ∨ _))

/-- No field can be mistaken for another one by its printed name. -/
def Clear (fs : List Field) : Prop := ∀ f ∈ fs, ∀ g ∈ fs, Called g (nameOf f) → f = g

instance (fs : List Field) : Decidable (Clear fs) := inferInstanceAs (Decidable (∀ _ ∈ _, _))

/-! ## Meaning of a tree -/

inductive MItem where
  | ref (o : Origin)
  | other (os : List Origin)
  deriving DecidableEq, Repr

inductive MOp where
  | read (schema : Str) (columns : List Str)
  | pass (os : List Origin)
  | join (os : List Origin)
  | project (items : List MItem)
  | aggregate (groups : List MItem) (measures : List (List Origin))
  deriving DecidableEq, Repr

/-- A relation tree with fields in place of numbers; an empty `emit` is a direct output. -/
inductive MTree where
  | node (name : Str) (op : MOp) (emit : List Origin) (inputs : List MTree)

/-- The fields denoted by numbers. -/
def pickOrigins (fs : List Field) (is : List Int) : Option (List Origin) :=
  (is.mapM (at? fs)).map (List.map Field.id)

def pickLists (fs : List Field) : List (List Int) → Option (List (List Origin))
  | [] => some []
  | m :: ms => (pickOrigins fs m).bind fun o => (pickLists fs ms).map (o :: ·)

/-- Meaning of an expression, and the field it makes when it is expression `k` of `rel`. -/
def itemMeaning (ν : Naming) (rel : Str) (fs : List Field) (k : Nat) : Item → Option (MItem × Field)
  | .ref i => (at? fs i).map fun f => (.ref f.id, f)
  | .other is => (pickOrigins fs is).map fun os =>
      (.other os, ⟨.computed rel k, ν (.computed rel k), ν (.computed rel k), none⟩)

def itemsMeaning (ν : Naming) (rel : Str) (fs : List Field) :
    Nat → List Item → Option (List (MItem × Field))
  | _, [] => some []
  | k, it :: is =>
    (itemMeaning ν rel fs k it).bind fun x => (itemsMeaning ν rel fs (k + 1) is).map (x :: ·)

/-- Meaning of an operation on inputs with the fields `fs`, and the fields it adds to them or,
for a read or an aggregate, puts in their place. -/
def opMeaning (ν : Naming) (rel : Str) (fs : List Field) : Op → Option (MOp × List Field)
  | .read s cols => some (.read s cols, columnFields rel s cols)
  | .pass is => (pickOrigins fs is).map fun os => (.pass os, [])
  | .join is => (pickOrigins fs is).map fun os => (.join os, [])
  | .project items => (itemsMeaning ν rel fs 0 items).map fun xs =>
      (.project (xs.map Prod.fst), xs.map Prod.snd)
  | .aggregate gs ms =>
    (itemsMeaning ν rel fs 0 gs).bind fun xs => (pickLists fs ms).map fun os =>
      (.aggregate (xs.map Prod.fst) os, xs.map Prod.snd ++ measureFields ν rel ms.length)

/-- All fields an operation gives. -/
def opOutput (fs new : List Field) : Op → List Field
  | .read _ _ | .aggregate _ _ => new
  | _ => fs ++ new

mutual
/-- Meaning of a tree, and its output; nothing if a number is out of range. -/
def meaning (ν : Naming) : Tree → Option (MTree × List Field)
  | .node rel op emit ins =>
    (meaningL ν ins).bind fun ms =>
      (opMeaning ν rel ms.2 op).bind fun x =>
        (emit.mapM (at? (opOutput ms.2 x.2 op))).map fun es =>
          (.node rel x.1 (es.map Field.id) ms.1,
            if es.isEmpty then opOutput ms.2 x.2 op else es)
def meaningL (ν : Naming) : List Tree → Option (List MTree × List Field)
  | [] => some ([], [])
  | t :: ts =>
    (meaning ν t).bind fun m => (meaningL ν ts).map fun ms => (m.1 :: ms.1, m.2 ++ ms.2)
end

/-! ## Trees that can be written -/

/-- The groupings are plain references, at least one field comes out, and a field that is
printed without a schema is grouped once only and is not used in a measure of the same
aggregate.  `gs` are the fields grouped, `used` those in the arguments of measures. -/
structure Groups (items : List Item) (gs : List Field) (measures : List Field)
    (used : List Field) : Prop where
  refs : ∀ it ∈ items, ∃ i, it = .ref i
  some : gs ++ measures ≠ []
  once : (gs.filter fun f => decide (Plain f)).Nodup
  apart : ∀ f ∈ used, Plain f → f ∉ gs ++ measures

/-- The condition on one relation with input fields `fs` and new fields `new`. -/
def LegibleOp (ν : Naming) (rel : Str) (fs new : List Field) (emit : List Int) : Op → Prop
  | .read _ _ => emit = []
  | .pass _ | .join _ => emit = [] ∧ Clear fs
  | .project _ => Clear (fs ++ new)
  | .aggregate items ms =>
    Clear (fs ++ new) ∧ (∀ f ∈ emit.filterMap (at? new), Plain f) ∧
      Groups items (new.take items.length) (measureFields ν rel ms.length)
        ((ms.flatten).filterMap (at? fs))

mutual
/-- Every relation of the tree fulfils the condition, and no field number is beyond what an
`int32_t` can hold. -/
def Legible (ν : Naming) : Tree → Prop
  | .node rel op emit ins =>
    LegibleL ν ins ∧
      ∀ ms, meaningL ν ins = some ms → ∀ x, opMeaning ν rel ms.2 op = some x →
        LegibleOp ν rel ms.2 x.2 emit op ∧ (ms.2 ++ x.2).length < 2 ^ 31
def LegibleL (ν : Naming) : List Tree → Prop
  | [] => True
  | t :: ts => Legible ν t ∧ LegibleL ν ts
end

/-! ## Trees whose fields can be computed -/

/-- An aggregate groups by plain references and gives at least one field. -/
def Computable (op : Op) (new : List Field) : Prop :=
  match op with
  | .aggregate items _ => (∀ it ∈ items, ∃ i, it = .ref i) ∧ new ≠ []
  | _ => True

mutual
def AllComputable (ν : Naming) : Tree → Prop
  | .node rel op _ ins =>
    AllComputableL ν ins ∧
      ∀ ms, meaningL ν ins = some ms → ∀ x, opMeaning ν rel ms.2 op = some x →
        Computable op x.2 ∧ (ms.2 ++ x.2).length < 2 ^ 31
def AllComputableL (ν : Naming) : List Tree → Prop
  | [] => True
  | t :: ts => AllComputable ν t ∧ AllComputableL ν ts
end

end Verif.Schema
