import Verif.Model.Debug

/-! # What the debug text of a symbol table is to show -/

namespace Verif.Debug

open Verif Schema

/-- What is to be seen of a field. -/
def seen (f : Field) : Option Str × Str × Str := (f.schema, f.name, f.alias)

/-- What is to be seen of a relation: its name, the number of its subqueries and its fields. -/
def shown (e : Entry) : Str × Nat × List (Option Str × Str × Str) ×
    List (Option Str × Str × Str) × List (Option Str × Str × Str) :=
  (e.name, e.queries, e.data.fields.map seen, e.data.generated.map seen, e.data.output.map seen)

/-- The line of a field: a mark, a number, and after that the field. -/
def Numbered (mark : Char) (k : Nat) (l : Str) : Prop :=
  ∃ rest, l = [' ', ' ', ' ', mark] ++ natText k ++ ' ' :: rest

/-- A word: no blank, no dot and no end of line. -/
def Word (s : Str) : Prop := ' ' ∉ s ∧ '.' ∉ s ∧ '\n' ∉ s

instance (s : Str) : Decidable (Word s) := inferInstanceAs (Decidable (_ ∧ _ ∧ _))

/-- The names of a field are words, the alias is on one line. -/
structure CleanField (f : Field) : Prop where
  name : Word f.name
  schema : ∀ s, f.schema = some s → Word s
  alias : '\n' ∉ f.alias

/-- The names of a relation are words, and it has no alternative expressions. -/
structure Clean (e : Entry) : Prop where
  name : Word e.name
  fields : ∀ f ∈ e.data.fields, CleanField f
  generated : ∀ f ∈ e.data.generated, CleanField f
  output : ∀ f ∈ e.data.output, CleanField f
  plain : ∀ k, e.alternative k = none

end Verif.Debug
