import Verif.Model.Extension

/-! # Vocabulary for the properties of extension spaces and functions -/

namespace Verif.Ext

open Verif Lex Parse

/-! ## Numbers in text plans -/

/-- The name by which a function is known: its alias, or else what stands before the colon. -/
def Called (f : FunctionTree) (s : Str) : Prop :=
  f.alias = some s ∨
  f.alias = none ∧ ':' ∉ s ∧ (f.name = s ∨ ∃ r, f.name = s ++ ':' :: r)

/-- The name of a function says something after its first colon. -/
def HasType (name : Str) : Prop := ∃ a r, name = a ++ ':' :: r ∧ ':' ∉ a ∧ r ≠ []

/-- All functions of a text. -/
def allFunctions (ts : List SpaceTree) : List FunctionTree := ts.flatMap (·.functions)

/-- The URIs of a text. -/
def uris (ts : List SpaceTree) : List Str := ts.filterMap (·.uri)

/-! ## Symbol tables -/

/-- The URI of the first space with a number. -/
def uriOf : List SpaceSym → Nat → Option Str
  | [], _ => none
  | s :: rest, a => if s.anchor = a then some s.uri else uriOf rest a

/-- A function as (URI of its space, name in the plan, name in the space). -/
def described (t : Table) : List (Option Str × Str × Str) :=
  t.funs.map fun f => (f.space.bind (uriOf t.spaces), f.symbol, f.name)

/-- Every function belongs to a space. -/
def AllPlaced (t : Table) : Prop := ∀ f ∈ t.funs, f.space.isSome

/-- Different spaces of functions are told apart by their URIs; at most one has no URI. -/
def Distinct (t : Table) : Prop :=
  ∀ f ∈ t.funs, ∀ g ∈ t.funs, f.space.bind (uriOf t.spaces) = g.space.bind (uriOf t.spaces) →
    f.space = g.space

/-- What the blocks of a section say. -/
def written (bs : List Block) : List (Option Str × Str × Str) :=
  bs.flatMap fun b => b.functions.map fun f => (b.uri, f.1, f.2)

/-- A correct `std::sort` (only that it rearranges). -/
def Rearranges (sort : Sorter) : Prop := ∀ l, (sort l).Perm l

/-- The URI of the first URI declaration with a number. -/
def resolve : List PbUri → Nat → Option Str
  | [], _ => none
  | u :: rest, a => if u.anchor = a then some u.uri else resolve rest a

/-! ## Texts that the grammar can read -/

/-- A text that is a URI for the lexer. -/
def IsUri (u : Str) : Prop := uriRule u = some (.uri, u.length)

/-- A text that is an `id` of the grammar. -/
def IsName (s : Str) : Prop := ∃ ts, lex s = some ts ∧ parseId ts = some (s, [])

/-- A text that is a `name` of the grammar. -/
def IsFunctionName (s : Str) : Prop :=
  ∃ i g, s = i ++ ':' :: g ∧ IsName i ∧ (g = [] ∨ IsName g)

end Verif.Ext
