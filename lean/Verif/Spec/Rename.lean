import Verif.Spec.Order

/-! # Other names for what a text gives names to -/

namespace Verif.Whole

open Verif Verif.Tree

/-- A reference to a relation with another name. -/
def renRef (ρ : Str → Str) (r : RelRef) : RelRef := { r with id := ρ r.id }

mutual
/-- The expression with other names for functions, columns and the relations of its subqueries. -/
def renE (ρ : Str → Str) : ExprTree → ExprTree
  | .call id args cs ty => .call (ρ id) (renEs ρ args) cs ty
  | .const c => .const c
  | .column s i => .column (s.map ρ) (ρ i)
  | .cast e kw ty => .cast (renE ρ e) kw ty
  | .scalarSubquery kw r => .scalarSubquery kw (renRef ρ r)
  | .inSubquery es kw r => .inSubquery (renEs ρ es) kw (renRef ρ r)
  | .setPredicate a kw r => .setPredicate a kw (renRef ρ r)
  | .setComparison e op a kw r => .setComparison (renE ρ e) op a kw (renRef ρ r)
def renEs (ρ : Str → Str) : List ExprTree → List ExprTree
  | [] => []
  | e :: es => renE ρ e :: renEs ρ es
end

/-- The words after a measure: the second one is a name. -/
def renIds (ρ : Str → Str) : List Str → List Str
  | p :: n :: l => p :: ρ n :: l
  | l => l

def renMeasure (ρ : Str → Str) : Rel.MeasureDetail → Rel.MeasureDetail
  | .measure e ty ids => .measure (renE ρ e) ty (renIds ρ ids)
  | .filter e => .filter (renE ρ e)
  | .invocation id => .invocation id
  | .sort e b => .sort (renE ρ e) b

/-- The part of a relation with other names. -/
def renDetail (ρ : Str → Str) : Rel.Detail → Rel.Detail
  | .source id => .source (ρ id)
  | .filter w e => .filter w (renE ρ e)
  | .expression e n => .expression (renE ρ e) (n.map ρ)
  | .grouping e => .grouping (renE ρ e)
  | .measure ds => .measure (ds.map (renMeasure ρ))
  | .sort e b => .sort (renE ρ e) b
  | .common => .common
  | .schema id => .schema (ρ id)
  | .extension => .extension
  | .count t => .count t
  | .type id => .type id
  | .emit s id => .emit (s.map ρ) (ρ id)

def renTree (ρ : Str → Str) (t : Rel.RelTree) : Rel.RelTree :=
  ⟨t.type, renRef ρ t.ref, t.details.map (renDetail ρ)⟩

def renSource (ρ : Str → Str) : Sec.SourceTree → Sec.SourceTree
  | .localFiles id fs => .localFiles (ρ id) fs
  | .virtualTable id => .virtualTable (ρ id)
  | .namedTable id ss => .namedTable (ρ id) ss
  | .extensionTable id => .extensionTable (ρ id)

/-- The name that a function has in a text. -/
def nameOfFun (f : Ext.FunctionTree) : Str := f.alias.getD (Ext.shortName f.name)

/-- The function with another name after `as`, if it has another name. -/
def renFunction (ρ : Str → Str) (f : Ext.FunctionTree) : Ext.FunctionTree :=
  if ρ (nameOfFun f) = nameOfFun f then f else ⟨f.name, some (ρ (nameOfFun f))⟩

/-- The part of a text with other names.  The columns of schemas, the tables and files of sources and the
names of the root keep theirs. -/
def renPart (ρ : Str → Str) : Sec.PlanDetail → Sec.PlanDetail
  | .pipelines ps => .pipelines (ps.map fun p => p.map fun r => ⟨ρ r.name, ρ r.text⟩)
  | .relation t => .relation (renTree ρ t)
  | .source t => .source (renSource ρ t)
  | .root ns => .root ns
  | .schema id cs => .schema (ρ id) cs
  | .space t => .space ⟨t.uri, t.functions.map (renFunction ρ)⟩

/-! ## The other names -/

/-- The expressions of a part of a measure. -/
def measureExprs : Rel.MeasureDetail → List ExprTree
  | .measure e _ _ => [e]
  | .filter e => [e]
  | .invocation _ => []
  | .sort e _ => [e]

/-- The expressions of a part of a relation. -/
def exprsOf : Rel.Detail → List ExprTree
  | .filter _ e => [e]
  | .expression e _ => [e]
  | .grouping e => [e]
  | .measure ds => ds.flatMap measureExprs
  | .sort e _ => [e]
  | _ => []

/-- The names in a part of a text that are kept. -/
def otherNames : Sec.PlanDetail → List Str
  | .schema _ cs => cs.map (·.1)
  | .source (.localFiles _ fs) => fs.map (·.text)
  | .source (.namedTable _ ss) => ss.map Sec.extractFromString
  | .space t => t.uri.toList
  | _ => []

mutual
/-- The relations of the subqueries are given by their names alone, and an argument that is taken for an
enumerator, because its text ends in `_enum`, is the same with the other names.  The name `ifthen`, which
is not that of a function, is no other name and has none. -/
def calm (ρ : Str → Str) : ExprTree → Bool
  | .call id args _ _ => (Expr.isIfThen (ρ id) == Expr.isIfThen id) && calmL ρ args
  | .const _ => true
  | .column _ _ => true
  | .cast e _ _ => calm ρ e
  | .scalarSubquery _ r => r.schema.isNone
  | .inSubquery es _ r => r.schema.isNone && calmL ρ es
  | .setPredicate _ _ r => r.schema.isNone
  | .setComparison e _ _ _ r => r.schema.isNone && calm ρ e
def calmL (ρ : Str → Str) : List ExprTree → Bool
  | [] => true
  | e :: es =>
    (if Expr.isEnum e || Expr.isEnum (renE ρ e) then decide ((renE ρ e).text = e.text) else true) &&
      calm ρ e && calmL ρ es
end

def calmPart (ρ : Str → Str) : Sec.PlanDetail → Bool
  | .pipelines ps => ps.flatten.all fun r => r.text = r.name
  | .relation t => t.details.all fun d => (exprsOf d).all (calm ρ)
  | _ => true

/-- Different names get different names; of a name with a dot, the parts get theirs. -/
structure Spelling (ρ : Str → Str) : Prop where
  different : ∀ {a b}, ρ a = ρ b → a = b
  dots : ∀ a b, ρ (a ++ '.' :: b) = ρ a ++ '.' :: ρ b
  empty : ρ [] = []

/-- Other names for the relations, sources, schemas, functions and computed columns of a text, different for
different ones.  The names of everything else are kept, and so are those the reader makes up. -/
structure Renames (ρ : Str → Str) (ds : List Sec.PlanDetail) : Prop where
  spelling : Spelling ρ
  root : ρ Sec.rootName = Sec.rootName ∧ ρ Sec.rootNamesName = Sec.rootNamesName
  madeUp : ρ intermediate = intermediate ∧ ∀ k, ρ (intermediate ++ natText k) = intermediate ++ natText k
  others : ∀ d ∈ ds, ∀ n ∈ otherNames d, ρ n = n
  calm : ∀ d ∈ ds, calmPart ρ d = true

end Verif.Whole
