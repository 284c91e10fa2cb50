import Verif.Model.Whole

/-! # The order of the parts of a text -/

namespace Verif.Whole

open Verif

/-- The names that a part of a text gives something in the schemas, sources and extension spaces; for
columns, tables and URIs, which are not looked for by their name alone, `false`. -/
def given : Sec.PlanDetail → List (Str × Bool)
  | .schema id cs => (id, true) :: cs.map fun c => (c.1, false)
  | .source (.localFiles id fs) => (id, true) :: fs.map fun f => (f.text, true)
  | .source (.namedTable id ss) => (id, true) :: ss.map fun s => (Sec.extractFromString s, false)
  | .source (.virtualTable id) => [(id, true)]
  | .source (.extensionTable id) => [(id, true)]
  | .space t => (t.uri.toList.map fun u => (u, false)) ++
      t.functions.map fun f => (f.alias.getD (Ext.shortName f.name), true)
  | _ => []

/-- The extension spaces of a text. -/
def spaceOf : Sec.PlanDetail → Option Ext.SpaceTree
  | .space t => some t
  | _ => none

/-- The root names of a text. -/
def rootOf : Sec.PlanDetail → Option (List Str)
  | .root ns => some ns
  | _ => none

def baseOf : Rel.Detail → Option Str
  | .schema id => some id
  | _ => none

/-- The names that are used as base schemas. -/
def basesOf (ds : List Sec.PlanDetail) : List Str :=
  (ds.filterMap relationOf).flatMap fun t => t.details.filterMap baseOf

/-- Two parts give the same name to columns, tables and URIs only, and it is not used as a base schema.
(The order of two extension spaces is not changed.) -/
def Clear (bases : List Str) (d e : Sec.PlanDetail) : Prop :=
  ((spaceOf d).isSome ∧ (spaceOf e).isSome) ∨
    ∀ n a b, (n, a) ∈ given d → (n, b) ∈ given e → a = false ∧ b = false ∧ n ∉ bases

/-- A text without ambiguous names, in which the relations of the subqueries are defined. -/
structure Tidy (ds : List Sec.PlanDetail) : Prop where
  names : ds.Pairwise (Clear (basesOf ds))
  queries : ∀ t ∈ ds.filterMap relationOf, ∀ n ∈ refsOf t,
    n ∈ (ds.filterMap relationOf).map (·.ref.id)

/-- The same parts in another order.  The relations, the pipelines and the extension spaces keep their
order among themselves. -/
structure Reordered (ds ds' : List Sec.PlanDetail) : Prop where
  perm : ds.Perm ds'
  relations : ds.filterMap relationOf = ds'.filterMap relationOf
  pipelines : ds.filterMap pipelinesOf = ds'.filterMap pipelinesOf
  roots : ds.filterMap rootOf = ds'.filterMap rootOf
  spaces : ds.filterMap spaceOf = ds'.filterMap spaceOf

end Verif.Whole
