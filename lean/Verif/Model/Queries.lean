import Verif.Model.Relation

/-!
# The subqueries of a relation, by number

The relation of a subquery is not part of the text of the expression it is in: the printer of text
plans finds the name of the `k`-th subquery of a relation
(`src/substrait/textplan/PlanPrinterVisitor.cpp:273-443`, `lookupSymbolByParentQueryAndType` with
`++currentScopeIndex_`), and the printer of binary plans takes the `k`-th of the subqueries of a
relation (`src/substrait/textplan/SymbolTablePrinter.cpp:860-1085`, `consumedPipelines`).  Both go
through the expressions in the order given here.

Simplification: the sorts of an aggregate function, which are never printed, are counted too.
-/

namespace Verif.Whole

open Verif Verif.Expr

mutual
/-- The number of subqueries with a relation in an expression (SymbolTablePrinter.cpp:860-1085):
those in the expressions compared with a subquery come before its own. -/
def queries : PbExpr → Nat
  | .call _ _ as es _ => queriesArgs as + queriesList es
  | .ifThen cs e => queriesClauses cs + queries e
  | .cast e _ _ => queries e
  | .scalar r => r.toList.length
  | .inPredicate es r => queriesList es + r.toList.length
  | .setPredicate _ r => r.toList.length
  | .setComparison e _ _ r => queries e + r.toList.length
  | .notSet => 0
  | .literal _ => 0
  | .field _ _ => 0
  | .masked _ => 0
  | .noReference _ => 0
  | .noSubquery => 0
  | .other _ => 0
def queriesArg : PbArg → Nat
  | .value e => queries e
  | .notSet => 0
  | .enum _ => 0
  | .type _ => 0
def queriesArgs : List PbArg → Nat
  | [] => 0
  | a :: as => queriesArg a + queriesArgs as
def queriesList : List PbExpr → Nat
  | [] => 0
  | e :: es => queries e + queriesList es
def queriesClause : PbClause → Nat
  | .mk a b => queries a + queries b
def queriesClauses : List PbClause → Nat
  | [] => 0
  | a :: as => queriesClause a + queriesClauses as
end

mutual
/-- The expression where the relation of the `i`-th subquery is `g i`; the first one here is the
`k`-th. -/
def relabel (g : Nat → Option Str) (k : Nat) : PbExpr → PbExpr
  | .call f o as es t =>
    .call f o (relabelArgs g k as) (relabelList g (k + queriesArgs as) es) t
  | .ifThen cs e => .ifThen (relabelClauses g k cs) (relabel g (k + queriesClauses cs) e)
  | .cast e t n => .cast (relabel g k e) t n
  | .scalar r => .scalar (r.bind fun _ => g k)
  | .inPredicate es r => .inPredicate (relabelList g k es) (r.bind fun _ => g (k + queriesList es))
  | .setPredicate a r => .setPredicate a (r.bind fun _ => g k)
  | .setComparison e a b r => .setComparison (relabel g k e) a b (r.bind fun _ => g (k + queries e))
  | .notSet => .notSet
  | .literal l => .literal l
  | .field s b => .field s b
  | .masked b => .masked b
  | .noReference b => .noReference b
  | .noSubquery => .noSubquery
  | .other n => .other n
def relabelArg (g : Nat → Option Str) (k : Nat) : PbArg → PbArg
  | .value e => .value (relabel g k e)
  | .notSet => .notSet
  | .enum s => .enum s
  | .type t => .type t
def relabelArgs (g : Nat → Option Str) (k : Nat) : List PbArg → List PbArg
  | [] => []
  | a :: as => relabelArg g k a :: relabelArgs g (k + queriesArg a) as
def relabelList (g : Nat → Option Str) (k : Nat) : List PbExpr → List PbExpr
  | [] => []
  | e :: es => relabel g k e :: relabelList g (k + queries e) es
def relabelClause (g : Nat → Option Str) (k : Nat) : PbClause → PbClause
  | .mk a b => .mk (relabel g k a) (relabel g (k + queries a) b)
def relabelClauses (g : Nat → Option Str) (k : Nat) : List PbClause → List PbClause
  | [] => []
  | a :: as => relabelClause g k a :: relabelClauses g (k + queriesClause a) as
end

/-! ## Relations -/

def queriesOpt : Option PbExpr → Nat
  | none => 0
  | some e => queries e

def relabelOpt (g : Nat → Option Str) (k : Nat) (e : Option PbExpr) : Option PbExpr :=
  e.map (relabel g k)

def queriesSorts : List Rel.PbSort → Nat
  | [] => 0
  | s :: ss => queries s.expr + queriesSorts ss

def relabelSorts (g : Nat → Option Str) (k : Nat) : List Rel.PbSort → List Rel.PbSort
  | [] => []
  | s :: ss => ⟨relabel g k s.expr, s.kind⟩ :: relabelSorts g (k + queries s.expr) ss

def queriesAggregate (f : Rel.PbAggregate) : Nat :=
  queriesArgs f.arguments + queriesSorts f.sorts + queriesList f.args

def relabelAggregate (g : Nat → Option Str) (k : Nat) (f : Rel.PbAggregate) : Rel.PbAggregate where
  function := f.function
  options := f.options
  arguments := relabelArgs g k f.arguments
  args := relabelList g (k + queriesArgs f.arguments + queriesSorts f.sorts) f.args
  output := f.output
  phase := f.phase
  invocation := f.invocation
  sorts := relabelSorts g (k + queriesArgs f.arguments) f.sorts

def queriesMeasure (m : Rel.PbMeasure) : Nat :=
  ((m.measure.map queriesAggregate).getD 0) + queriesOpt m.filter

def relabelMeasure (g : Nat → Option Str) (k : Nat) (m : Rel.PbMeasure) : Rel.PbMeasure where
  measure := m.measure.map (relabelAggregate g k)
  filter := relabelOpt g (k + (m.measure.map queriesAggregate).getD 0) m.filter

def queriesMeasures : List Rel.PbMeasure → Nat
  | [] => 0
  | m :: ms => queriesMeasure m + queriesMeasures ms

def relabelMeasures (g : Nat → Option Str) (k : Nat) : List Rel.PbMeasure → List Rel.PbMeasure
  | [] => []
  | m :: ms => relabelMeasure g k m :: relabelMeasures g (k + queriesMeasure m) ms

def queriesGroups : List (List PbExpr) → Nat
  | [] => 0
  | es :: gs => queriesList es + queriesGroups gs

def relabelGroups (g : Nat → Option Str) (k : Nat) : List (List PbExpr) → List (List PbExpr)
  | [] => []
  | es :: gs => relabelList g k es :: relabelGroups g (k + queriesList es) gs

/-- The number of subqueries of a relation (SymbolTablePrinter.cpp:550-858). -/
def queriesBody : Rel.Body → Nat
  | .read _ _ f b _ => queriesOpt f + queriesOpt b
  | .filter f => queriesOpt f
  | .fetch _ _ => 0
  | .aggregate gs ms => queriesGroups gs + queriesMeasures ms
  | .sort ss => queriesSorts ss
  | .project es => queriesList es
  | .join _ e p => queriesOpt e + queriesOpt p
  | .cross => 0
  | .other => 0

/-- The relation where the relation of the `i`-th subquery is `g i`. -/
def relabelBody (g : Nat → Option Str) : Rel.Body → Rel.Body
  | .read s t f b p => .read s t (relabelOpt g 0 f) (relabelOpt g (queriesOpt f) b) p
  | .filter f => .filter (relabelOpt g 0 f)
  | .fetch o n => .fetch o n
  | .aggregate gs ms => .aggregate (relabelGroups g 0 gs) (relabelMeasures g (queriesGroups gs) ms)
  | .sort ss => .sort (relabelSorts g 0 ss)
  | .project es => .project (relabelList g 0 es)
  | .join t e p => .join t (relabelOpt g 0 e) (relabelOpt g (queriesOpt e) p)
  | .cross => .cross
  | .other => .other

/-- The names of the subqueries are filled in, in order. -/
def fillBody (names : List Str) : Rel.Body → Rel.Body :=
  relabelBody fun i => some ((names[i]?).getD [])

/-- The names of the subqueries are taken out; that they have a relation is kept. -/
def blankBody : Rel.Body → Rel.Body := relabelBody fun _ => some []

/-- The relations of the subqueries are taken out. -/
def emptyQueries : Rel.Body → Rel.Body := relabelBody fun _ => none

end Verif.Whole
