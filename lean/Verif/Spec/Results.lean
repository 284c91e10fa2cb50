import Verif.Spec.Whole

/-! # The results of a plan

What the relations of a binary plan mean, after the specification of Substrait: rows in, rows out.
The meaning of literals, functions, casts, orders and the contents of tables are parameters.  Only
what text can express has a meaning: there is one grouping. -/

namespace Verif.Whole

open Verif Verif.TyPb Verif.Literal Verif.Expr

/-- An argument of a function. -/
inductive Arg (V : Type) where
  | value (v : V)
  | enum (s : Str)
  | type (t : PbType)
  | none

/-- What a function is known by outside of the plan: its URI and its name. -/
abbrev FunId := Option (Option Str × Str)

/-- The meaning of what is outside of the plan. -/
structure Meaning (V : Type) where
  null : V
  literal : PbLit → V
  call : FunId → PbType → List (Arg V) → V
  cast : V → PbType → V
  holds : V → Bool
  /-- The phase, the invocation, the type and the arguments for each row. -/
  aggregate : FunId → Int → Int → PbType → List (List (Arg V)) → V
  /-- The rows in another order, by directions and keys. -/
  sort : List Int → List (List V × List V) → List (List V × List V)
  /-- A subquery as a value. -/
  scalar : Nat × List (List V) → V
  /-- Whether values are a row of a subquery. -/
  isIn : List V → Nat × List (List V) → V
  /-- Whether there are rows, or no equal ones. -/
  setPredicate : Int → Nat × List (List V) → V
  /-- The operator, whether some or all, the value and the subquery. -/
  compare : Int → Int → V → Nat × List (List V) → V
  table : Option Sec.Source → Option Sec.NamedStruct → List (List V)

abbrev Row (V : Type) := List V

/-- Rows with their number of columns. -/
abbrev Rows (V : Type) := Nat × List (Row V)

/-- The rows of a relation for the rows it is in a subquery of, from the inside. -/
abbrev Query (V : Type) := List (Row V) → Rows V

/-- What the expressions of a relation may refer to besides its own rows: the relations of its
subqueries, by number, and the rows around it. -/
structure Around (V : Type) where
  queries : Nat → Query V
  rows : List (Row V)

/-- The row a reference is about. -/
def rowOf {V : Type} (s : Around V) (row : Row V) : Root → Row V
  | .outer k => if k = 0 then row else (s.rows[k - 1]?).getD []
  | _ => row

section
variable {V : Type} (m : Meaning V) (fn : Nat → FunId) (s : Around V)

/-- The rows of a subquery. -/
def asked (row : Row V) (k : Nat) : Rows V := s.queries k (row :: s.rows)

mutual
/-- The value of an expression for a row.  The first subquery in it is the `k`-th of the
relation. -/
def value (row : Row V) (k : Nat) : PbExpr → V
  | .literal l => m.literal l
  | .field (.field n _) b => ((rowOf s row b)[n.toNat]?).getD m.null
  | .call f _ as es t =>
    m.call (fn f) t (values row k as ++ (list row (k + queriesArgs as) es).map .value)
  | .ifThen cs e => choose row (value row (k + queriesClauses cs) e) k cs
  | .cast e t _ => m.cast (value row k e) t
  | .scalar (some _) => m.scalar (asked s row k)
  | .inPredicate es (some _) => m.isIn (list row k es) (asked s row (k + queriesList es))
  | .setPredicate op (some _) => m.setPredicate op (asked s row k)
  | .setComparison e op red (some _) =>
    m.compare op red (value row k e) (asked s row (k + queries e))
  | _ => m.null
/-- The value of the first clause whose condition holds. -/
def choose (row : Row V) (els : V) (k : Nat) : List PbClause → V
  | [] => els
  | c :: cs => clause row (choose row els (k + queriesClause c) cs) k c
def clause (row : Row V) (els : V) (k : Nat) : PbClause → V
  | .mk a b => if m.holds (value row k a) then value row (k + queries a) b else els
def values (row : Row V) (k : Nat) : List PbArg → List (Arg V)
  | [] => []
  | a :: as => argument row k a :: values row (k + queriesArg a) as
def argument (row : Row V) (k : Nat) : PbArg → Arg V
  | .value e => .value (value row k e)
  | .enum s => .enum s
  | .type t => .type t
  | .notSet => .none
/-- The values of expressions. -/
def list (row : Row V) (k : Nat) : List PbExpr → List V
  | [] => []
  | e :: es => value row k e :: list row (k + queries e) es
end

/-- A condition that may be absent. -/
def passes (k : Nat) (c : Option PbExpr) (row : Row V) : Bool :=
  match c with
  | some e => m.holds (value m fn s row k e)
  | none => true

/-- A number of nulls. -/
def nulls (n : Nat) : Row V := List.replicate n m.null

/-- The rows of the left side with those of the right side they go with, or with nulls. -/
def leftJoin (on : Row V → Bool) (a b : Rows V) : List (Row V) :=
  a.2.flatMap fun x =>
    let ys := b.2.filter fun y => on (x ++ y)
    if ys.isEmpty then [x ++ nulls m b.1] else ys.map fun y => x ++ y

/-- The rows of the right side that go with none of the left side. -/
def unmatched (on : Row V → Bool) (a b : Rows V) : List (Row V) :=
  (b.2.filter fun y => (a.2.filter fun x => on (x ++ y)).isEmpty).map fun y => nulls m a.1 ++ y

/-- The rows that go with each other. -/
def innerJoin (on : Row V → Bool) (a b : Rows V) : List (Row V) :=
  a.2.flatMap fun x => (b.2.filter fun y => on (x ++ y)).map fun y => x ++ y

/-- The kinds of joins of algebra.proto that keep the columns of both sides. -/
def joined (t : Int) (on : Row V → Bool) (a b : Rows V) : List (Row V) :=
  if t = 2 then leftJoin m on a b ++ unmatched m on a b
  else if t = 3 then leftJoin m on a b
  else if t = 4 then innerJoin on a b ++ unmatched m on a b
  else if t = 7 then leftJoin m on a b
  else innerJoin on a b

/-- Without the elements that come again. -/
def firsts {α : Type} [DecidableEq α] : List α → List α
  | [] => []
  | x :: xs => x :: (firsts xs).filter fun y => y ≠ x

/-- The groups: the values of the groupings and the rows. -/
def groups [DecidableEq V] (g : List PbExpr) (rows : List (Row V)) : List (Row V × List (Row V)) :=
  if g.isEmpty then [([], rows)]
  else
    (firsts (rows.map fun x => list m fn s x 0 g)).map fun k =>
      (k, rows.filter fun x => list m fn s x 0 g = k)

/-- The value of a measure for a group. -/
def measured (rows : List (Row V)) (k : Nat) (x : Rel.PbMeasure) : V :=
  match x.measure with
  | some f =>
    m.aggregate (fn f.function) f.phase f.invocation f.output
      ((rows.filter (passes m fn s (k + queriesAggregate f) x.filter)).map fun r =>
        values m fn s r k f.arguments)
  | none => m.null

def measuredAll (rows : List (Row V)) (k : Nat) : List Rel.PbMeasure → List V
  | [] => []
  | x :: xs => measured m fn s rows k x :: measuredAll rows (k + queriesMeasure x) xs

/-- The values to sort by. -/
def keys (row : Row V) (k : Nat) : List Rel.PbSort → List V
  | [] => []
  | x :: xs => value m fn s row k x.expr :: keys row (k + queries x.expr) xs

/-- The direction of a sort. -/
def directionOf : Rel.SortKind → Int
  | .direction n => n
  | _ => 0

/-- At most `count` rows; all if it is negative. -/
def limited {α : Type} (count : Int) (rows : List α) : List α :=
  if count < 0 then rows else rows.take count.toNat

/-- What a relation makes of its inputs, before its output mapping. -/
def direct [DecidableEq V] (o : Own) (ins : List (Rows V)) : Rows V :=
  match o.body, ins with
  | .read _ _ c _ _, _ =>
    (((o.schema.map (·.names)).getD []).length,
      (m.table o.source o.schema).filter (passes m fn s 0 c))
  | .filter c, [a] => (a.1, a.2.filter (passes m fn s 0 c))
  | .fetch offset count, [a] => (a.1, limited count (a.2.drop offset.toNat))
  | .sort ss, [a] =>
    (a.1, (m.sort (ss.map fun x => directionOf x.kind)
      (a.2.map fun x => (keys m fn s x 0 ss, x))).map (·.2))
  | .project es, [a] => (a.1 + es.length, a.2.map fun x => x ++ list m fn s x 0 es)
  | .aggregate [g] ms, [a] =>
    (g.length + ms.length,
      (groups m fn s g a.2).map fun k => k.1 ++ measuredAll m fn s k.2 (queriesList g) ms)
  | .join t c _, [a, b] => (a.1 + b.1, joined m t (passes m fn s 0 c) a b)
  | .cross, [a, b] => (a.1 + b.1, innerJoin (fun _ => true) a b)
  | _, _ => (0, [])

/-- The output mapping. -/
def emitted (emit : List Int) (a : Rows V) : Rows V :=
  if emit.isEmpty then a
  else (emit.length, a.2.map fun x => emit.map fun i => (x[i.toNat]?).getD m.null)

/-- The relations of the subqueries by number. -/
def byNumber (qs : List (Query V)) (k : Nat) : Query V := (qs[k]?).getD fun _ => (0, [])

omit s in
mutual
/-- The rows of a relation. -/
def result [DecidableEq V] : BRel → Query V
  | .node o kids => fun rows =>
    emitted m o.emit (direct m fn ⟨byNumber (queriesIn o.body (results kids)), rows⟩ o
      ((inputsIn o.body (results kids)).map fun q => q rows))
def results [DecidableEq V] : List BRel → List (Query V)
  | [] => []
  | r :: rs => result r :: results rs
end

end

/-- The function with a number. -/
def funId (uris : List Ext.PbUri) (functions : List Ext.PbFunction) (a : Nat) : FunId :=
  (functions.find? fun f => f.anchor = a).map fun f => (Ext.resolve uris f.uriRef, f.name)

/-- The results of a plan: for each root the names and the rows. -/
def answers {V : Type} [DecidableEq V] (m : Meaning V) (b : Binary) : List (List Str × Rows V) :=
  b.rels.map fun r => (r.1, result m (funId b.uris b.functions) r.2 [])

/-- The rows of tables have the columns of the schema. -/
def Meaning.Wide {V : Type} (m : Meaning V) : Prop :=
  ∀ source schema, ∀ x ∈ m.table source (some schema), x.length = schema.names.length

/-- The order of rows changes only their order. -/
def Meaning.Sorts {V : Type} (m : Meaning V) : Prop := ∀ ds l, (m.sort ds l).Perm l

/-- All groupings are references to columns. -/
def GroupsByColumns (r : BRel) : Prop :=
  ∀ o ∈ owns r, ∀ gs ms, o.body = .aggregate gs ms → ∀ g ∈ gs, ∀ e ∈ g, (Rel.fieldOf e).isSome

end Verif.Whole
