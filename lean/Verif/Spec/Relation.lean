import Verif.Model.Relation
import Verif.Spec.Expression

/-!
# Specification of relations in text plans
-/

namespace Verif.Rel

open Verif Verif.TyPb Verif.Literal Verif.Expr

/-- The relation is printed without an error and the text is read back, without an error, as
the same relation. -/
def ReadsBack (c : RelContext) (r : PbRel) : Prop :=
  ∃ text, printRelation c r = .ok (text, []) ∧ readText c text = some (.ok (r, []))

/-! ## Expressions of relations -/

mutual
/-- The expression is not itself one of the subqueries other than comparisons, nor are the
left side of a comparison, what is cast and the parts of an if-then: the first pass of the reader
makes no expression of those (C57). -/
def Plain : PbExpr → Prop
  | .scalar _ | .inPredicate _ _ | .setPredicate _ _ => False
  | .cast e _ _ => Plain e
  | .setComparison e _ _ _ => Plain e
  | .ifThen clauses els => PlainClauses clauses ∧ Plain els
  | _ => True
def PlainClause : PbClause → Prop
  | .mk a b => Plain a ∧ Plain b
def PlainClauses : List PbClause → Prop
  | [] => True
  | a :: as => PlainClause a ∧ PlainClauses as
end

/-- The number of the field an expression is a reference to. -/
def fieldOf : PbExpr → Option Int
  | .field (.field n _) _ => some n
  | _ => none

/-- What the first pass makes of a comparison with a subquery is its left side. -/
def leftmost : PbExpr → PbExpr
  | .setComparison e _ _ _ => leftmost e
  | e => e

/-- The first pass does not take a comparison for a reference to a field. -/
def FieldKept (e : PbExpr) : Prop := fieldOf (leftmost e) = fieldOf e

/-- The relations of the subqueries of an expression that may be absent. -/
def askedOpt : Option PbExpr → List Str
  | none => []
  | some e => askedOf e

/-- The relations of the subqueries of a measure: those of the arguments, then those of the
filter. -/
def askedMeasure (m : PbMeasure) : List Str :=
  (match m.measure with
    | none => []
    | some f => askedArgs f.arguments) ++ askedOpt m.filter

/-- The relations of the subqueries of a relation, in the order of the text. -/
def askedBody : Body → List Str
  | .read _ _ f b _ => askedOpt f ++ askedOpt b
  | .filter f => askedOpt f
  | .fetch _ _ => []
  | .aggregate gs ms => gs.flatten.flatMap askedOf ++ ms.flatMap askedMeasure
  | .sort ss => ss.flatMap fun s => askedOf s.expr
  | .project es => es.flatMap askedOf
  | .join _ e p => askedOpt e ++ askedOpt p
  | .cross => []
  | .other => []

/-- The expression is itself a reference to a field of a relation around the subquery. -/
def isOuter : PbExpr → Bool
  | .field _ (.outer _) => true
  | _ => false

/-- The context of the expressions of a relation, where its fields are `d`. -/
def RelContext.at (c : RelContext) (d : Schema.RelData) : Context :=
  { c.expr with readScopes := d :: c.outer }

/-- An expression that survives (C39) and that the first pass accepts. -/
def ExprOk (c : RelContext) (d : Schema.RelData) (e : PbExpr) : Prop :=
  Readable (c.at d) e ∧ Plain e

/-- The same for an expression that may be absent. -/
def OptOk (c : RelContext) (d : Schema.RelData) (e : Option PbExpr) : Prop :=
  ∀ x, e = some x → ExprOk c d x

/-! ## Groupings and measures -/

/-- A grouping expression that survives: a reference is to the relation itself and to one of
the fields of its inputs. -/
def GroupOk (c : RelContext) (d : Schema.RelData) (e : PbExpr) : Prop :=
  ExprOk c d e ∧ FieldKept e ∧ (∀ seg base, e = .field seg base → base = .root) ∧
    ∀ n, fieldOf e = some n → n < d.fields.length

/-- The fields after a grouping expression: a reference adds the field. -/
def afterGroup (d : Schema.RelData) (e : PbExpr) : Schema.RelData :=
  match fieldOf e with
  | some n => { d with generated := d.generated ++ (d.fields[n.toNat]?).toList }
  | none => d

def GroupsOk (c : RelContext) (d : Schema.RelData) : List PbExpr → Prop
  | [] => True
  | e :: es => GroupOk c d e ∧ GroupsOk c (afterGroup d e) es

def afterGroups (d : Schema.RelData) : List PbExpr → Schema.RelData
  | [] => d
  | e :: es => afterGroups (afterGroup d e) es

/-- An aggregate function that survives.  Unlike a call in an expression it may have no
arguments. -/
structure AggregateOk (c : RelContext) (d : Schema.RelData) (f : PbAggregate) : Prop where
  function : FunctionOk (c.at d) f.function
  options : f.options = []
  arguments : ReadableArgs (c.at d) f.arguments
  args : f.args = []
  output : TypeOk f.output
  phase : 0 ≤ f.phase ∧ f.phase ≤ 4
  invocation : 0 ≤ f.invocation ∧ f.invocation ≤ 2
  sorts : f.sorts = []

/-- The fields after measure `k`: a measure with a name adds a field. -/
def afterMeasure (c : RelContext) (d : Schema.RelData) (k : Nat) : Schema.RelData :=
  match c.measureName k with
  | some n => { d with generated := d.generated ++ [⟨.measure c.name k, n, [], none⟩] }
  | none => d

/-- A measure that survives: there is a function; the filter may refer to the measure. -/
def MeasureOk (c : RelContext) (d : Schema.RelData) (k : Nat) (m : PbMeasure) : Prop :=
  (∃ f, m.measure = some f ∧ AggregateOk c d f) ∧
  (∀ n, c.measureName k = some n → Ext.IsName n) ∧ OptOk c (afterMeasure c d k) m.filter

def MeasuresOk (c : RelContext) (d : Schema.RelData) (k : Nat) : List PbMeasure → Prop
  | [] => True
  | m :: ms => MeasureOk c d k m ∧ MeasuresOk c (afterMeasure c d k) (k + 1) ms

def afterMeasures (c : RelContext) (d : Schema.RelData) (k : Nat) : List PbMeasure → Schema.RelData
  | [] => d
  | _ :: ms => afterMeasures c (afterMeasure c d k) (k + 1) ms

/-! ## Projects -/

/-- The name of expression `k` of a project in the reader's table. -/
def projectName (c : RelContext) (k : Nat) : Str :=
  match aliasOf c k with
  | some n => n
  | none => c.fresh k

/-- The fields a project makes of its expressions. -/
def projectFields (c : RelContext) (k : Nat) : List PbExpr → List Schema.Field
  | [] => []
  | e :: es =>
    (match fieldOf e with
      | some n => (c.inputs[n.toNat]?).toList
      | none => [⟨.computed c.name k, projectName c k, [], none⟩]) ++ projectFields c (k + 1) es

/-- An expression of a project that survives. -/
def ProjectOk (c : RelContext) (d : Schema.RelData) (k : Nat) (e : PbExpr) : Prop :=
  ExprOk c d e ∧ c.alternative k = none ∧ ∀ n, aliasOf c k = some n → Ext.IsName n

def ProjectsOk (c : RelContext) (d : Schema.RelData) (k : Nat) : List PbExpr → Prop
  | [] => True
  | e :: es => ProjectOk c d k e ∧ ProjectsOk c d (k + 1) es

/-- References that are expressions of a project are to fields of its inputs, if there is an
output mapping. -/
def ProjectRefs (c : RelContext) (es : List PbExpr) : Prop :=
  ∀ e ∈ es, FieldKept e ∧ ∀ n, fieldOf e = some n → 0 ≤ n ∧ n < c.inputs.length

/-! ## Output mappings and sorts -/

/-- The fields the numbers of an output mapping are for. -/
def emitFields (d : Schema.RelData) : List Schema.Field :=
  if d.aggregate then d.generated else d.fields ++ d.generated

/-- The name printed for the number is a column that is found as the same field (C38). -/
def EmitOk (c : RelContext) (d : Schema.RelData) (i : Int) : Prop :=
  0 ≤ i ∧ i < (emitFields d).length ∧
  ∃ s, Schema.printEmit c.here i = some s ∧ IsColumn s ∧ Schema.findHere true d s = some i.toNat

/-- A sort field that survives. -/
def SortOk (c : RelContext) (d : Schema.RelData) (s : PbSort) : Prop :=
  ExprOk c d s.expr ∧ ∃ n, s.kind = .direction n ∧ 1 ≤ n ∧ n ≤ 5

/-! ## Relations -/

/-- The fields of a relation before its details are read. -/
def RelContext.start (c : RelContext) (aggregate : Bool) : Schema.RelData :=
  ⟨aggregate, c.inputs, [], []⟩

/-- The schema of a read relation is known to the reader; `cols` are its columns. -/
def SchemaOk (c : RelContext) (schema : Option Str) (cols : List Schema.Field) : Prop :=
  match schema with
  | some n => Ext.IsName n ∧ c.schema n = some cols
  | none => cols = []

/-- What survives of each kind of relation. -/
def BodyOk (c : RelContext) (emit : List Int) : Body → Prop
  | .read (some s) schema f none false =>
    emit = [] ∧ Ext.IsName s ∧ (c.source s = some .named ∨ c.source s = some .files) ∧
    ∃ cols, SchemaOk c schema cols ∧ OptOk c { c.start false with output := cols } f
  | .filter f => emit = [] ∧ OptOk c (c.start false) f
  | .fetch 0 n => emit = [] ∧ -9223372036854775808 ≤ n ∧ n < 9223372036854775808
  | .aggregate [g] ms =>
    GroupsOk c (c.start true) g ∧
    MeasuresOk c (afterGroups (c.start true) g) 0 ms ∧
    ∀ i ∈ emit, EmitOk c (afterMeasures c (afterGroups (c.start true) g) 0 ms) i
  | .sort ss => emit = [] ∧ ∀ s ∈ ss, SortOk c (c.start false) s
  | .project es =>
    ProjectsOk c (c.start false) 0 es ∧
    (emit = [] ∨ ProjectRefs c es ∧
      ∀ i ∈ emit, EmitOk c { c.start false with generated := projectFields c 0 es } i)
  | .join t e none => emit = [] ∧ 1 ≤ t ∧ t ≤ 7 ∧ OptOk c (c.start false) e
  | .cross => emit = []
  | _ => False

/-- The fields after an output mapping; an aggregate without one exposes what it generates. -/
def mapped (d : Schema.RelData) (emit : List Int) : Schema.RelData :=
  if emit = [] then { d with output := if d.aggregate then d.generated else d.output }
  else { d with output := emit.filterMap fun i => (emitFields d)[i.toNat]? }

/-- The fields of a relation when it has been read. -/
def readData (c : RelContext) (r : PbRel) : Schema.RelData :=
  match r.body with
  | .read _ schema _ _ _ => { c.start false with output := (schema.bind c.schema).getD [] }
  | .aggregate gs ms =>
    mapped (afterMeasures c (afterGroups (c.start true) gs.flatten) 0 ms) r.emit
  | .project es => mapped { c.start false with generated := projectFields c 0 es } r.emit
  | _ => c.start false

/-- The fields of the relation are told by its inputs: the references of a project are to fields
of its inputs. -/
def DataKnown (c : RelContext) (r : PbRel) : Prop :=
  ∀ es, r.body = .project es → ProjectRefs c es

/-- No expression of a project is itself a reference to a field of a relation around the
subquery. -/
def Near (b : Body) : Prop := ∀ es, b = .project es → ∀ e ∈ es, isOuter e = false

/-- The relations that survive printing and reading. -/
structure RelReadable (c : RelContext) (r : PbRel) : Prop where
  name : Ext.IsName c.name
  body : BodyOk c r.emit r.body
  /-- Where the relation is not itself the one a subquery names, both passes know the same fields;
  there is nothing around it, or a project does not expose what is around it. -/
  outside : c.inside = false → (c.outer = [] ∨ Near r.body) ∧ c.firstInputs = c.inputs

/-! ## What the text does not tell -/

/-- A measure without the sorts of its function. -/
def forgetMeasure (m : PbMeasure) : PbMeasure :=
  { m with measure := m.measure.map fun f => { f with sorts := [] } }

/-- The relation without what the printer leaves out: the output mapping of relations other than
aggregates and projects, the sorts of measures, the bounds between grouping sets, and whether the
only filter of a read is a best effort filter. -/
def forget (r : PbRel) : PbRel :=
  match r.body with
  | .read s t none (some e) p => ⟨.read s t (some e) none p, []⟩
  | .aggregate gs ms => ⟨.aggregate [gs.flatten] (ms.map forgetMeasure), r.emit⟩
  | .project es => ⟨.project es, r.emit⟩
  | b => ⟨b, []⟩

/-! ## What can be read at all -/

/-- Every reference that is itself a grouping expression is to the relation itself. -/
def isRooted (e : PbExpr) : Prop := ∀ seg base, e = .field seg base → base = .root

/-- An expression that may be absent. -/
def OptProducible (e : Option PbExpr) : Prop := ∀ x, e = some x → Producible x

def SortProducible (s : PbSort) : Prop := Producible s.expr ∧ ∀ f, s.kind ≠ .comparison f

def MeasureProducible (m : PbMeasure) : Prop :=
  (∀ f, m.measure = some f → f.options = [] ∧ f.args = [] ∧ ProducibleArgs f.arguments ∧
    ∀ s ∈ f.sorts, SortProducible s) ∧ OptProducible m.filter

/-- What the reader can make of some text: a fetch has no offset, an aggregate has one grouping set
whose references are to the relation itself, its measures have no options, a sort has no comparison
function, a read has no projection; and all expressions can be read (C39). -/
def BodyProducible : Body → Prop
  | .read _ _ f b p => OptProducible f ∧ OptProducible b ∧ p = false
  | .filter f => OptProducible f
  | .fetch o _ => o = 0
  | .aggregate gs ms =>
    (∃ g, gs = [g] ∧ ∀ e ∈ g, Producible e ∧ isRooted e) ∧ ∀ m ∈ ms, MeasureProducible m
  | .sort ss => ∀ s ∈ ss, SortProducible s
  | .project es => ∀ e ∈ es, Producible e
  | .join _ e p => OptProducible e ∧ OptProducible p
  | .cross => True
  | .other => True

end Verif.Rel
