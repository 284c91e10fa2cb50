import Verif.Model.Whole
import Verif.Spec.Sections
import Verif.Spec.SymbolTable

/-! # Vocabulary for the way of a plan from binary to text and back -/

namespace Verif.Whole

open Verif Verif.TyPb Verif.Literal Verif.Expr

/-! ## Plans that say the same -/

mutual
/-- The expression with other numbers for its functions. -/
def renumber (ρ : Nat → Nat) : PbExpr → PbExpr
  | .call f o as es t => .call (ρ f) o (renumberArgs ρ as) (renumberList ρ es) t
  | .ifThen cs e => .ifThen (renumberClauses ρ cs) (renumber ρ e)
  | .cast e t n => .cast (renumber ρ e) t n
  | .inPredicate es r => .inPredicate (renumberList ρ es) r
  | .setComparison e a b r => .setComparison (renumber ρ e) a b r
  | .notSet => .notSet
  | .literal l => .literal l
  | .field s b => .field s b
  | .masked b => .masked b
  | .noReference b => .noReference b
  | .scalar r => .scalar r
  | .setPredicate a r => .setPredicate a r
  | .noSubquery => .noSubquery
  | .other k => .other k
def renumberArg (ρ : Nat → Nat) : PbArg → PbArg
  | .value e => .value (renumber ρ e)
  | .notSet => .notSet
  | .enum s => .enum s
  | .type t => .type t
def renumberArgs (ρ : Nat → Nat) : List PbArg → List PbArg
  | [] => []
  | a :: as => renumberArg ρ a :: renumberArgs ρ as
def renumberList (ρ : Nat → Nat) : List PbExpr → List PbExpr
  | [] => []
  | e :: es => renumber ρ e :: renumberList ρ es
def renumberClause (ρ : Nat → Nat) : PbClause → PbClause
  | .mk a b => .mk (renumber ρ a) (renumber ρ b)
def renumberClauses (ρ : Nat → Nat) : List PbClause → List PbClause
  | [] => []
  | a :: as => renumberClause ρ a :: renumberClauses ρ as
end

def renumberSort (ρ : Nat → Nat) (s : Rel.PbSort) : Rel.PbSort where
  expr := renumber ρ s.expr
  kind := match s.kind with
    | .comparison f => .comparison (ρ f)
    | k => k

def renumberAggregate (ρ : Nat → Nat) (f : Rel.PbAggregate) : Rel.PbAggregate where
  function := ρ f.function
  options := f.options
  arguments := renumberArgs ρ f.arguments
  args := renumberList ρ f.args
  output := f.output
  phase := f.phase
  invocation := f.invocation
  sorts := f.sorts.map (renumberSort ρ)

def renumberMeasure (ρ : Nat → Nat) (m : Rel.PbMeasure) : Rel.PbMeasure where
  measure := m.measure.map (renumberAggregate ρ)
  filter := m.filter.map (renumber ρ)

/-- The relation with other numbers for its functions. -/
def renumberBody (ρ : Nat → Nat) : Rel.Body → Rel.Body
  | .read s t f b p => .read s t (f.map (renumber ρ)) (b.map (renumber ρ)) p
  | .filter f => .filter (f.map (renumber ρ))
  | .fetch o n => .fetch o n
  | .aggregate gs ms => .aggregate (gs.map fun g => g.map (renumber ρ)) (ms.map (renumberMeasure ρ))
  | .sort ss => .sort (ss.map (renumberSort ρ))
  | .project es => .project (es.map (renumber ρ))
  | .join t e p => .join t (e.map (renumber ρ)) (p.map (renumber ρ))
  | .cross => .cross
  | .other => .other

/-- The columns at the numbers of an output mapping. -/
def pick {α : Type} (l : List α) (emit : List Int) : List α := emit.filterMap fun i => l[i.toNat]?

/-- For the columns a relation makes of its input columns whether they are columns of a table;
`f` is the same for the input. -/
def madeKinds (f : List Bool) : Rel.Body → List Bool
  | .project es => es.map fun e =>
    match Rel.fieldOf e with
    | some n => (f[n.toNat]?).getD false
    | none => false
  | .aggregate gs ms =>
    (gs.flatten.filterMap fun e => (Rel.fieldOf e).map fun n => (f[n.toNat]?).getD false) ++
      ms.map fun _ => false
  | _ => []

/-- The same for the columns of a relation. -/
def outKinds (f : List Bool) (o : Own) : List Bool :=
  match o.body with
  | .read _ _ _ _ _ => ((o.schema.map (·.names)).getD []).map fun _ => true
  | .project _ =>
    if o.emit = [] then f ++ madeKinds f o.body else pick (f ++ madeKinds f o.body) o.emit
  | .aggregate _ _ => if o.emit = [] then madeKinds f o.body else pick (madeKinds f o.body) o.emit
  | _ => f

mutual
/-- The columns of a relation: whether they are columns of a table. -/
def kinds : BRel → List Bool
  | .node o kids => outKinds (inputsIn o.body (kindsL kids)).flatten o
def kindsL : List BRel → List (List Bool)
  | [] => []
  | r :: rs => kinds r :: kindsL rs
end

/-- The columns of the inputs of a relation. -/
def inKinds (o : Own) (kids : List BRel) : List Bool := (inputsIn o.body (kindsL kids)).flatten

/-- The column a number of the output mapping of a project stands for: an expression that is a
reference to a column of the input is that column.  `w` is the number of columns of the input. -/
def stands (w : Nat) (es : List PbExpr) (i : Int) : Int :=
  if i < w then i
  else
    match es[(i - w).toNat]? with
    | some e => (Rel.fieldOf e).getD i
    | none => i

/-- The output mappings choose the same columns. -/
def SameEmit (w : Nat) (b : Rel.Body) (e e' : List Int) : Prop :=
  match b with
  | .project es => e'.map (stands w es) = e.map (stands w es)
  | _ => e' = e

mutual
/-- The same relation but for the numbers of functions and the way in which the output mappings
of projects name columns. -/
def Same (ρ : Nat → Nat) : BRel → BRel → Prop
  | .node o kids, .node o' kids' =>
    o'.body = renumberBody ρ o.body ∧ SameEmit (inKinds o kids).length o.body o.emit o'.emit ∧
      o'.schema = o.schema ∧ o'.source = o.source ∧ SameL ρ kids kids'
def SameL (ρ : Nat → Nat) : List BRel → List BRel → Prop
  | [], [] => True
  | r :: rs, r' :: rs' => Same ρ r r' ∧ SameL ρ rs rs'
  | _, _ => False
end

/-! ## What text can express -/

/-- What an expression may mention: the functions, the names of the relations of subqueries, and
the fields of the relations around it, with the number of steps out that is one less than in a
reference. -/
structure Known where
  fn : Nat → Prop
  rel : Str → Prop
  outer : Nat → Int → Prop

instance : CoeFun Known fun _ => Nat → Prop := ⟨Known.fn⟩

mutual
/-- An expression that text can express: `ref` are the fields it may refer to.  The expressions
that are compared with a subquery have no subqueries. -/
def Told (lib : Lib) (fn : Known) (ref : Int → Prop) : PbExpr → Prop
  | .literal (.atom a n) => a.fits ∧ a.noBackslash ∧ Survives lib a n
  | .field (.field n false) .root => ref n
  | .field (.field n false) (.outer (k + 1)) => fn.outer k n
  | .call f 0 as [] t => fn f ∧ as ≠ [] ∧ ToldArgs lib fn ref as ∧ TypeOk t
  | .ifThen cs e =>
    (cs ≠ [] ∨ e.isSet = true) ∧ ToldClauses lib fn ref cs ∧ (e.isSet = true → Told lib fn ref e)
  | .cast e t 0 => Told lib fn ref e ∧ TypeOk t
  | .scalar (some r) => fn.rel r
  | .inPredicate es (some r) =>
    es ≠ [] ∧ ToldList lib fn ref es ∧ queriesList es = 0 ∧ fn.rel r
  | .setPredicate op (some r) => (op = 1 ∨ op = 2) ∧ fn.rel r
  | .setComparison e op red (some r) =>
    Told lib fn ref e ∧ queries e = 0 ∧ (1 ≤ op ∧ op ≤ 6) ∧ (red = 1 ∨ red = 2) ∧ fn.rel r
  | _ => False
def ToldArg (lib : Lib) (fn : Known) (ref : Int → Prop) : PbArg → Prop
  | .enum s => IsColumn (s ++ "_enum".toList)
  | .value e => Told lib fn ref e
  | _ => False
def ToldArgs (lib : Lib) (fn : Known) (ref : Int → Prop) : List PbArg → Prop
  | [] => True
  | a :: as => ToldArg lib fn ref a ∧ ToldArgs lib fn ref as
def ToldList (lib : Lib) (fn : Known) (ref : Int → Prop) : List PbExpr → Prop
  | [] => True
  | e :: es => Told lib fn ref e ∧ ToldList lib fn ref es
def ToldClause (lib : Lib) (fn : Known) (ref : Int → Prop) : PbClause → Prop
  | .mk a b => Told lib fn ref a ∧ Told lib fn ref b
def ToldClauses (lib : Lib) (fn : Known) (ref : Int → Prop) : List PbClause → Prop
  | [] => True
  | a :: as => ToldClause lib fn ref a ∧ ToldClauses lib fn ref as
end

/-- An expression of a relation that text can express.  Other than comparisons, subqueries are in
the arguments of functions (C57). -/
def Said (lib : Lib) (fn : Known) (ref : Int → Prop) (e : PbExpr) : Prop :=
  Told lib fn ref e ∧ Rel.Plain e

/-- An expression that may be absent. -/
def SaidOpt (lib : Lib) (fn : Known) (ref : Int → Prop) (e : Option PbExpr) : Prop :=
  ∀ x, e = some x → Said lib fn ref x

/-- A number of one of `w` columns. -/
def InWidth (w : Nat) (i : Int) : Prop := 0 ≤ i ∧ i < w

/-- A schema that text can express.  No name of a column ends like an enumeration. -/
structure SchemaFits (s : Sec.NamedStruct) : Prop where
  plain : Sec.Plain s
  once : s.names.Nodup
  names : ∀ n ∈ s.names, Ext.IsName n
  notEnum : ∀ n ∈ s.names, ¬ "_enum".toList <:+ n
  types : ∀ t ∈ s.types, TypeOk t

/-- The columns the groupings refer to. -/
def grouped (g : List PbExpr) : List Int := g.filterMap Rel.fieldOf

/-- A column that may be used in an aggregate with these groupings: a computed column that is
grouped by is taken for the column of the result. -/
def Usable (f : List Bool) (g : List PbExpr) (i : Int) : Prop :=
  InWidth f.length i ∧ (f[i.toNat]? = some true ∨ i ∉ grouped g)

/-- A measure that text can express. -/
def MeasureFits (lib : Lib) (fn : Known) (ref : Int → Prop) (m : Rel.PbMeasure) : Prop :=
  (∃ f, m.measure = some f ∧ fn f.function ∧ f.options = [] ∧ ToldArgs lib fn ref f.arguments ∧
    f.args = [] ∧ TypeOk f.output ∧ (0 ≤ f.phase ∧ f.phase ≤ 4) ∧
    (0 ≤ f.invocation ∧ f.invocation ≤ 2) ∧ f.sorts = []) ∧ SaidOpt lib fn ref m.filter

/-- The body is one that text can express: `f` are the columns of the input. -/
def BodyFits (lib : Lib) (fn : Known) (f : List Bool) (emit : List Int) : Rel.Body → Prop
  | .read none none c none false => emit = [] ∧ SaidOpt lib fn (fun _ => False) c
  | .filter c => emit = [] ∧ SaidOpt lib fn (InWidth f.length) c
  | .fetch 0 n => emit = [] ∧ -9223372036854775808 ≤ n ∧ n < 9223372036854775808
  | .sort ss => emit = [] ∧ ∀ s ∈ ss, Said lib fn (InWidth f.length) s.expr ∧
    ∃ n, s.kind = .direction n ∧ 1 ≤ n ∧ n ≤ 5
  | .join t c none => emit = [] ∧ (1 ≤ t ∧ t ≤ 7 ∧ t ≠ 5 ∧ t ≠ 6) ∧
    SaidOpt lib fn (InWidth f.length) c
  | .cross => emit = []
  | .project es =>
    (∀ e ∈ es, Said lib fn (InWidth f.length) e ∧ Rel.FieldKept e ∧ Rel.isOuter e = false) ∧
    (emit = [] → ∀ e ∈ es, Rel.fieldOf e = none) ∧
    (∀ i ∈ emit, InWidth (f.length + es.length) i) ∧ (emit.map (stands f.length es)).Nodup
  | .aggregate [g] ms =>
    (∀ e ∈ g, Said lib fn (Usable f g) e ∧ Rel.FieldKept e ∧ Rel.isOuter e = false ∨
      ∃ n, e = .field (.field n false) .root ∧ InWidth f.length n) ∧
    (grouped g).Nodup ∧ (∀ m ∈ ms, MeasureFits lib fn (Usable f g) m) ∧
    (grouped g ≠ [] ∨ ms ≠ []) ∧ emit.Nodup ∧
    ∀ i ∈ emit, 0 ≤ i ∧ (madeKinds f (.aggregate [g] ms))[i.toNat]? = some false
  | _ => False

/-- The number of inputs of a relation. -/
def arity : Rel.Body → Nat
  | .read _ _ _ _ _ => 0
  | .join _ _ _ | .cross => 2
  | _ => 1

/-- Only reads have a source and a schema, and they have both. -/
def TablesFit (o : Own) : Prop :=
  if isRead o.body then
    (∃ s, o.schema = some s ∧ SchemaFits s) ∧ ∃ s, o.source = some s ∧ Sec.SourceOk s
  else o.schema = none ∧ o.source = none

/-- The relations whose subqueries may refer to their columns: those that make no columns of their
own. -/
def plain : Rel.Body → Bool
  | .filter _ | .sort _ | .join _ _ _ => true
  | _ => false

/-- What may be mentioned where the relations around have `up` columns, from the inside. -/
def Known.within (fn : Known) (up : List Nat) : Known :=
  { fn with outer := fun k n => InWidth ((up[k]?).getD 0) n }

/-- Whether the relation at a number of the `count` relations in a relation is an input. -/
def isInput (b : Rel.Body) (count i : Nat) : Bool :=
  if Pipe.inputsFirst (pipeKind b) then decide (i < count - queriesBody b)
  else decide (queriesBody b ≤ i)

/-- The numbers of columns of the relations around the one at number `i` of the `count` relations
in a relation, of which there are `up` around the relation itself and `w` columns come into it.
The inputs of a relation with two of them do not know what is around them (C45). -/
def around (b : Rel.Body) (w : Nat) (up : List Nat) (count i : Nat) : List Nat :=
  if isInput b count i then if Pipe.convShape (pipeKind b) = .single then up else []
  else if plain b then w :: up else []

mutual
/-- The relations of the tree are ones that text can express; the relations around it have `up`
columns.  Reads have no subqueries. -/
def TreeFits (lib : Lib) (fn : Known) (up : List Nat) : BRel → Prop
  | .node o kids =>
    BodyFits lib (fn.within up) (inKinds o kids) o.emit o.body ∧ TablesFit o ∧
      (kids.length = arity o.body + queriesBody o.body ∧
        (isRead o.body = true → queriesBody o.body = 0)) ∧
      (inKinds o kids).length + (madeKinds (inKinds o kids) o.body).length < 2147483648 ∧
      TreesFit lib fn (around o.body (inKinds o kids).length up kids.length) kids
def TreesFit (lib : Lib) (fn : Known) (up : Nat → List Nat) : List BRel → Prop
  | [] => True
  | r :: rs => TreeFits lib fn (up 0) r ∧ TreesFit lib fn (fun i => up (i + 1)) rs
end

/-! ## Names -/

/-- What the converter makes names of. -/
def bases : List Str :=
  ["root", "schema", "named", "local", "intermediate", "measurename", "read", "filter", "fetch",
    "aggregate", "sort", "project", "join", "cross"].map String.toList

/-- A name the converter may have made up. -/
def MadeUp (s : Str) : Prop := ∃ b ∈ bases, ∃ n, s = Sym.uniqueText b n

mutual
/-- The relations of a tree, each after the relations in it. -/
def owns : BRel → List Own
  | .node o kids => ownsL kids ++ [o]
def ownsL : List BRel → List Own
  | [] => []
  | r :: rs => owns r ++ ownsL rs
end

/-- The names of the columns of a relation's base schema. -/
def Own.columns (o : Own) : List Str := (o.schema.map (·.names)).getD []

/-- The names of the table a relation reads. -/
def Own.tables (o : Own) : List Str :=
  match o.source with
  | some (.named ns) => ns
  | _ => []

/-- The names that the symbols of the files get that a relation reads. -/
def Own.fileKeys (o : Own) : List Str :=
  match o.source with
  | some (.files fs) => fs.map Sec.fileKey
  | _ => []

def columns (r : BRel) : List Str := (owns r).flatMap Own.columns
def tables (r : BRel) : List Str := (owns r).flatMap Own.tables
def fileKeys (r : BRel) : List Str := (owns r).flatMap Own.fileKeys

/-- The function is declared. -/
def Declared (p : Input) (a : Nat) : Prop := ∃ f ∈ p.functions, f.anchor = a

/-- The functions of the plan in the symbol table. -/
def Input.table (p : Input) : Ext.Table := Ext.readBinary p.uris p.functions

/-- The functions are ones that text can express: they have different numbers and different
symbols, and different URIs if they refer to different ones. -/
structure FunctionsFit (p : Input) : Prop where
  anchors : (p.functions.map (·.anchor)).Nodup
  symbols : (p.table.funs.map (·.symbol)).Nodup
  distinct : Ext.Distinct p.table
  uris : ∀ u ∈ p.uris, Ext.IsUri u.uri
  named : ∀ f ∈ p.table.funs, Ext.IsName f.symbol ∧ f.symbol.map toLower ≠ "ifthen".toList
  typed : ∀ f ∈ p.table.funs, Ext.IsFunctionName f.name ∧ Ext.lacksType f.name = false

/-- Nothing has the name of something else. -/
structure NamesFit (p : Input) : Prop where
  columns : ∀ n ∈ columns p.rel, ¬ MadeUp n
  tables : ∀ n ∈ tables p.rel, ¬ MadeUp n ∧ n ≠ Sec.rootNamesName ∧ n ∉ fileKeys p.rel
  uris : ∀ u ∈ p.uris, ¬ MadeUp u.uri ∧ u.uri ≠ Sec.rootNamesName
  files : (fileKeys p.rel).Nodup
  functions : ∀ f ∈ p.table.funs, ¬ MadeUp f.symbol ∧ f.symbol ∉ Whole.columns p.rel ∧
    f.symbol ∉ Whole.tables p.rel ∧ ∀ u ∈ p.uris, f.symbol ≠ u.uri

/-- A plan that text can express. -/
structure Expressible (lib : Lib) (p : Input) : Prop where
  tree : TreeFits lib ⟨Declared p, fun n => n = [], fun _ _ => False⟩ [] p.rel
  functions : FunctionsFit p
  names : NamesFit p
  root : ∀ n ∈ p.names, Ext.IsName n

/-- The functions of one plan are those of the other: with another number, the same name and the
same URI; the numbers are different. -/
structure SameFunctions (ρ : Nat → Nat) (p : Input) (b : Binary) : Prop where
  kept : ∀ f ∈ p.functions, ∃ g ∈ b.functions, g.anchor = ρ f.anchor ∧ g.name = f.name ∧
    Ext.resolve b.uris g.uriRef = Ext.resolve p.uris f.uriRef
  count : b.functions.length = p.functions.length
  once : (b.functions.map (·.anchor)).Nodup

/-- The plan as a message. -/
def Input.binary (p : Input) : Binary := ⟨p.uris, p.functions, [(p.names, p.rel)]⟩

/-- The binary plan says the same as the other. -/
def SamePlan (p : Input) (b : Binary) : Prop :=
  ∃ ρ r, SameFunctions ρ p b ∧ b.rels = [(p.names, r)] ∧ Same ρ p.rel r

end Verif.Whole
