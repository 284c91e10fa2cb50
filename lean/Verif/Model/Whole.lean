import Verif.Model.Sections
import Verif.Model.Queries

/-!
# From a binary plan to text and back

Puts together the parts of the two directions of the text plan library: the converter of binary
plans (`src/substrait/textplan/converter/LoadBinary.cpp`, `ParseBinary.cpp`,
`InitialPlanProtoVisitor.cpp`, `PipelineVisitor.cpp`), the printer of text plans
(`SymbolTablePrinter.cpp:492-548`), the reader of text plans
(`src/substrait/textplan/parser/ParseText.cpp:17-108`) and the printer of binary plans
(`SymbolTablePrinter.cpp:1088-1135`).

Simplifications: plans have one plan relation, which is a root.  Subqueries in the expressions that
are compared with another subquery, and those of reads, are treated like all others; the converter
does not visit the former (C64).  Errors that are reported are exceptions of the kind `other`:
neither direction gives a result if there is one.
-/

namespace Verif.Whole

open Verif Verif.Expr

/-! ## Binary plans -/

/-- The message `Rel` without its inputs and the relations of its subqueries.  The source and the base
schema of a `ReadRel` are here, and the names in its body are `none`; the name of the relation of a
subquery is empty. -/
structure Own where
  body : Rel.Body
  emit : List Int
  schema : Option Sec.NamedStruct
  source : Option Sec.Source

/-- The kind of a relation for the graph. -/
def pipeKind : Rel.Body → Pipe.RelKind
  | .read _ _ _ _ _ => .read
  | .filter _ => .filter
  | .fetch _ _ => .fetch
  | .aggregate _ _ => .aggregate
  | .sort _ => .sort
  | .project _ => .project
  | .join _ _ _ => .join
  | .cross => .cross
  | .other => .unknown

/-- The message `Rel`.  Its inputs and the relations of its subqueries come in the order in which
BasePlanProtoVisitor.cpp visits them (`Pipe.arrange`): there are as many of the latter as there
are subqueries with a relation in the body. -/
inductive BRel where
  | node (own : Own) (kids : List BRel)

/-- The inputs of a relation among the relations in it. -/
def inputsIn {α : Type} (b : Rel.Body) (l : List α) : List α :=
  if Pipe.inputsFirst (pipeKind b) then l.take (l.length - queriesBody b)
  else l.drop (queriesBody b)

/-- The relations of the subqueries among the relations in a relation. -/
def queriesIn {α : Type} (b : Rel.Body) (l : List α) : List α :=
  if Pipe.inputsFirst (pipeKind b) then l.drop (l.length - queriesBody b)
  else l.take (queriesBody b)

/-- The message `Plan` with one root. -/
structure Input where
  uris : List Ext.PbUri
  functions : List Ext.PbFunction
  names : List Str
  rel : BRel

/-- The message `Plan`: roots with their names. -/
structure Binary where
  uris : List Ext.PbUri
  functions : List Ext.PbFunction
  rels : List (List Str × BRel)

/-! ## Names -/

/-- The unique names handed out for a relation: for its symbol, its base schema, its source, the
expressions of a project that are no references, and the measures; and the names of the symbols of
its subqueries. -/
structure Names where
  rel : Str
  schema : Option Str
  source : Option Str
  /-- By the number of the expression; nothing for references. -/
  computed : List Str
  measures : List Str
  queries : List Str

/-- A relation with the names of its symbols. -/
inductive NRel where
  | node (names : Names) (own : Own) (kids : List NRel)

/-- The names of a relation. -/
def NRel.names : NRel → Names
  | .node n _ _ => n

/-- The counters of `getUniqueName`. -/
abbrev Counters := Sym.Table Unit

/-- A name for something that may be absent. -/
def takeOpt (u : Counters) : Option Str → Counters × Option Str
  | none => (u, none)
  | some base => ((u.getUniqueName base).1, some (u.getUniqueName base).2)

/-- A name for each of these. -/
def takeAll (u : Counters) : List Str → Counters × List Str
  | [] => (u, [])
  | base :: bases =>
    let a := u.getUniqueName base
    let b := takeAll a.1 bases
    (b.1, a.2 :: b.2)

/-- InitialPlanProtoVisitor.cpp:328-390: the name of a source by its kind. -/
def sourceBase : Sec.Source → Str
  | .named _ => "named".toList
  | .files _ => "local".toList
  | .virtual => "virtual".toList
  | .extension => "extensiontable".toList

/-- InitialPlanProtoVisitor.cpp:520-523: an expression of a project that is a direct reference
to a field of a struct. -/
def reference : PbExpr → Option Int
  | .field (.field n _) _ => some n
  | _ => none

/-- `kIntermediateNodeName`. -/
def intermediate : Str := "intermediate".toList

/-- InitialPlanProtoVisitor.cpp:519-572: names for the expressions of a project. -/
def takeItems (u : Counters) : List PbExpr → Counters × List Str
  | [] => (u, [])
  | e :: es =>
    match reference e with
    | some _ => let b := takeItems u es; (b.1, [] :: b.2)
    | none =>
      let a := u.getUniqueName intermediate
      let b := takeItems a.1 es
      (b.1, a.2 :: b.2)

/-- The expressions of a project. -/
def expressionsOf : Rel.Body → List PbExpr
  | .project es => es
  | _ => []

/-- The measures of an aggregate. -/
def measuresOf : Rel.Body → List Rel.PbMeasure
  | .aggregate _ ms => ms
  | _ => []

/-- The relation is a `ReadRel`. -/
def isRead : Rel.Body → Bool
  | .read _ _ _ _ _ => true
  | _ => false

/-- The base schema, which only reads have. -/
def Own.baseSchema (o : Own) : Option Sec.NamedStruct := if isRead o.body then o.schema else none

/-- The source, which only reads have. -/
def Own.readSource (o : Own) : Option Sec.Source := if isRead o.body then o.source else none

/-- InitialPlanProtoVisitor.cpp:254-326, 461-667: the names for one relation, in the order in
which they are asked for.  `visitNamedStruct` (InitialPlanProtoVisitor.cpp:390-419), which
reports columns without a type, is left out. -/
def nameNode (u : Counters) (o : Own) : Counters × Names :=
  let a := takeOpt u (o.baseSchema.map fun _ => "schema".toList)
  let b := takeOpt a.1 (o.readSource.map sourceBase)
  let c := takeItems b.1 (expressionsOf o.body)
  let d := takeAll c.1 ((measuresOf o.body).map fun _ => "measurename".toList)
  let e := d.1.getUniqueName (Rel.kindText o.body.kind)
  (e.1, ⟨e.2, a.2, b.2, c.2, d.2, []⟩)

mutual
/-- BasePlanProtoVisitor.cpp `visitRelation`: the names of a tree; the inputs and subqueries come
before the relation itself.  InitialPlanProtoVisitor.cpp:161-200: the subqueries of a relation are
numbered. -/
def nameTree (u : Counters) : BRel → Counters × NRel
  | .node o kids =>
    let a := nameTrees u kids
    let b := nameNode a.1 o
    (b.1, .node { b.2 with queries := (queriesIn o.body a.2).map (·.names.rel) } o a.2)
def nameTrees (u : Counters) : List BRel → Counters × List NRel
  | [] => (u, [])
  | r :: rs =>
    let a := nameTree u r
    let b := nameTrees a.1 rs
    (b.1, a.2 :: b.2)
end

/-! ## Converting -/

/-- The names of computed fields and of measures. -/
def Names.naming (n : Names) : Schema.Naming
  | .computed _ k => (n.computed[k]?).getD []
  | .measure _ k => (n.measures[k]?).getD []
  | .column _ _ => []

/-- An expression of a project as `updateLocalSchema` sees it. -/
def itemOf (e : PbExpr) : Schema.Item :=
  match reference e with
  | some n => .ref n
  | none => .other []

/-- InitialPlanProtoVisitor.cpp:669-686: a grouping expression; the number of a selection
without one is 0. -/
def groupOf : PbExpr → Schema.Item
  | .field (.field n _) _ => .ref n
  | .field .other _ | .masked _ | .noReference _ => .ref 0
  | _ => .other []

/-- What the relation does to its fields. -/
def opOf (n : Names) (o : Own) : Schema.Op :=
  match o.body with
  | .read _ _ _ _ _ => .read (n.schema.getD []) ((o.schema.map (·.names)).getD [])
  | .project es => .project (es.map itemOf)
  | .aggregate gs ms => .aggregate (gs.flatten.map groupOf) (ms.map fun _ => [])
  | .join _ _ _ | .cross => .join []
  | _ => .pass []

/-- `seenFieldReferenceNames` and `generatedFieldReferenceAlternativeExpression`, the last
assignment first. -/
structure Seen where
  names : List (Str × Nat)
  texts : List (Nat × Str)

/-- InitialPlanProtoVisitor.cpp:452-459 `getSchemaName`, and the name behind it; nothing if
there is no schema. -/
def fullName (k : Nat) (name : Str) (f : Schema.Field) : List (Nat × Str) :=
  match f.schema with
  | some s => if s.isEmpty then [] else [(k, s ++ '.' :: name)]
  | none => []

/-- InitialPlanProtoVisitor.cpp:527-553: generated field `k`.  The fields that are no references
have an alias. -/
def seeField (gs : List Schema.Field) (s : Seen) (k : Nat) (f : Schema.Field) : Seen :=
  if f.alias.isEmpty then
    match Sym.mapFind s.names f.name with
    | none => { s with names := s.names ++ [(f.name, k)] }
    | some p =>
      { s with texts :=
        (match gs[p]? with
          | some g => fullName p f.name g
          | none => []) ++ fullName k f.name f ++ s.texts }
  else s

def seeFields (gs : List Schema.Field) (s : Seen) (k : Nat) : List Schema.Field → Seen
  | [] => s
  | f :: fs => seeFields gs (seeField gs s k f) (k + 1) fs

/-- The alternative expressions of a project. -/
def alternative (gs : List Schema.Field) (k : Nat) : Option Str :=
  ((seeFields gs ⟨[], []⟩ 0 gs).texts.find? fun e => e.1 = k).map (·.2)

/-- The body with the names of the symbols of its schema and its source. -/
def withNames (n : Names) : Rel.Body → Rel.Body
  | .read _ _ f b p => .read n.source n.schema f b p
  | b => b

/-- The relation with the names of its subqueries. -/
def Own.fill (o : Own) (n : Names) : Own := { o with body := fillBody n.queries o.body }

/-- PlanPrinterVisitor.cpp:257-272 `lookupFunctionReference`. -/
def functionName (t : Ext.Table) (a : Nat) : Option Str :=
  (t.funs.find? fun f => f.anchor = a).map (·.symbol)

/-- The libraries and the functions of the plan. -/
structure Setting where
  lib : Literal.Lib
  functions : Ext.Table

/-- What a relation is printed with; `outer` are the fields of the relations it is in a subquery
of.  The fields for the reader are not used. -/
def printContext (s : Setting) (outer : List Schema.RelData) (n : Names) (o : Own)
    (d : Schema.RelData) : Rel.RelContext where
  expr := ⟨s.lib, d :: outer, [], functionName s.functions, fun _ => none, fun _ => none⟩
  name := n.rel
  alternative := fun k =>
    match o.body with
    | .project _ => alternative d.generated k
    | _ => none
  measureName := fun k => n.measures[k]?
  inside := false
  inputs := []
  firstInputs := []
  outer := []
  source := fun _ => none
  schema := fun _ => none
  fresh := fun _ => []

/-- A relation in the symbol table. -/
structure Node where
  names : Names
  own : Own
  data : Schema.RelData

mutual
/-- InitialPlanProtoVisitor.cpp:254-294: the relations in the order of the symbol table, and the
fields of the last. -/
def nodes : NRel → Outcome (List Node × Schema.RelData)
  | .node n o kids =>
    (nodesL kids).bind fun r =>
      (Schema.stepBinary n.naming n.rel (opOf n o) o.emit (inputsIn o.body r.2)).bind fun d =>
        if d.2.isEmpty then .ok (r.1 ++ [⟨n, o, d.1⟩], d.1) else .throw .other
def nodesL : List NRel → Outcome (List Node × List Schema.RelData)
  | [] => .ok ([], [])
  | r :: rs =>
    (nodes r).bind fun a => (nodesL rs).map fun b => (a.1 ++ b.1, a.2 :: b.2)
end

/-- The text of a relation. -/
def nodeText (s : Setting) (outer : Str → List Schema.RelData) (x : Node) : Outcome Str :=
  (Rel.printRelation (printContext s (outer x.names.rel) x.names x.own x.data)
    ⟨withNames x.names (x.own.fill x.names).body, x.own.emit⟩).bind fun r =>
      if r.2.isEmpty then .ok r.1 else .throw .other

mutual
/-- The graph of a tree. -/
def skeleton : NRel → Pipe.Rel
  | .node n o kids => .node (pipeKind o.body) n.rel (inputsIn o.body (skeletonL kids))
    (queriesIn o.body (skeletonL kids))
def skeletonL : List NRel → List Pipe.Rel
  | [] => []
  | r :: rs => skeleton r :: skeletonL rs
end

mutual
/-- PlanPrinterVisitor.cpp:121-134 `getParentQueryLocation` with PipelineVisitor.cpp:46-60: the
relations that the relations of a tree are in a subquery of, from the inside.  The pipeline of a
subquery ends where a relation has two inputs: what is above that has no parent. -/
def owners (up : List Str) : Pipe.Rel → List (Str × List Str)
  | .node k n ins subs =>
    (n, up) :: (ownersL (if Pipe.convShape k = .single then up else []) ins ++ ownersL (n :: up) subs)
def ownersL (up : List Str) : List Pipe.Rel → List (Str × List Str)
  | [] => []
  | r :: rs => owners up r ++ ownersL up rs
end

/-- The relations that a relation is in a subquery of. -/
def ownersOf (r : Pipe.Rel) (n : Str) : List Str :=
  (((owners [] r).find? fun e => e.1 = n).map (·.2)).getD []

/-- The fields of the relation with a name. -/
def dataIn (l : List Node) (n : Str) : Schema.RelData :=
  ((l.find? fun x => x.names.rel = n).map (·.data)).getD ⟨false, [], [], []⟩

/-- The base schemas in the symbol table. -/
def Node.schemas (x : Node) : List (Str × Sec.NamedStruct) :=
  match x.names.schema, x.own.schema with
  | some n, some s => [(n, s)]
  | _, _ => []

/-- The sources in the symbol table. -/
def Node.sources (x : Node) : List (Str × Sec.Source) :=
  match x.names.source, x.own.source with
  | some n, some s => [(n, s)]
  | _, _ => []

/-- The text of a tree with names: SymbolTablePrinter.cpp:492-548 `outputToText`. -/
def treeText (sort : Ext.Sorter) (fuel : Nat) (s : Setting) (names : List Str) (root : Str)
    (r : NRel) : Outcome Str :=
  (nodes r).bind fun x =>
    (Pipe.lines (Pipe.convert root (skeleton r)) fuel).bind fun ps =>
      (Outcome.mapM (nodeText s fun n => (ownersOf (skeleton r) n).map (dataIn x.1)) x.1).bind
        fun texts =>
        (Ext.blocks sort s.functions).bind fun bs =>
          Sec.Parts.text ⟨ps, texts, [names], x.1.flatMap Node.schemas, x.1.flatMap Node.sources, bs⟩

/-- The counters after the functions and the root names
(BasePlanProtoVisitor.cpp:1230-1240, InitialPlanProtoVisitor.cpp:297-309). -/
def startCounters (p : Input) : Counters :=
  ((p.functions.foldl Ext.addFunction (Sym.Table.empty, [])).1.getUniqueName
    Sec.rootNamesName).1

/-- A binary plan as text: the library's `parseBinaryPlan` and
`SymbolTablePrinter::outputToText`.  The name of the plan relation is taken last
(InitialPlanProtoVisitor.cpp:238-252).  `fuel` bounds the depth of the recursion over the
graph. -/
def toText (lib : Literal.Lib) (sort : Ext.Sorter) (fuel : Nat) (p : Input) : Outcome Str :=
  let t := nameTree (startCounters p) p.rel
  treeText sort fuel ⟨lib, Ext.readBinary p.uris p.functions⟩ p.names
    (t.1.getUniqueName Sec.rootName).2 t.2

/-! ## Reading -/

/-- The relations of a text. -/
def relationOf : Sec.PlanDetail → Option Rel.RelTree
  | .relation t => some t
  | _ => none

/-- The pipelines of a text. -/
def pipelinesOf : Sec.PlanDetail → Option (List (List Pipe.Ref))
  | .pipelines ps => some ps
  | _ => none

/-- The kind of a relation for the graph. -/
def readKind : Option Enum.RelType → Pipe.RelKind
  | none => .unknown
  | some .read => .read
  | some .project => .project
  | some .join => .join
  | some .cross => .cross
  | some .fetch => .fetch
  | some .aggregate => .aggregate
  | some .sort => .sort
  | some .filter => .filter
  | some .set => .set

/-- The relation a symbol is, for the graph; `subs` are its subqueries. -/
def entryOf (subs : List Str) : Sec.Info → Pipe.Entry
  | .relation k => .rel (some (readKind k)) { Pipe.Data.empty with subs := subs }
  | .rootRelation => .rel none { Pipe.Data.empty with subs := subs }
  | _ => .other

/-- The symbol is of the type `kRelation`. -/
def isRelation : Sec.Info → Bool
  | .relation _ => true
  | .rootRelation => true
  | _ => false

/-- SubstraitPlanPipelineVisitor.cpp:173-246: the subqueries of a relation of the text. -/
def refsOf (t : Rel.RelTree) : List Str := t.details.flatMap Rel.detailRefs

/-- The subqueries of the relation with a name. -/
def subsOf (ts : List Rel.RelTree) (n : Str) : List Str :=
  (ts.filter fun t => t.ref.id = n).flatMap refsOf

/-- The symbol table as the graph sees it, before the pipelines are read. -/
def graphOf (l : List Sec.Symbol) (ts : List Rel.RelTree) : Pipe.Table where
  order := (l.filter fun s => isRelation s.info).map (·.name)
  get := fun n => (Sec.lookup l n).map fun s => entryOf (subsOf ts n) s.info

/-- SubstraitPlanPipelineVisitor.cpp:36-53, 173-246: every name of a subquery's relation is that of a
symbol, or it is in a pipeline further up in the text, which has made a symbol of it: the visitor goes
through the text once.  `seen` are the names in the pipelines so far. -/
def refsKnown (l : List Sec.Symbol) (seen : List Str) : List Sec.PlanDetail → Bool
  | [] => true
  | .pipelines ps :: ds => refsKnown l (seen ++ ps.flatten.map (·.name)) ds
  | .relation t :: ds =>
    ((refsOf t).all fun n => (Sec.lookup l n).isSome || seen.contains n) && refsKnown l seen ds
  | _ :: ds => refsKnown l seen ds

/-- `parentQueryLocation`: the relation that has another one as a subquery; the last one counts. -/
def parentIn (g : Pipe.Table) (n : Str) : Option Str :=
  g.order.reverse.find? fun m => (g.data m).subs.contains n

/-- SubstraitPlanSubqueryRelationVisitor.cpp:323-341 `getParentQueryLocation`.  Simplification: a
cycle is cut off. -/
def parentOf (g : Pipe.Table) : Nat → Str → Option Str
  | 0, _ => none
  | fuel + 1, n =>
    match parentIn g n with
    | some m => some m
    | none => (g.data n).start.bind (parentOf g fuel)

/-- SubstraitPlanSubqueryRelationVisitor.cpp:2214-2231: the relations a relation is in a subquery
of, from the inside.  Simplification: a cycle is cut off. -/
def outersOf (g : Pipe.Table) : Nat → Str → List Str
  | 0, _ => []
  | fuel + 1, n =>
    match parentOf g (g.order.length + 1) n with
    | some m => m :: outersOf g fuel m
    | none => []

/-- SubstraitPlanSubqueryRelationVisitor.cpp:1203-1212: the anchor of the function with a name, if
the first symbol with the name is one. -/
def anchorOf (st : Sec.State) (n : Str) : Option Nat :=
  match Sec.lookup st.symbols n with
  | some s =>
    match s.info with
    | .function => (st.ext.table.funs.find? fun f => f.symbol = n).map (·.anchor)
    | _ => none
  | none => none

/-- Whether the symbol with a name is a relation.  The names that are only in pipelines have symbols
of relations too. -/
def relationNamed (l : List Sec.Symbol) (g : Pipe.Table) (n : Str) : Option Bool :=
  match Sec.lookup l n with
  | some s => some (isRelation s.info)
  | none => (g.get n).map fun _ => true

/-- A relation that has been read: its fields, the names of its expressions and the message. -/
structure Done where
  data : Schema.RelData
  names : List Str
  rel : Rel.PbRel

/-- The relations that have been read, the last one first. -/
abbrev Relations := List (Str × Done)

/-- The relation with a name. -/
def Relations.find (l : Relations) (n : Str) : Option Done :=
  (l.find? fun e => e.1 = n).map (·.2)

/-- The fields of a relation; a symbol that is no relation of the text has none. -/
def Relations.fields (l : Relations) (n : Str) : Schema.RelData :=
  ((l.find n).map (·.data)).getD ⟨false, [], [], []⟩

/-- `addInputFieldsToSchema` (SubstraitPlanRelationVisitor.cpp:274-312,
SubstraitPlanSubqueryRelationVisitor.cpp:272-310): the fields of the inputs. -/
def inputsOf (g : Pipe.Table) (done : Relations) (n : Str) : List Schema.Field :=
  Schema.inputFields (((g.data n).cont.toList ++ (g.data n).news).map done.fields)

/-- The names the first pass gives to the expressions of a project without one
(SubstraitPlanRelationVisitor.cpp:647-659). -/
def freshNames (u : Counters) : List Rel.Detail → Counters × List Str
  | [] => (u, [])
  | .expression _ none :: ds =>
    let a := u.getUniqueName intermediate
    let b := freshNames a.1 ds
    (b.1, a.2 :: b.2)
  | .expression _ (some _) :: ds => let b := freshNames u ds; (b.1, [] :: b.2)
  | _ :: ds => freshNames u ds

/-- What a relation of the text is read with.  The fields for the printer are not used. -/
def readerContext (lib : Literal.Lib) (st : Sec.State) (g : Pipe.Table) (done : Relations)
    (fresh : List Str) (name : Str) : Rel.RelContext where
  expr := ⟨lib, [], [], fun _ => none, anchorOf st, relationNamed st.symbols g⟩
  name := name
  alternative := fun _ => none
  measureName := fun _ => none
  inside := Pipe.isSubquery g name
  inputs := inputsOf g done name
  firstInputs := inputsOf g done name
  outer := (outersOf g (g.order.length + 1) name).map done.fields
  source := Sec.sourceSymbol st.symbols
  schema := Sec.columnFields st.symbols
  fresh := fun k => (fresh[k]?).getD []

/-- The names of the expressions of a relation that an earlier pass has kept. -/
def Relations.namesOf (l : Relations) (n : Str) : List Str := ((l.find n).map (·.names)).getD []

/-- One relation in one pass.  The names of expressions are kept from the first pass on. -/
def readRelation (lib : Literal.Lib) (st : Sec.State) (g : Pipe.Table) (first : Bool)
    (done : Relations) (fresh : List Str) (t : Rel.RelTree) : Outcome Done :=
  match Enum.readRelationType t.type with
  | none => .throw .other
  | some k =>
    (Rel.readPass first (readerContext lib st g done fresh t.ref.id) k t.details
      (done.namesOf t.ref.id)).bind fun r =>
        if r.2.isEmpty then .ok ⟨r.1.data, r.1.names, ⟨r.1.body, r.1.emit⟩⟩ else .throw .other

/-- The names that are used up by the projects of the first pass. -/
def freshOf (first : Bool) (u : Counters) (t : Rel.RelTree) : Counters × List Str :=
  if first ∧ Enum.readRelationType t.type = some .project then freshNames u t.details else (u, [])

/-- All relations in one pass, in the order of the text. -/
def readRelations (lib : Literal.Lib) (st : Sec.State) (g : Pipe.Table) (first : Bool) :
    Counters → Relations → List Rel.RelTree → Outcome Relations
  | _, done, [] => .ok done
  | u, done, t :: ts =>
    (readRelation lib st g first done (freshOf first u t).2 t).bind fun r =>
      readRelations lib st g first (freshOf first u t).1 ((t.ref.id, r) :: done) ts

/-- Both passes (ParseText.cpp:67-88). -/
def readPasses (lib : Literal.Lib) (st : Sec.State) (g : Pipe.Table) (ts : List Rel.RelTree) :
    Outcome Relations :=
  (readRelations lib st g true Sym.Table.empty [] ts).bind fun done =>
    readRelations lib st g false Sym.Table.empty done ts

/-- The message of a relation with what the table says of its source and its schema.  The names of
its subqueries have been used. -/
def ownOf (l : List Sec.Symbol) (r : Rel.PbRel) : Outcome Own :=
  match r.body with
  | .read source schema f b p =>
    (match source with
      | some n => Sec.sourceOf l n
      | none => .ok none).map fun s =>
        ⟨blankBody (.read none none f b p), r.emit, schema.bind (Sec.schemaOf l), s⟩
  | b => .ok ⟨blankBody b, r.emit, none, none⟩

mutual
/-- SymbolTablePrinter.cpp:550-1135: the relation with its inputs and the relations of its
subqueries.  A symbol that is no relation of the text has an empty message.  If there are too few
subqueries there is an exception. -/
def attach (l : List Sec.Symbol) (done : Relations) : Pipe.Rel → Outcome BRel
  | .node k n ins subs =>
    (ownOf l (((done.find n).map (·.rel)).getD ⟨.other, []⟩)).bind fun o =>
      (attachL l done ins).bind fun a =>
        (attachL l done subs).bind fun b =>
          if Pipe.takesSubs k ins.length then
            if queriesBody o.body ≤ b.length then
              .ok (.node o (Pipe.arrange (pipeKind o.body) a (b.take (queriesBody o.body))))
            else .throw .other
          else .ok (.node { o with body := emptyQueries o.body } a)
def attachL (l : List Sec.Symbol) (done : Relations) : List Pipe.Rel → Outcome (List BRel)
  | [] => .ok []
  | r :: rs => (attach l done r).bind fun x => (attachL l done rs).map fun y => x :: y
end

/-- SymbolTablePrinter.cpp:1121-1129: the names of the root in the relations that get them. -/
def namedAs (names : List Str) : List Bool → List BRel → List (List Str × BRel)
  | named :: ns, b :: bs => (if named then names else [], b) :: namedAs names ns bs
  | _, _ => []

/-- The binary plan of a symbol table. -/
def fromDetails (lib : Literal.Lib) (fuel : Nat) (ds : List Sec.PlanDetail) : Outcome Binary :=
  (Sec.visitPlan ds).bind fun st =>
    if st.errs.isEmpty then
      (Pipe.visitAll (ds.filterMap pipelinesOf).flatten
        ⟨graphOf st.symbols (ds.filterMap relationOf), []⟩).bind fun g =>
        if g.errors.isEmpty && refsKnown st.symbols [] ds then
          (readPasses lib st g.table (ds.filterMap relationOf)).bind fun done =>
            (Pipe.binaryPlan g.table fuel).bind fun rs =>
              (attachL st.symbols done rs).map fun bs =>
                ⟨Ext.binaryUris st.ext.table, Ext.binaryFunctions st.ext.table,
                  namedAs ((Sec.rootNamesOf st.symbols).getD []) (Pipe.namedRels g.table) bs⟩
        else .throw .other
    else .throw .other

/-- A text plan as a binary plan: the library's `parseStream` (ParseText.cpp:42-108) and
`SymbolTablePrinter::outputToBinaryPlan`; `none` is a syntax error. -/
def fromText (lib : Literal.Lib) (fuel : Nat) (text : Str) : Option (Outcome Binary) :=
  (Sec.detailsOf text).map (fromDetails lib fuel)

end Verif.Whole
