import Verif.Model.Basic

/-!
# The way through a binary plan

How the visitors of a binary plan walk through its messages
(src/substrait/textplan/converter/BasePlanProtoVisitor.cpp), what the first visitor notes on
relations and subqueries (src/substrait/textplan/converter/InitialPlanProtoVisitor.cpp), and
what the second one links (src/substrait/textplan/converter/PipelineVisitor.cpp).

A message is a node with labelled fields.  Every function `visitX` of BasePlanProtoVisitor.cpp is
a list of steps over the fields: `steps` has one entry per function.  What is only a number, a
text or an extension is `leaf`; fields that hold nothing but leaves are left out where the code
does nothing with them.
-/

namespace Verif.Trav

open Verif

/-- The messages of a plan (algebra.proto, plan.proto). -/
inductive Kind where
  | plan | planRel | relRoot | rel
  | readRel | filterRel | fetchRel | aggregateRel | sortRel | joinRel | projectRel | setRel
  | extensionSingleRel | extensionMultiRel | extensionLeafRel | crossRel | referenceRel | writeRel
  | ddlRel | hashJoinRel | mergeJoinRel | nestedLoopJoinRel | windowRel | exchangeRel | expandRel
  | namedStruct | virtualTable
  | grouping | measure | aggregateFunction | sortField | windowRelFunction | expandField
  | switchingField | scatterFields | bucketExpression
  | expression | literal | fieldReference | scalarFunction | windowFunction | ifThen | ifClause
  | switchExpression | ifValue | singularOrList | multiOrList | record | cast
  | subquery | subqueryScalar | subqueryIn | subquerySetPredicate | subquerySetComparison
  | nested | nestedStruct | nestedList | nestedMap | nestedKeyValue | functionArgument
  | segment | segmentMapKey | segmentStructField | segmentListElement
  | mask | structSelect | structItem | select | listSelect | mapSelect
  | literalStruct | literalMap | literalKeyValue | literalList | literalUserDefined
  | type | typeStruct | typeList | typeMap | typeUserDefined | typeParameter
  | leaf
  deriving DecidableEq, Repr

/-- The fields of messages.  One label stands for all fields of a oneof that hold leaves only
(`plain`). -/
inductive Label where
  -- plan
  | relations | rel | root | input
  -- Rel.rel_type
  | read | filterRel | fetch | aggregate | sortRel | join | project | set | extensionSingle
  | extensionMulti | extensionLeaf | cross | reference | write | ddl | hashJoin | mergeJoin
  | nestedLoopJoin | window | exchange | expand
  -- fields of relations
  | baseSchema | filter | bestEffortFilter | projection | virtualTable | localFiles | namedTable
  | extensionTable | condition | groupings | measures | sorts | left | right | expression
  | postJoinFilter | expressions | inputs | tableSchema | tableDefaults | viewDefinition | leftKeys
  | rightKeys | windowFunctions | partitionExpressions | scatterByFields | singleTarget
  | multiTarget | fields | struct | values | groupingExpressions | measure | arguments | outputType
  | args | expr | switchingField | consistentField | duplicates
  -- Expression.rex_type
  | literal | selection | scalarFunction | windowFunction | ifThen | switchExpression
  | singularOrList | multiOrList | cast | subquery | nested | enum
  -- fields of expressions
  | partitions | ifs | else_ | if_ | then_ | matched | value | options | type
  | scalar | inPredicate | setPredicate | setComparison | haystack | needles | tuples
  | list | map | keyValues | key | directReference | maskedReference
  | mapKey | structField | listElement | child | select | structItems | selection_ | mapExpression
  | null | emptyList | emptyMap | userDefined | plain | userDefinedReference
  | types | typeParameters | dataType
  deriving DecidableEq, Repr

mutual
/-- A message with its address. -/
inductive Msg where
  | node (kind : Kind) (loc : Nat) (fields : Fields)
/-- The fields that are set, repeated ones more than once. -/
inductive Fields where
  | nil
  | cons (label : Label) (value : Msg) (rest : Fields)
end

def Msg.kind : Msg → Kind
  | .node k _ _ => k

def Msg.loc : Msg → Nat
  | .node _ l _ => l

def Msg.fields : Msg → Fields
  | .node _ _ f => f

/-- The first field with the label. -/
def Fields.get : Fields → Label → Option Msg
  | .nil, _ => none
  | .cons l m r, n => if l = n then some m else r.get n

/-- All fields with the label, in order. -/
def Fields.all : Fields → Label → List Msg
  | .nil, _ => []
  | .cons l m r, n => if l = n then m :: r.all n else r.all n

/-- The case of a oneof and its message. -/
def Fields.caseOf : Fields → List Label → Option (Label × Msg)
  | .nil, _ => none
  | .cons l m r, ls => if l ∈ ls then some (l, m) else r.caseOf ls

/-- One statement of a function `visitX`. -/
inductive Step where
  /-- `if (m.has_f()) visit(m.f())` or `for (x : m.f()) visit(x)` -/
  | each (f : Label)
  /-- `visit(m.f())` without a test; the default message is refused. -/
  | must (f : Label)
  /-- `switch (m.f_case())` with the cases that are visited and those that are not; all others end in
  `SUBSTRAIT_UNSUPPORTED`. -/
  | pick (visited quiet : List Label)
  deriving DecidableEq, Repr

def relCases : List Label :=
  [.read, .filterRel, .fetch, .aggregate, .sortRel, .join, .project, .set, .extensionSingle,
    .extensionMulti, .extensionLeaf, .cross, .reference, .write, .ddl, .hashJoin, .mergeJoin,
    .nestedLoopJoin, .window, .exchange, .expand]

/-- BasePlanProtoVisitor.cpp, by message.  Simplification: `visitReadRelation` of
InitialPlanProtoVisitor.cpp:312-327 visits the base schema a second time before all others; types
define no symbols. -/
def steps : Kind → List Step
  -- 1230-1247 visitPlan
  | .plan => [.each .relations]
  -- 1206-1219 visitPlanRelation
  | .planRel => [.pick [.rel, .root] []]
  -- 1190-1193 visitRelationRoot
  | .relRoot => [.must .input]
  -- 1137-1188 visitRelation
  | .rel => [.pick relCases []]
  -- 772-805 visitReadRelation
  | .readRel => [.each .baseSchema, .each .filter, .each .bestEffortFilter, .each .projection,
      .pick [.virtualTable, .localFiles, .namedTable, .extensionTable] []]
  -- 807-822 visitFilterRelation
  | .filterRel => [.each .condition, .each .input]
  -- 824-836 visitFetchRelation
  | .fetchRel => [.each .input]
  -- 838-856 visitAggregateRelation
  | .aggregateRel => [.each .groupings, .each .measures, .each .input]
  -- 858-873 visitSortRelation
  | .sortRel => [.each .sorts, .each .input]
  -- 875-896 visitJoinRelation
  | .joinRel => [.each .left, .each .right, .each .expression, .each .postJoinFilter]
  -- 898-913 visitProjectRelation
  | .projectRel => [.each .input, .each .expressions]
  -- 915-927 visitSetRelation
  | .setRel => [.each .inputs]
  -- 929-938 visitExtensionSingleRelation
  | .extensionSingleRel => [.each .input]
  -- 940-949 visitExtensionMultiRelation
  | .extensionMultiRel => [.each .inputs]
  -- 951-957 visitExtensionLeafRelation
  | .extensionLeafRel => []
  -- 959-974 visitCrossRelation
  | .crossRel => [.each .left, .each .right]
  -- 976-979 visitReferenceRelation
  | .referenceRel => []
  -- 981-994 visitWriteRelation
  | .writeRel => [.each .tableSchema, .each .input]
  -- 996-1012 visitDdlRelation
  | .ddlRel => [.each .tableSchema, .each .tableDefaults, .each .viewDefinition]
  -- 1014-1038 visitHashJoinRelation, 1040-1064 visitMergeJoinRelation
  | .hashJoinRel | .mergeJoinRel =>
    [.each .left, .each .right, .each .leftKeys, .each .rightKeys, .each .postJoinFilter]
  -- 1066-1084 visitNestedLoopJoinRelation
  | .nestedLoopJoinRel => [.each .left, .each .right, .each .expression]
  -- 1086-1107 visitWindowRelation
  | .windowRel => [.each .input, .each .windowFunctions, .each .partitionExpressions, .each .sorts]
  -- 1109-1121 visitExchangeRelation
  | .exchangeRel => [.each .input]
  -- 1123-1135 visitExpandRelation
  | .expandRel => [.each .input, .each .fields]
  -- 632-635 visitNamedStruct
  | .namedStruct => [.each .struct]
  -- 680-686 visitVirtualTable
  | .virtualTable => [.each .values]
  -- 712-718 visitGrouping
  | .grouping => [.each .groupingExpressions]
  -- 720-729 visitMeasure
  | .measure => [.each .measure, .each .filter]
  -- 586-604 visitAggregateFunction
  | .aggregateFunction => [.each .arguments, .each .outputType, .each .sorts, .each .args]
  -- 731-737 visitSortField
  | .sortField => [.each .expr]
  -- 414-427 visitWindowRelFunction
  | .windowRelFunction => [.each .arguments, .each .outputType]
  -- 753-770 visitExpandField
  | .expandField => [.each .switchingField, .each .consistentField]
  | .switchingField => [.each .duplicates]
  -- never visited
  | .scatterFields => []
  | .bucketExpression => []
  -- 637-670 visitExpression
  | .expression => [.pick [.literal, .selection, .scalarFunction, .windowFunction, .ifThen,
      .switchExpression, .singularOrList, .multiOrList, .cast, .subquery, .nested, .enum] []]
  -- 330-375 visitLiteral
  | .literal => [.pick [.struct, .map, .null, .list, .emptyList, .emptyMap, .userDefined] [.plain]]
  -- 739-751 visitFieldReference
  | .fieldReference => [.each .directReference, .each .maskedReference, .each .expression]
  -- 377-392 visitScalarFunction
  | .scalarFunction => [.each .arguments, .each .outputType, .each .args]
  -- 394-412 visitWindowFunction
  | .windowFunction => [.each .arguments, .each .outputType, .each .sorts, .each .partitions]
  -- 429-438 visitIfThen
  | .ifThen => [.each .ifs, .each .else_]
  -- 300-309 visitIfClause
  | .ifClause => [.each .if_, .each .then_]
  -- 440-452 visitSwitchExpression
  | .switchExpression => [.each .matched, .each .ifs, .each .else_]
  -- 311-320 visitIfValue
  | .ifValue => [.each .if_, .each .then_]
  -- 454-463 visitSingularOrList
  | .singularOrList => [.each .value, .each .options]
  -- 465-474 visitMultiOrList
  | .multiOrList => [.each .value, .each .options]
  -- 292-298 visitRecord
  | .record => [.each .fields]
  -- 476-485 visitCast
  | .cast => [.each .input, .each .type]
  -- 487-504 visitSubquery
  | .subquery => [.pick [.scalar, .inPredicate, .setPredicate, .setComparison] []]
  -- 22-28 visitSubqueryScalar
  | .subqueryScalar => [.each .input]
  -- 30-36 visitSubqueryInPredicate
  | .subqueryIn => [.each .haystack]
  -- 38-44 visitSubquerySetPredicate
  | .subquerySetPredicate => [.each .tuples]
  -- 46-55 visitSubquerySetComparison
  | .subquerySetComparison => [.each .left, .each .right]
  -- 506-521 visitNested
  | .nested => [.pick [.struct, .list, .map] []]
  -- 57-63 visitNestedStruct
  | .nestedStruct => [.each .fields]
  -- 65-71 visitNestedList
  | .nestedList => [.each .values]
  -- 73-79 visitNestedMap
  | .nestedMap => [.each .keyValues]
  -- 81-90 visitNestedKeyValue
  | .nestedKeyValue => [.each .key, .each .value]
  -- 270-285 visitFunctionArgument
  | .functionArgument => [.pick [.type, .value] [.enum]]
  -- 606-622 visitReferenceSegment
  | .segment => [.pick [.mapKey, .structField, .listElement] []]
  -- 100-109 visitReferenceSegmentMapKey
  | .segmentMapKey => [.each .mapKey, .each .child]
  -- 111-118 visitReferenceSegmentStructField
  | .segmentStructField => [.each .child]
  -- 120-127 visitReferenceSegmentListElement
  | .segmentListElement => [.each .child]
  -- 672-678 visitMaskExpression
  | .mask => [.each .select]
  -- 528-535 visitStructSelect
  | .structSelect => [.each .structItems]
  -- 92-98 visitStructItem
  | .structItem => [.each .child]
  -- 129-144 visitSelect
  | .select => [.pick [.struct, .list, .map] []]
  -- 537-546 visitListSelect
  | .listSelect => [.each .selection_, .each .child]
  -- 554-571 visitMapSelect
  | .mapSelect => [.each .child, .pick [] [.key, .mapExpression]]
  -- 573-579 visitExpressionLiteralStruct
  | .literalStruct => [.each .fields]
  -- 216-222 visitMap
  | .literalMap => [.each .keyValues]
  -- 224-233 visitMapKeyValue
  | .literalKeyValue => [.each .key, .each .value]
  -- 235-241 visitList
  | .literalList => [.each .values]
  -- 262-268 visitUserDefined
  | .literalUserDefined => [.each .typeParameters]
  -- 146-186 visitType
  | .type => [.pick [.struct, .list, .map, .userDefined] [.plain]]
  -- 322-328 visitStruct
  | .typeStruct => [.each .types]
  -- 243-249 visitTypeList
  | .typeList => [.each .type]
  -- 251-260 visitTypeMap
  | .typeMap => [.each .key, .each .value]
  -- 188-194 visitTypeUserDefined
  | .typeUserDefined => [.each .typeParameters]
  -- 196-214 visitTypeParameter
  | .typeParameter => [.pick [.dataType] [.plain]]
  | .leaf => []

/-! ## Walking -/

/-- What a visitor does on its way: before and after the fields of a relation, and after a subquery.
The relation a visitor is in (`currentRelationScope_`) is an argument. -/
structure Hooks (σ : Type) where
  enter : Msg → σ → Outcome σ
  leave : Msg → σ → Outcome σ
  subquery : Option Msg → Option Msg → σ → Outcome σ

abbrev Act (σ : Type) := Option Msg → σ → Outcome σ

/-- One after the other. -/
def inOrder {σ : Type} : List (Act σ) → Act σ
  | [], _, s => .ok s
  | a :: as, c, s => (a c s).bind fun s => inOrder as c s

/-- The acts for one field. -/
def named {σ : Type} (f : Label) (l : List (Label × Act σ)) : List (Act σ) :=
  (l.filter fun x => x.1 = f).map (·.2)

def runStep {σ : Type} (l : List (Label × Act σ)) : Step → Act σ
  | .each f, c, s => inOrder (named f l) c s
  | .must f, c, s => if (named f l).isEmpty then .throw .other else inOrder (named f l) c s
  | .pick visited quiet, c, s =>
    match l.find? fun x => x.1 ∈ visited ∨ x.1 ∈ quiet with
    | some x => if x.1 ∈ visited then x.2 c s else .ok s
    | none => .throw .other

def runSteps {σ : Type} (l : List (Label × Act σ)) : List Step → Act σ
  | [], _, s => .ok s
  | t :: ts, c, s => (runStep l t c s).bind fun s => runSteps l ts c s

/-- The relation of a subquery (InitialPlanProtoVisitor.cpp:166-181, PipelineVisitor.cpp:20-36).  The
default message of a field that is not set is none. -/
def subRelation (q : Msg) : Option Msg :=
  match q.fields.caseOf [.scalar, .inPredicate, .setPredicate, .setComparison] with
  | some (.scalar, m) => m.fields.get .input
  | some (.inPredicate, m) => m.fields.get .haystack
  | some (.setPredicate, m) => m.fields.get .tuples
  | some (.setComparison, m) => m.fields.get .right
  | _ => none

/-- InitialPlanProtoVisitor.cpp:156-196, PipelineVisitor.cpp:12-60: `visitExpression` goes on after
subqueries. -/
def afterFields {σ : Type} (h : Hooks σ) (m : Msg) : Act σ := fun c s =>
  if m.kind = .expression then
    match m.fields.get .subquery with
    | some q => h.subquery c (subRelation q) s
    | none => .ok s
  else .ok s

mutual
/-- `visitX` with the functions a visitor overrides. -/
def visit {σ : Type} (h : Hooks σ) : Msg → Act σ
  | .node k loc fs, c, s =>
    if k = .rel then
      (h.enter (.node k loc fs) s).bind fun s =>
        (runSteps (acts h fs) (steps k) (some (.node k loc fs)) s).bind fun s =>
          h.leave (.node k loc fs) s
    else
      (runSteps (acts h fs) (steps k) c s).bind fun s => afterFields h (.node k loc fs) c s
/-- What is done for each field if it is visited. -/
def acts {σ : Type} (h : Hooks σ) : Fields → List (Label × Act σ)
  | .nil => []
  | .cons l m r => (l, visit h m) :: acts h r
end

/-! ## The first visitor -/

/-- The symbols of relations in the order of their definition, and the parents of subqueries. -/
structure Noted where
  relations : List Nat
  parents : List (Nat × Nat)
  deriving DecidableEq, Repr

/-- InitialPlanProtoVisitor.cpp:156-196, 254-294.  Simplification: other symbols, schemas and
messages on errors are left out; they do not change the way. -/
def first : Hooks Noted where
  enter := fun _ s => .ok s
  leave := fun m s => .ok { s with relations := s.relations ++ [m.loc] }
  subquery := fun c q s =>
    match c, q with
    | some c, some q =>
      if q.loc ∈ s.relations then .ok { s with parents := s.parents ++ [(q.loc, c.loc)] } else .ub
    | _, _ => .ub

/-- InitialPlanProtoVisitor over a message of a plan. -/
def note (m : Msg) : Outcome Noted := visit first m none ⟨[], []⟩

/-! ## The second visitor -/

/-- What is written to the data of a relation: `continuingPipeline`, an element of `newPipelines`, an
element of `subQueryPipelines`; `none` is the null pointer. -/
inductive Link where
  | continuing (to : Option Nat)
  | new (to : Option Nat)
  | sub (to : Nat)
  deriving DecidableEq, Repr

structure Linked where
  relations : List Nat
  links : List (Nat × Link)
  deriving DecidableEq, Repr

/-- `lookupSymbolByLocationAndType` for the message of a field. -/
def look (s : Linked) : Option Msg → Option Nat
  | some m => if m.loc ∈ s.relations then some m.loc else none
  | none => none

/-- PipelineVisitor.cpp:75-211: the links to the inputs, by the case of the relation. -/
def inputLinks (s : Linked) (fs : Fields) : List Link :=
  match fs.caseOf relCases with
  | some (.filterRel, m) | some (.fetch, m) | some (.aggregate, m) | some (.sortRel, m)
  | some (.project, m) | some (.extensionSingle, m) | some (.window, m) | some (.exchange, m)
  | some (.expand, m) | some (.write, m) => [.continuing (look s (m.fields.get .input))]
  | some (.join, m) | some (.cross, m) | some (.hashJoin, m) | some (.mergeJoin, m)
  | some (.nestedLoopJoin, m) =>
    [.new (look s (m.fields.get .left)), .new (look s (m.fields.get .right))]
  | some (.set, m) | some (.extensionMulti, m) =>
    (m.fields.all .inputs).map fun r => .new (look s (some r))
  | _ => []

/-- PipelineVisitor.cpp:12-212.  Simplification: `pipelineStart` is left out; see
Model/Marks.lean. -/
def second : Hooks Linked where
  enter := fun m s =>
    if m.loc ∈ s.relations then
      .ok { s with links := s.links ++ (inputLinks s m.fields).map fun l => (m.loc, l) }
    else .ub
  leave := fun _ s => .ok s
  subquery := fun c q s =>
    match c, look s q with
    | some c, some q => .ok { s with links := s.links ++ [(c.loc, .sub q)] }
    | _, _ => .ub

/-- Both visitors (ParseBinary.cpp:15-29). -/
def noteAndLink (m : Msg) : Outcome (Noted × Linked) :=
  (note m).bind fun n => (visit second m none ⟨n.relations, []⟩).map fun l => (n, l)

end Verif.Trav
