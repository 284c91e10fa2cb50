import Verif.Model.Traverse

/-!
# What a way through a binary plan should find

The messages of algebra.proto, and what a plan says about its relations, without the order of the
visitors.
-/

namespace Verif.Trav

open Verif

/-- The fields of the messages and what they hold (algebra.proto, plan.proto).  External. -/
def allowed : Kind → List (Label × Kind)
  | .plan => [(.relations, .planRel)]
  | .planRel => [(.rel, .rel), (.root, .relRoot)]
  | .relRoot => [(.input, .rel)]
  | .rel => [(.read, .readRel), (.filterRel, .filterRel), (.fetch, .fetchRel),
      (.aggregate, .aggregateRel), (.sortRel, .sortRel), (.join, .joinRel), (.project, .projectRel),
      (.set, .setRel), (.extensionSingle, .extensionSingleRel), (.extensionMulti, .extensionMultiRel),
      (.extensionLeaf, .extensionLeafRel), (.cross, .crossRel), (.reference, .referenceRel),
      (.write, .writeRel), (.ddl, .ddlRel), (.hashJoin, .hashJoinRel), (.mergeJoin, .mergeJoinRel),
      (.nestedLoopJoin, .nestedLoopJoinRel), (.window, .windowRel), (.exchange, .exchangeRel),
      (.expand, .expandRel)]
  | .readRel => [(.baseSchema, .namedStruct), (.filter, .expression), (.bestEffortFilter, .expression),
      (.projection, .mask), (.virtualTable, .virtualTable), (.localFiles, .leaf), (.namedTable, .leaf),
      (.extensionTable, .leaf)]
  | .filterRel => [(.condition, .expression), (.input, .rel)]
  | .fetchRel => [(.input, .rel)]
  | .aggregateRel => [(.groupings, .grouping), (.measures, .measure), (.input, .rel)]
  | .sortRel => [(.sorts, .sortField), (.input, .rel)]
  | .joinRel => [(.left, .rel), (.right, .rel), (.expression, .expression),
      (.postJoinFilter, .expression)]
  | .projectRel => [(.input, .rel), (.expressions, .expression)]
  | .setRel => [(.inputs, .rel)]
  | .extensionSingleRel => [(.input, .rel)]
  | .extensionMultiRel => [(.inputs, .rel)]
  | .extensionLeafRel => []
  | .crossRel => [(.left, .rel), (.right, .rel)]
  | .referenceRel => []
  | .writeRel => [(.tableSchema, .namedStruct), (.input, .rel)]
  | .ddlRel => [(.tableSchema, .namedStruct), (.tableDefaults, .literalStruct), (.viewDefinition, .rel)]
  | .hashJoinRel | .mergeJoinRel => [(.left, .rel), (.right, .rel), (.leftKeys, .fieldReference),
      (.rightKeys, .fieldReference), (.postJoinFilter, .expression)]
  | .nestedLoopJoinRel => [(.left, .rel), (.right, .rel), (.expression, .expression)]
  | .windowRel => [(.input, .rel), (.windowFunctions, .windowRelFunction),
      (.partitionExpressions, .expression), (.sorts, .sortField)]
  | .exchangeRel => [(.input, .rel), (.scatterByFields, .scatterFields),
      (.singleTarget, .bucketExpression), (.multiTarget, .bucketExpression)]
  | .expandRel => [(.input, .rel), (.fields, .expandField)]
  | .namedStruct => [(.struct, .typeStruct)]
  | .virtualTable => [(.values, .literalStruct)]
  | .grouping => [(.groupingExpressions, .expression)]
  | .measure => [(.measure, .aggregateFunction), (.filter, .expression)]
  | .aggregateFunction => [(.arguments, .functionArgument), (.outputType, .type), (.sorts, .sortField),
      (.args, .expression)]
  | .sortField => [(.expr, .expression)]
  | .windowRelFunction => [(.arguments, .functionArgument), (.outputType, .type)]
  | .expandField => [(.switchingField, .switchingField), (.consistentField, .expression)]
  | .switchingField => [(.duplicates, .expression)]
  | .scatterFields => [(.fields, .fieldReference)]
  | .bucketExpression => [(.expression, .expression)]
  | .expression => [(.literal, .literal), (.selection, .fieldReference),
      (.scalarFunction, .scalarFunction), (.windowFunction, .windowFunction), (.ifThen, .ifThen),
      (.switchExpression, .switchExpression), (.singularOrList, .singularOrList),
      (.multiOrList, .multiOrList), (.cast, .cast), (.subquery, .subquery), (.nested, .nested),
      (.enum, .leaf)]
  | .literal => [(.plain, .leaf), (.struct, .literalStruct), (.map, .literalMap), (.null, .type),
      (.list, .literalList), (.emptyList, .typeList), (.emptyMap, .typeMap),
      (.userDefined, .literalUserDefined)]
  | .fieldReference => [(.directReference, .segment), (.maskedReference, .mask),
      (.expression, .expression)]
  | .scalarFunction => [(.arguments, .functionArgument), (.outputType, .type), (.args, .expression)]
  | .windowFunction => [(.arguments, .functionArgument), (.outputType, .type), (.sorts, .sortField),
      (.partitions, .expression), (.args, .expression)]
  | .ifThen => [(.ifs, .ifClause), (.else_, .expression)]
  | .ifClause => [(.if_, .expression), (.then_, .expression)]
  | .switchExpression => [(.matched, .expression), (.ifs, .ifValue), (.else_, .expression)]
  | .ifValue => [(.if_, .literal), (.then_, .expression)]
  | .singularOrList => [(.value, .expression), (.options, .expression)]
  | .multiOrList => [(.value, .expression), (.options, .record)]
  | .record => [(.fields, .expression)]
  | .cast => [(.input, .expression), (.type, .type)]
  | .subquery => [(.scalar, .subqueryScalar), (.inPredicate, .subqueryIn),
      (.setPredicate, .subquerySetPredicate), (.setComparison, .subquerySetComparison)]
  | .subqueryScalar => [(.input, .rel)]
  | .subqueryIn => [(.needles, .expression), (.haystack, .rel)]
  | .subquerySetPredicate => [(.tuples, .rel)]
  | .subquerySetComparison => [(.left, .expression), (.right, .rel)]
  | .nested => [(.struct, .nestedStruct), (.list, .nestedList), (.map, .nestedMap)]
  | .nestedStruct => [(.fields, .expression)]
  | .nestedList => [(.values, .expression)]
  | .nestedMap => [(.keyValues, .nestedKeyValue)]
  | .nestedKeyValue => [(.key, .expression), (.value, .expression)]
  | .functionArgument => [(.enum, .leaf), (.type, .type), (.value, .expression)]
  | .segment => [(.mapKey, .segmentMapKey), (.structField, .segmentStructField),
      (.listElement, .segmentListElement)]
  | .segmentMapKey => [(.mapKey, .literal), (.child, .segment)]
  | .segmentStructField => [(.child, .segment)]
  | .segmentListElement => [(.child, .segment)]
  | .mask => [(.select, .structSelect)]
  | .structSelect => [(.structItems, .structItem)]
  | .structItem => [(.child, .select)]
  | .select => [(.struct, .structSelect), (.list, .listSelect), (.map, .mapSelect)]
  | .listSelect => [(.selection_, .leaf), (.child, .select)]
  | .mapSelect => [(.child, .select), (.key, .leaf), (.mapExpression, .leaf)]
  | .literalStruct => [(.fields, .literal)]
  | .literalMap => [(.keyValues, .literalKeyValue)]
  | .literalKeyValue => [(.key, .literal), (.value, .literal)]
  | .literalList => [(.values, .literal)]
  | .literalUserDefined => [(.typeParameters, .typeParameter)]
  | .type => [(.plain, .leaf), (.struct, .typeStruct), (.list, .typeList), (.map, .typeMap),
      (.userDefined, .typeUserDefined), (.userDefinedReference, .leaf)]
  | .typeStruct => [(.types, .type)]
  | .typeList => [(.type, .type)]
  | .typeMap => [(.key, .type), (.value, .type)]
  | .typeUserDefined => [(.typeParameters, .typeParameter)]
  | .typeParameter => [(.plain, .leaf), (.dataType, .type)]
  | .leaf => []

/-- The fields of which at most one is set. -/
def oneof (k : Kind) : List Label :=
  match k with
  | .readRel => [.virtualTable, .localFiles, .namedTable, .extensionTable]
  | .planRel | .rel | .expression | .literal | .subquery | .nested | .functionArgument | .segment
  | .select | .type | .typeParameter => (allowed k).map (·.1)
  | .mapSelect => [.key, .mapExpression]
  | .exchangeRel => [.scatterByFields, .singleTarget, .multiTarget]
  | .expandField => [.switchingField, .consistentField]
  | .fieldReference => [.directReference, .maskedReference]
  | _ => []

/-- The fields without which a message says nothing: one of them is set. -/
def needed (k : Kind) : List Label :=
  match k with
  | .planRel | .rel | .expression | .literal | .subquery | .nested | .functionArgument | .segment
  | .select | .typeParameter | .readRel | .mapSelect => oneof k
  | .type => [.plain, .struct, .list, .map, .userDefined]
  | .relRoot => [.input]
  | _ => []

/-- Fields that may hold a relation and are not visited. -/
def missed : List (Kind × Label) :=
  [(.subqueryIn, .needles), (.windowFunction, .args), (.exchangeRel, .scatterByFields),
    (.exchangeRel, .singleTarget), (.exchangeRel, .multiTarget), (.scatterFields, .fields),
    (.bucketExpression, .expression)]

def Fields.toList : Fields → List (Label × Msg)
  | .nil => []
  | .cons l m r => (l, m) :: r.toList

mutual
/-- The messages follow algebra.proto. -/
def Conforms : Msg → Prop
  | .node k _ fs =>
    (fs.toList.filter fun x => x.1 ∈ oneof k).length ≤ 1 ∧ ConformsF k fs
def ConformsF (k : Kind) : Fields → Prop
  | .nil => True
  | .cons l m r => (l, m.kind) ∈ allowed k ∧ Conforms m ∧ ConformsF k r
end

mutual
/-- All relations in a message, however deep. -/
def relationsIn : Msg → List Nat
  | .node k loc fs => relationsF fs ++ if k = .rel then [loc] else []
def relationsF : Fields → List Nat
  | .nil => []
  | .cons _ m r => relationsIn m ++ relationsF r
end

mutual
/-- All relations that are not below a missed field. -/
def shownIn : Msg → List Nat
  | .node k loc fs => shownF k fs ++ if k = .rel then [loc] else []
def shownF (k : Kind) : Fields → List Nat
  | .nil => []
  | .cons l m r => (if (k, l) ∈ missed then [] else shownIn m) ++ shownF k r
end

mutual
/-- No missed field holds a relation. -/
def Shown : Msg → Prop
  | .node k _ fs => ShownF k fs
def ShownF (k : Kind) : Fields → Prop
  | .nil => True
  | .cons l m r => ((k, l) ∈ missed → relationsIn m = []) ∧ Shown m ∧ ShownF k r
end

/-- The relation directly in the message of the case of a subquery. -/
def relationOf (q : Msg) : Option Msg :=
  ((q.fields.toList.flatMap fun x => x.2.fields.toList).find? fun y => y.2.kind = .rel).map (·.2)

/-- If an expression is a subquery, it has a relation. -/
def HasRelation (m : Msg) : Prop :=
  m.kind = .expression → ∀ q, m.fields.get .subquery = some q → (relationOf q).isSome

mutual
/-- Every message outside of missed fields says something, and every subquery has a relation. -/
def Complete : Msg → Prop
  | .node k loc fs => (needed k = [] ∨ ∃ x ∈ fs.toList, x.1 ∈ needed k) ∧
      HasRelation (.node k loc fs) ∧ CompleteF k fs
def CompleteF (k : Kind) : Fields → Prop
  | .nil => True
  | .cons l m r => ((k, l) ∉ missed → Complete m) ∧ CompleteF k r
end

mutual
/-- Every subquery outside of missed fields has a relation. -/
def Answered : Msg → Prop
  | .node k loc fs => HasRelation (.node k loc fs) ∧ AnsweredF k fs
def AnsweredF (k : Kind) : Fields → Prop
  | .nil => True
  | .cons l m r => ((k, l) ∉ missed → Answered m) ∧ AnsweredF k r
end

/-- The relation of the subquery an expression is, and the relation it is used in. -/
def parentOf (scope : Option Nat) (m : Msg) : List (Nat × Nat) :=
  if m.kind = .expression then
    match m.fields.get .subquery, scope with
    | some q, some c => (relationOf q).toList.map fun r => (r.loc, c)
    | _, _ => []
  else []

mutual
/-- The relations of subqueries, each with the innermost relation around it. -/
def parentsIn (scope : Option Nat) : Msg → List (Nat × Nat)
  | .node k loc fs =>
    parentsF (if k = .rel then some loc else scope) k fs ++ parentOf scope (.node k loc fs)
def parentsF (scope : Option Nat) (k : Kind) : Fields → List (Nat × Nat)
  | .nil => []
  | .cons l m r => (if (k, l) ∈ missed then [] else parentsIn scope m) ++ parentsF scope k r
end

/-- A message in a message, not below a missed field. -/
inductive Within (r : Msg) : Msg → Prop
  | here : Within r r
  | field {k : Kind} {loc : Nat} {fs : Fields} {x : Label × Msg} (h : x ∈ fs.toList)
      (hm : (k, x.1) ∉ missed) (hw : Within r x.2) : Within r (.node k loc fs)

/-- Right before every relation stand exactly the relations inside it. -/
def Ordered (l : List Nat) (m : Msg) : Prop :=
  ∀ r, Within r m → r.kind = .rel → ∃ a i b, l = a ++ i ++ r.loc :: b ∧ (i ++ [r.loc]).Perm (shownIn r)

/-- The links of a relation to its inputs. -/
def linksOf (fs : Fields) : List Link :=
  match fs.caseOf relCases with
  | some (.filterRel, m) | some (.fetch, m) | some (.aggregate, m) | some (.sortRel, m)
  | some (.project, m) | some (.extensionSingle, m) | some (.window, m) | some (.exchange, m)
  | some (.expand, m) | some (.write, m) => [.continuing ((m.fields.get .input).map Msg.loc)]
  | some (.join, m) | some (.cross, m) | some (.hashJoin, m) | some (.mergeJoin, m)
  | some (.nestedLoopJoin, m) =>
    [.new ((m.fields.get .left).map Msg.loc), .new ((m.fields.get .right).map Msg.loc)]
  | some (.set, m) | some (.extensionMulti, m) =>
    (m.fields.all .inputs).map fun r => .new (some r.loc)
  | _ => []

mutual
/-- The links of all relations to their inputs and subqueries. -/
def linksIn (scope : Option Nat) : Msg → List (Nat × Link)
  | .node k loc fs =>
    (if k = .rel then (linksOf fs).map fun l => (loc, l) else []) ++
      linksF (if k = .rel then some loc else scope) k fs ++
        (parentOf scope (.node k loc fs)).map fun p => (p.2, .sub p.1)
def linksF (scope : Option Nat) (k : Kind) : Fields → List (Nat × Link)
  | .nil => []
  | .cons l m r => (if (k, l) ∈ missed then [] else linksIn scope m) ++ linksF scope k r
end

/-- A link to a subquery, as a parent. -/
def asParent : Nat × Link → Option (Nat × Nat)
  | (c, .sub q) => some (q, c)
  | _ => none

/-- The links to subqueries, in order. -/
def subqueryLinks (l : List (Nat × Link)) : List (Nat × Nat) := l.filterMap asParent

/-- The links of every relation to its inputs stand together, in the order of the inputs. -/
def Inputs (l : List (Nat × Link)) (m : Msg) : Prop :=
  ∀ r, Within r m → r.kind = .rel → ∃ a b, l = a ++ (linksOf r.fields).map (fun x => (r.loc, x)) ++ b

end Verif.Trav
