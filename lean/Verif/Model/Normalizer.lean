import Verif.Model.Basic

/-!
Model of `src/substrait/textplan/converter/ReferenceNormalizer.cpp`.

The protobuf messages below a plan are a tree of nodes.  A node has the kind of the message
(for `Rel` and `Expression` the member of the oneof that is set), its function reference if it
has such a field, everything else that holds no message of interest as one opaque number, and
the sub-messages with the names of the fields they are in, repeated fields in order.
-/

namespace Verif.Norm

open Verif

/-- The messages of algebra.proto that are or contain expressions and relations. -/
inductive Kind where
  -- Rel
  | read | filter | fetch | aggregate | sort | join | project | set
  | extensionSingle | extensionMulti | extensionLeaf | cross | reference | write | ddl
  | hashJoin | mergeJoin | nestedLoopJoin | window | exchange | expand | relNotSet
  -- Expression
  | literal | selection | scalarFunction | windowFunction | ifThen | switch
  | singularOrList | multiOrList | cast | nested | exprNotSet
  | subScalar | subInPredicate | subSetPredicate | subSetComparison | subNotSet
  -- others
  | argument | ifClause | measure | grouping | sortField | record
  deriving DecidableEq, Repr

/-- The fields that hold such messages. -/
inductive Slot where
  | input | inputs | left | right | filter | bestEffortFilter | values | condition
  | measures | groupings | sorts | expr | expression | postJoinFilter | expressions
  | arguments | value | ifs | cond | then_ | else_ | needles | haystack | tuples
  | root | partitions | match_ | options | fields
  deriving DecidableEq, Repr

mutual
/-- A message. -/
inductive Msg where
  | node (kind : Kind) (data : Nat) (ref : Option Nat) (kids : Kids)
/-- The sub-messages of a message. -/
inductive Kids where
  | nil
  | cons (slot : Slot) (m : Msg) (rest : Kids)
end

deriving instance DecidableEq for Msg, Kids
deriving instance Repr for Msg, Kids

/-- An empty message, as `mutable_x()` makes it. -/
def Slot.empty : Slot → Msg
  | .input | .left | .right | .haystack | .tuples => .node .relNotSet 0 none .nil
  | _ => .node .exprNotSet 0 none .nil

/-- The sub-messages the code goes into.  ReferenceNormalizer.cpp:41-48 (argument), 57-117
(expressions), 119-240 (relations).  Kinds that are not listed have no branch in the code. -/
def visits : Kind → Slot → Bool
  | .argument, .value => true
  | .scalarFunction, .arguments => true
  | .cast, .input => true
  | .ifThen, .ifs => true
  | .ifThen, .else_ => true
  | .ifClause, .cond => true
  | .ifClause, .then_ => true
  | .subScalar, .input => true
  | .subInPredicate, .needles => true
  | .subInPredicate, .haystack => true
  | .subSetPredicate, .tuples => true
  | .subSetComparison, .left => true
  | .subSetComparison, .right => true
  | .read, .filter => true
  | .read, .bestEffortFilter => true
  | .filter, .input => true
  | .filter, .condition => true
  | .fetch, .input => true
  | .aggregate, .input => true
  | .aggregate, .measures => true
  | .sort, .input => true
  | .sort, .sorts => true
  | .sortField, .expr => true
  | .join, .expression => true
  | .join, .postJoinFilter => true
  | .join, .left => true
  | .join, .right => true
  | .project, .input => true
  | .project, .expressions => true
  | .set, .inputs => true
  | .extensionSingle, .input => true
  | .extensionMulti, .inputs => true
  | .cross, .left => true
  | .cross, .right => true
  | .hashJoin, .left => true
  | .hashJoin, .right => true
  | .hashJoin, .postJoinFilter => true
  | .mergeJoin, .left => true
  | .mergeJoin, .right => true
  | .mergeJoin, .postJoinFilter => true
  | _, _ => false

/-- The sub-messages taken with `mutable_x()` without asking `has_x()` first: an absent one is
created.  The same lines. -/
def creates : Kind → List Slot
  | .cast => [.input]
  | .ifClause => [.cond, .then_]
  | .subScalar => [.input]
  | .subInPredicate => [.haystack]
  | .subSetPredicate => [.tuples]
  | .subSetComparison => [.left, .right]
  | .filter | .fetch | .aggregate | .sort | .project => [.input]
  | .sortField => [.expr]
  | .join => [.left, .right]
  | _ => []

/-- Is the field set? -/
def Kids.has (s : Slot) : Kids → Bool
  | .nil => false
  | .cons s' _ rest => s' == s || rest.has s

/-- Append a sub-message. -/
def Kids.snoc (s : Slot) (m : Msg) : Kids → Kids
  | .nil => .cons s m .nil
  | .cons s' m' rest => .cons s' m' (rest.snoc s m)

/-- Create the absent sub-messages. -/
def addMissing : List Slot → Kids → Kids
  | [], kids => kids
  | s :: ss, kids => addMissing ss (if kids.has s then kids else kids.snoc s s.empty)

/-- `functionReferenceMapping.at`. -/
def mapAt (m : Nat → Option Nat) (r : Nat) : Outcome Nat :=
  match m r with
  | some r' => .ok r'
  | none => .throw .outOfRange

/-- ReferenceNormalizer.cpp:50-55 and 60-63: the reference of a scalar function or of the
function of a measure; an unset field is 0. -/
def normRef (m : Nat → Option Nat) (k : Kind) (r : Option Nat) : Outcome (Option Nat) :=
  match k with
  | .scalarFunction => (mapAt m (r.getD 0)).map some
  | .measure => (mapAt m (r.getD 0)).map some
  | _ => .ok r

mutual
/-- ReferenceNormalizer.cpp:41-240: `normalizeFunctionsForArgument`, `...ForMeasure`,
`...ForExpression`, `...ForRelation` on one message.  Simplification: the fields are visited in
the order of the tree; the order has no effect, as the only failure is the one exception. -/
def norm (m : Nat → Option Nat) : Msg → Outcome Msg
  | .node k d r kids =>
    (normRef m k r).bind fun r' => (normKids m k kids).bind fun kids' =>
      .ok (.node k d r' (addMissing (creates k) kids'))
def normKids (m : Nat → Option Nat) (k : Kind) : Kids → Outcome Kids
  | .nil => .ok .nil
  | .cons s c rest =>
    (if visits k s then norm m c else .ok c).bind fun c' =>
      (normKids m k rest).bind fun rest' => .ok (.cons s c' rest')
end

/-- `SimpleExtensionURI`. -/
structure Uri where
  anchor : Nat
  uri : Str
  deriving DecidableEq, Repr

/-- `SimpleExtensionDeclaration`: a function, or a type or type variation, which the code does
not look at. -/
inductive Decl where
  | function (space anchor : Nat) (name : Str)
  | other (data : Nat)
  deriving DecidableEq, Repr

/-- `Plan`: the declarations and the relations.  A `PlanRel` without relation is left out; one
with a root is its input. -/
structure Plan where
  uris : List Uri
  decls : List Decl
  relations : List Msg
  deriving DecidableEq, Repr

/-- A `std::map` filled by assignments: the last one for a key counts. -/
def lookupLast (pairs : List (Nat × Nat)) (k : Nat) : Option Nat :=
  (pairs.reverse.find? fun e => e.1 == k).map (·.2)

/-- `a.uri() < b.uri()`, ReferenceNormalizer.cpp:272-275. -/
def uriLess (a b : Uri) : Bool := decide (a.uri < b.uri)

/-- ReferenceNormalizer.cpp:18-26: the sort key; an unset message gives 0 and "". -/
def Decl.key : Decl → Bool × Nat × Str
  | .function space _ name => (false, space, name)
  | .other _ => (true, 0, [])

/-- ReferenceNormalizer.cpp:14-30: lexicographic comparison of the keys. -/
def declLess (a b : Decl) : Bool :=
  let x := a.key
  let y := b.key
  if x.1 != y.1 then !x.1 && y.1
  else if x.2.1 != y.2.1 then decide (x.2.1 < y.2.1)
  else decide (x.2.2 < y.2.2)

/-- `std::sort` is a parameter: it may order equivalent elements in any way. -/
structure Sorters where
  uris : List Uri → List Uri
  decls : List Decl → List Decl

/-- ReferenceNormalizer.cpp:278-283: the new numbers, in order. -/
def spaceMapping (uris : List Uri) : Nat → Option Nat :=
  lookupLast (uris.zipIdx.map fun e => (e.1.anchor, e.2 + 1))

/-- ReferenceNormalizer.cpp:286-295. -/
def renumberSpace (m : Nat → Option Nat) : Decl → Decl
  | .function space anchor name => .function ((m space).getD space) anchor name
  | .other d => .other d

/-- ReferenceNormalizer.cpp:264-296. -/
def normalizeSpaces (s : Sorters) (p : Plan) : Plan :=
  let sorted := s.uris p.uris
  { p with
    uris := sorted.zipIdx.map fun e => ⟨e.2 + 1, e.1.uri⟩
    decls := p.decls.map (renumberSpace (spaceMapping sorted)) }

/-- `extension_function().function_anchor()`; 0 for other declarations. -/
def Decl.anchor : Decl → Nat
  | .function _ anchor _ => anchor
  | .other _ => 0

/-- `mutable_extension_function()->set_function_anchor(n)`: any other declaration is replaced by
a function without name. -/
def Decl.setAnchor (n : Nat) : Decl → Decl
  | .function space _ name => .function space n name
  | .other _ => .function 0 n []

/-- ReferenceNormalizer.cpp:308-315. -/
def functionMapping (decls : List Decl) : Nat → Option Nat :=
  lookupLast (decls.zipIdx.map fun e => (e.1.anchor, e.2))

/-- ReferenceNormalizer.cpp:298-321. -/
def normalizeFunctions (s : Sorters) (p : Plan) : Outcome Plan :=
  let sorted := s.decls p.decls
  (Outcome.mapM (norm (functionMapping sorted)) p.relations).map fun rels =>
    { p with decls := sorted.zipIdx.map fun e => e.1.setAnchor e.2, relations := rels }

/-- ReferenceNormalizer.cpp:323-326. -/
def normalize (s : Sorters) (p : Plan) : Outcome Plan := normalizeFunctions s (normalizeSpaces s p)

end Verif.Norm
