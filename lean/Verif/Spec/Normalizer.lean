import Verif.Model.Normalizer

/-! # Vocabulary for the properties of the reference normaliser -/

namespace Verif.Norm

open Verif

/-- A correct `std::sort`: a permutation in which no element is less than an earlier one. -/
def IsSort {α : Type} (less : α → α → Bool) (sort : List α → List α) : Prop :=
  ∀ l, (sort l).Perm l ∧ (sort l).Pairwise fun a b => less b a = false

structure Sorters.Correct (s : Sorters) : Prop where
  uris : IsSort uriLess s.uris
  decls : IsSort declLess s.decls

mutual
/-- All function references in a message. -/
def Msg.refs : Msg → List Nat
  | .node _ _ r kids => r.toList ++ kids.refs
def Kids.refs : Kids → List Nat
  | .nil => []
  | .cons _ m rest => m.refs ++ rest.refs
end

mutual
/-- Change all function references in a message, and nothing else. -/
def Msg.mapRefs (f : Nat → Nat) : Msg → Msg
  | .node k d r kids => .node k d (r.map f) (kids.mapRefs f)
def Kids.mapRefs (f : Nat → Nat) : Kids → Kids
  | .nil => .nil
  | .cons s m rest => .cons s (m.mapRefs f) (rest.mapRefs f)
end

/-- The places of expressions that are forgotten by the code. -/
def missed : Kind → Slot → Bool
  | .measure, _ => true            -- arguments, sorts and filter of a measure
  | .aggregate, .groupings => true
  | .read, .values => true         -- expressions in a virtual table
  | .windowFunction, _ | .switch, _ | .singularOrList, _ | .multiOrList, _ | .nested, _ => true
  | .selection, _ => true          -- a field of the value of an expression
  | .grouping, _ | .record, _ => true
  | .write, _ | .ddl, _ | .nestedLoopJoin, _ | .window, _ | .exchange, _ | .expand, _ => true
  | _, _ => false

/-- The fields each kind of message has that can hold messages. -/
def fieldsOf : Kind → List Slot
  | .read => [.filter, .bestEffortFilter, .values]
  | .filter => [.input, .condition]
  | .fetch => [.input]
  | .aggregate => [.input, .groupings, .measures]
  | .sort => [.input, .sorts]
  | .join => [.left, .right, .expression, .postJoinFilter]
  | .project => [.input, .expressions]
  | .set | .extensionMulti => [.inputs]
  | .extensionSingle | .write | .ddl | .exchange => [.input]
  | .cross => [.left, .right]
  | .hashJoin | .mergeJoin => [.left, .right, .postJoinFilter]
  | .nestedLoopJoin => [.left, .right, .expression]
  | .window => [.input, .expressions, .partitions, .sorts]
  | .expand => [.input, .fields]
  | .selection => [.root]
  | .scalarFunction => [.arguments]
  | .windowFunction => [.arguments, .partitions, .sorts]
  | .ifThen => [.ifs, .else_]
  | .switch => [.match_, .ifs, .else_]
  | .singularOrList | .multiOrList => [.value, .options]
  | .cast => [.input]
  | .nested | .record => [.fields]
  | .subScalar => [.input]
  | .subInPredicate => [.needles, .haystack]
  | .subSetPredicate => [.tuples]
  | .subSetComparison => [.left, .right]
  | .argument => [.value]
  | .ifClause => [.cond, .then_]
  | .measure => [.arguments, .sorts, .filter]
  | .grouping => [.expressions]
  | .sortField => [.expr]
  | _ => []

mutual
/-- The references in forgotten places: of window functions, comparison functions of sorts, and
below forgotten fields. -/
def Msg.missedRefs : Msg → List Nat
  | .node k _ r kids =>
    (if k = .scalarFunction ∨ k = .measure then [] else r.toList) ++ kids.missedRefs k
def Kids.missedRefs (k : Kind) : Kids → List Nat
  | .nil => []
  | .cons s m rest => (if missed k s then m.refs else m.missedRefs) ++ rest.missedRefs k
end

/-- The fields that a valid message has. -/
def required : Kind → List Slot
  | .cast | .subScalar => [.input]
  | .ifClause => [.cond, .then_]
  | .subInPredicate => [.haystack]
  | .subSetPredicate => [.tuples]
  | .subSetComparison | .join => [.left, .right]
  | .filter | .fetch | .aggregate | .sort | .project => [.input]
  | .sortField => [.expr]
  | _ => []

mutual
/-- The message has the fields of its kind only, and those that are required. -/
def Msg.valid : Msg → Bool
  | .node k _ r kids =>
    (required k).all kids.has && (r.isSome || !(k == .scalarFunction || k == .measure)) && kids.valid k
def Kids.valid (k : Kind) : Kids → Bool
  | .nil => true
  | .cons s m rest => (fieldsOf k).contains s && m.valid && rest.valid k
end

/-- All references of a plan. -/
def Plan.refs (p : Plan) : List Nat := (p.relations.map Msg.refs).flatten

/-- The text of an extension space. -/
def Plan.uriOf (p : Plan) (space : Nat) : Option Str :=
  (p.uris.find? fun u => u.anchor == space).map (·.uri)

/-- The function a reference stands for: the text of its space and its name. -/
def Plan.resolve (p : Plan) (r : Nat) : Option (Option Str × Str) :=
  p.decls.findSome? fun d =>
    match d with
    | .function space anchor name => if anchor = r then some (p.uriOf space, name) else none
    | .other _ => none

def Decl.isFunction : Decl → Bool
  | .function .. => true
  | .other _ => false

def Decl.space : Decl → Nat
  | .function space _ _ => space
  | .other _ => 0

/-- A valid plan: anchors are unique, only functions are declared, every function is in a
declared space or in none, every reference is declared. -/
structure Plan.Valid (p : Plan) : Prop where
  spaces : (p.uris.map (·.anchor)).Nodup
  anchors : (p.decls.map (·.anchor)).Nodup
  functions : ∀ d ∈ p.decls, d.isFunction = true
  declared : ∀ d ∈ p.decls, d.space = 0 ∧ 0 ∉ p.uris.map (·.anchor) ∨ d.space ∈ p.uris.map (·.anchor)
  references : ∀ r ∈ p.refs, r ∈ p.decls.map (·.anchor)
  messages : ∀ m ∈ p.relations, m.valid = true

/-- No reference is in a forgotten place. -/
def Plan.Covered (p : Plan) : Prop := ∀ m ∈ p.relations, m.missedRefs = []

/-- No space and no function is declared twice. -/
structure Plan.Distinct (p : Plan) : Prop where
  uris : (p.uris.map (·.uri)).Nodup
  functions : (p.decls.map fun d => (d.space, d.key.2.2)).Nodup

/-- Rename the numbers of spaces and functions. -/
def Plan.rename (α φ : Nat → Nat) (p : Plan) : Plan :=
  { uris := p.uris.map fun u => ⟨α u.anchor, u.uri⟩
    decls := p.decls.map fun d =>
      match d with
      | .function s a n => .function (α s) (φ a) n
      | .other d => .other d
    relations := p.relations.map (Msg.mapRefs φ) }

/-- The plans have the same relations and the same declarations in another order. -/
structure Plan.Reordered (p q : Plan) : Prop where
  uris : p.uris.Perm q.uris
  decls : p.decls.Perm q.decls
  relations : p.relations = q.relations

end Verif.Norm
