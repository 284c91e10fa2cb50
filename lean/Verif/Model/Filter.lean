import Verif.Model.Lexer

/-!
Model of the filters of relations in text plans:
src/substrait/textplan/parser/SubstraitPlanRelationVisitor.cpp:460-583 (the copy in
SubstraitPlanSubqueryRelationVisitor.cpp:520-643 differs only in the text of one message).
-/

namespace Verif.Filter

open Verif

/-- SymbolTable.h:36-62 `RelationType`. -/
inductive RelationType where
  | unknown | read | project | join | cross | fetch | aggregate | sort | filter | set
  | hashJoin | mergeJoin | exchange | ddl | write
  | extensionLeaf | extensionSingle | extensionMulti
  deriving DecidableEq, Repr

/-- SubstraitPlanRelationVisitor.cpp `RelationFilterBehavior`. -/
inductive Behavior where
  | default | bestEffort | postJoin
  deriving DecidableEq, Repr

/-- The errors reported. -/
inductive FilterErr where
  /-- "Best effort and post join are the only two legal filter behavior choices. ..." -/
  | behavior
  /-- "A filter has already been specified ...", one for each kind of filter. -/
  | twice
  /-- The filter is not legal for this relation. -/
  | illegal
  /-- "Could not parse as an expression (pass 1, spot 1)." -/
  | notExpression
  deriving DecidableEq, Repr

/-- `std::isalnum` in the "C" locale. -/
def isAlnum (c : Char) : Bool := Lex.isLetter c || isDigit c

/-- SubstraitPlanRelationVisitor.cpp:460-481 `visitRelation_filter_behavior` on the text of the
words: the behaviour and the errors. -/
def readBehavior (text : Str) : Behavior × List FilterErr :=
  let t := (text.map toLower).filter isAlnum
  if t = "besteffort".toList then (.bestEffort, [])
  else if t = "postjoin".toList then (.postJoin, [])
  else (.default, [.behavior])

/-- The four fields of the protobuf relations that hold filters. -/
structure Filters (E : Type) where
  /-- `ReadRel.filter` -/
  filter : Option E := none
  /-- `ReadRel.best_effort_filter` -/
  bestEffort : Option E := none
  /-- `JoinRel.post_join_filter` -/
  postJoin : Option E := none
  /-- `FilterRel.condition` -/
  condition : Option E := none
  deriving DecidableEq, Repr

/-- A filter in the text: the text of the words before `filter`, and the value the visitor
returned for the expression (`none` if it is not an expression).  The errors of the expression
itself are not part of the model. -/
structure Clause (E : Type) where
  words : Option Str
  value : Option E
  deriving DecidableEq, Repr

/-- The relation after a clause, the errors, and whether `ANY_CAST` threw. -/
structure Result (E : Type) where
  filters : Filters E
  errs : List FilterErr
  threw : Bool := false
  deriving DecidableEq, Repr

/-- The behaviour of a clause and the errors reported for its words: they are visited a second
time by `visitChildren` (line 496). -/
def Clause.behavior {E : Type} (c : Clause E) : Behavior × List FilterErr :=
  match c.words with
  | none => (.default, [])
  | some w => ((readBehavior w).1, (readBehavior w).2 ++ (readBehavior w).2)

/-- Assign a field that may be set only once. -/
def assign {E : Type} (old : Option E) (value : Option E) (s : Filters E) (errs : List FilterErr)
    (set : E → Filters E) : Result E :=
  match old, value with
  | some _, _ => ⟨s, errs ++ [.twice], false⟩
  | none, some e => ⟨set e, errs, false⟩
  | none, none => ⟨s, errs, true⟩

/-- SubstraitPlanRelationVisitor.cpp:483-583 `visitRelationFilter`. -/
def visitFilter {E : Type} (k : RelationType) (s : Filters E) (c : Clause E) : Result E :=
  let b := c.behavior
  match k with
  | .read =>
    match b.1 with
    | .default => assign s.filter c.value s b.2 fun e => { s with filter := some e }
    | .bestEffort => assign s.bestEffort c.value s b.2 fun e => { s with bestEffort := some e }
    | .postJoin => ⟨s, b.2 ++ [.illegal], false⟩
  | .join =>
    if b.1 = .postJoin then
      assign s.postJoin c.value s b.2 fun e => { s with postJoin := some e }
    else ⟨s, b.2 ++ [.illegal], false⟩
  | .filter =>
    if b.1 = .default then
      match s.condition, c.value with
      | some _, _ => ⟨s, b.2 ++ [.twice], false⟩
      | none, some e => ⟨{ s with condition := some e }, b.2, false⟩
      | none, none => ⟨s, b.2 ++ [.notExpression], false⟩
    else ⟨s, b.2 ++ [.illegal], false⟩
  | _ => ⟨s, b.2 ++ [.illegal], false⟩

/-- The filters of a relation in order (SubstraitPlanRelationVisitor.cpp:368-373): the relation
and the errors of each clause.  An exception ends the visit. -/
def visitFilters {E : Type} (k : RelationType) (s : Filters E) :
    List (Clause E) → Filters E × List (List FilterErr) × Bool
  | [] => (s, [], false)
  | c :: cs =>
    let r := visitFilter k s c
    if r.threw then (r.filters, [r.errs], true)
    else
      let rest := visitFilters k r.filters cs
      (rest.1, r.errs :: rest.2.1, rest.2.2)

end Verif.Filter
