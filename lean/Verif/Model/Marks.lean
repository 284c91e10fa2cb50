import Verif.Model.Traverse

/-!
# The marks on the pipeline of a subquery

After a subquery the second visitor follows the links it has made and writes the start of the
pipeline into every relation on the way
(src/substrait/textplan/converter/PipelineVisitor.cpp:47-57).
-/

namespace Verif.Trav

open Verif

/-- What is written to `continuingPipeline` of the relation `a`. -/
def written (a : Nat) : Nat × Link → Option (Option Nat)
  | (c, .continuing t) => if c = a then some t else none
  | _ => none

/-- The member `continuingPipeline`: what was written last, the null pointer at first
(StructuredSymbolData.h:21-24). -/
def continuing (l : List (Nat × Link)) (a : Nat) : Option Nat :=
  (l.filterMap (written a)).getLast?.join

/-- PipelineVisitor.cpp:47-57: the relations whose `pipelineStart` is written, in order; `none` if the
loop has not ended after so many rounds.  Simplification: the loop runs over the links of the whole
plan; those of the relations inside the subquery have all been made when it runs, and are not written
again. -/
def marked (l : List (Nat × Link)) : Nat → Nat → Option (List Nat)
  | 0, _ => none
  | rounds + 1, a =>
    match continuing l a with
    | none => some [a]
    | some b => (marked l rounds b).map (a :: ·)

/-- The relation of a subquery that a link leads to. -/
def subOf : Nat × Link → Option Nat
  | (_, .sub q) => some q
  | _ => none

/-- The member `pipelineStart` of the relation `a`, after all subqueries: what was written last. -/
def startOf (l : Linked) (a : Nat) : Option Nat :=
  ((l.links.filterMap subOf).filter fun q =>
    a ∈ (marked l.links l.relations.length q).getD []).getLast?

/-- The member `parentQueryLocation` of the symbol of the relation `a`
(InitialPlanProtoVisitor.cpp:193-196): what was written last, the unknown location at first. -/
def ownParent (n : Noted) (a : Nat) : Option Nat :=
  ((n.parents.filter fun p => p.1 = a).getLast?).map (·.2)

/-- PlanPrinterVisitor.cpp:121-134 `getParentQueryLocation`: the relation in which references one step
out of the relation `a` are looked up. -/
def queryParent (n : Noted) (l : Linked) (a : Nat) : Option Nat :=
  match ownParent n a with
  | some c => some c
  | none => (startOf l a).bind (ownParent n)

end Verif.Trav
