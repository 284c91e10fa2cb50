import Verif.Model.Traverse

/-!
# The members a visitor of a binary plan keeps its place in

`InitialPlanProtoVisitor` and `PipelineVisitor` remember the relation they are in in a member,
`currentRelationScope_`, and the first one also the relations around a subquery, in
`outerRelations_`.  Both members are changed on the way in and reset by a `FinalAction`
(src/substrait/textplan/Finally.h) on the way out, also if the way out is an exception.
Model/Traverse.lean has the relation as an argument instead; here it is a member.
-/

namespace Verif.Scope

open Verif Verif.Trav

/-- The members (InitialPlanProtoVisitor.h:98-99, PipelineVisitor.h:32); `data` is everything else.
The last element of `outer` is the first of the list. -/
structure Visitor (σ : Type) where
  scope : Option Msg
  outer : List (Option Msg)
  data : σ

/-- How a function ended, and the visitor after it; also an exception leaves a visitor behind. -/
abbrev Run (σ : Type) := Outcome Unit × Visitor σ

abbrev Fn (σ : Type) := Visitor σ → Run σ

/-- The next statement is reached after a normal return only. -/
def Run.next {σ : Type} (r : Run σ) (f : Fn σ) : Run σ :=
  match r.1 with
  | .ok _ => f r.2
  | .throw e => (.throw e, r.2)
  | .ub => (.ub, r.2)

/-- Finally.h:7-22: the destructor of the `FinalAction` runs after a normal return and after an
exception. -/
def Run.finally {σ : Type} (r : Run σ) (clean : Fn σ) : Run σ :=
  match r.1 with
  | .ok _ => clean r.2
  | .throw e =>
    match (clean r.2).1 with
    | .ok _ => (.throw e, (clean r.2).2)
    | _ => (.ub, (clean r.2).2)
  | .ub => (.ub, r.2)

/-- What a visitor does with its data.  Simplification: if it throws, the data are as before. -/
def hook {σ : Type} (f : σ → Outcome σ) : Fn σ := fun v =>
  match f v.data with
  | .ok s => (.ok (), { v with data := s })
  | .throw e => (.throw e, v)
  | .ub => (.ub, v)

/-- `currentRelationScope_ = …` (InitialPlanProtoVisitor.cpp:260 and 262, PipelineVisitor.cpp:69 and
71). -/
def setScope {σ : Type} (c : Option Msg) : Fn σ := fun v => (.ok (), { v with scope := c })

/-- InitialPlanProtoVisitor.cpp:165. -/
def pushOuter {σ : Type} : Fn σ := fun v => (.ok (), { v with outer := v.scope :: v.outer })

/-- InitialPlanProtoVisitor.cpp:166: `pop_back` of an empty vector is undefined. -/
def popOuter {σ : Type} : Fn σ := fun v =>
  match v.outer with
  | [] => (.ub, v)
  | _ :: o => (.ok (), { v with outer := o })

/-- One after the other (the loops of BasePlanProtoVisitor.cpp). -/
def inOrder {σ : Type} : List (Fn σ) → Fn σ
  | [], v => (.ok (), v)
  | a :: as, v => (a v).next (inOrder as)

/-- The functions for one field. -/
def named {σ : Type} (f : Label) (l : List (Label × Fn σ)) : List (Fn σ) :=
  (l.filter fun x => x.1 = f).map (·.2)

/-- One step of a function of BasePlanProtoVisitor.cpp, see `Trav.steps`. -/
def runStep {σ : Type} (l : List (Label × Fn σ)) : Step → Fn σ
  | .each f, v => inOrder (named f l) v
  | .must f, v => if (named f l).isEmpty then (.throw .other, v) else inOrder (named f l) v
  | .pick visited quiet, v =>
    match l.find? fun x => x.1 ∈ visited ∨ x.1 ∈ quiet with
    | some x => if x.1 ∈ visited then x.2 v else (.ok (), v)
    | none => (.throw .other, v)

/-- The steps of a function of BasePlanProtoVisitor.cpp. -/
def runSteps {σ : Type} (l : List (Label × Fn σ)) : List Step → Fn σ
  | [], v => (.ok (), v)
  | t :: ts, v => (runStep l t v).next (runSteps l ts)

/-- InitialPlanProtoVisitor.cpp:254-293, PipelineVisitor.cpp:62-213 `visitRelation`: `previous` is the
local variable of that name. -/
def inRelation {σ : Type} (h : Hooks σ) (m : Msg) (body : Fn σ) : Fn σ := fun v =>
  let previous := v.scope
  (((setScope (some m) v).next (hook (h.enter m))).next fun v =>
    (body v).next (hook (h.leave m))).finally (setScope previous)

/-- InitialPlanProtoVisitor.cpp:161-201 and PipelineVisitor.cpp:12-60 `visitExpression`, for the two of
them: only the first has the vector.  After the visit of the subquery the member is read. -/
def inExpression {σ : Type} (stack : Bool) (h : Hooks σ) (m : Msg) (body : Fn σ) : Fn σ := fun v =>
  match m.fields.get .subquery with
  | some q =>
    let rest : Fn σ := fun v => (body v).next fun v => hook (h.subquery v.scope (subRelation q)) v
    if stack then ((pushOuter v).next rest).finally popOuter else rest v
  | none => body v

mutual
/-- `visitX` with the functions a visitor overrides. -/
def visit {σ : Type} (stack : Bool) (h : Hooks σ) : Msg → Fn σ
  | .node k loc fs, v =>
    if k = .rel then
      inRelation h (.node k loc fs) (runSteps (acts stack h fs) (steps k)) v
    else if k = .expression then
      inExpression stack h (.node k loc fs) (runSteps (acts stack h fs) (steps k)) v
    else runSteps (acts stack h fs) (steps k) v
/-- What is done for each field if it is visited. -/
def acts {σ : Type} (stack : Bool) (h : Hooks σ) : Fields → List (Label × Fn σ)
  | .nil => []
  | .cons l m r => (l, visit stack h m) :: acts stack h r
end

/-- A visitor that has just been made (InitialPlanProtoVisitor.h:98-99). -/
def fresh {σ : Type} (s : σ) : Visitor σ := ⟨none, [], s⟩

end Verif.Scope
