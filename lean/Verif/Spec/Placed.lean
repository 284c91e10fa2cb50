import Verif.Model.Whole
import Verif.Spec.Filter

/-! # What is written in a relation of a text plan, and what becomes of it -/

namespace Verif.Rel

open Verif Verif.Expr

/-- The kind of a relation as the specification of filters knows it. -/
def filterType : Enum.RelType → Filter.RelationType
  | .read => .read
  | .project => .project
  | .join => .join
  | .cross => .cross
  | .fetch => .fetch
  | .aggregate => .aggregate
  | .sort => .sort
  | .filter => .filter
  | .set => .set

/-- The detail is one that relations of this kind have. -/
def Belongs (k : Enum.RelType) : Detail → Prop
  | .schema _ => k = .read
  | .source _ => k = .read
  | .filter words _ => ∃ b, Filter.Asks (E := PbExpr) ⟨words, none⟩ b ∧ Filter.Legal (filterType k) b
  | .expression _ _ => k = .project ∨ k = .join
  | .grouping _ => k = .aggregate
  | .measure _ => k = .aggregate
  | .sort _ _ => k = .sort
  | .count _ => k = .fetch
  | .type _ => k = .join
  | .emit _ _ => True
  | .common => True
  | .extension => True

/-- Number of the details that are this. -/
def tally (p : Detail → Bool) (ds : List Detail) : Nat := (ds.filter p).length

def isExpression : Detail → Bool
  | .expression _ _ => true
  | _ => false

def isFilter : Detail → Bool
  | .filter _ _ => true
  | _ => false

def isGrouping : Detail → Bool
  | .grouping _ => true
  | _ => false

def isSort : Detail → Bool
  | .sort _ _ => true
  | _ => false

def isEmit : Detail → Bool
  | .emit _ _ => true
  | _ => false

/-- The measures written. -/
def blocksIn : List Detail → List (List MeasureDetail)
  | [] => []
  | .measure ds :: rest => ds :: blocksIn rest
  | _ :: rest => blocksIn rest

/-- Number of the details of a measure that are this. -/
def tallyIn (p : MeasureDetail → Bool) (ds : List MeasureDetail) : Nat := (ds.filter p).length

def isCall : MeasureDetail → Bool
  | .measure _ _ _ => true
  | _ => false

def isCondition : MeasureDetail → Bool
  | .filter _ => true
  | _ => false

def isOrder : MeasureDetail → Bool
  | .sort _ _ => true
  | _ => false

/-- The sorts of a measure. -/
def sortsOf (m : PbMeasure) : List PbSort := (m.measure.map (·.sorts)).getD []

/-- Everything written in a measure is in the message. -/
structure MeasureHolds (ds : List MeasureDetail) (m : PbMeasure) : Prop where
  call : tallyIn isCall ds ≤ 1 ∧ (tallyIn isCall ds = 1 → m.measure.isSome)
  condition : m.filter.toList.length = tallyIn isCondition ds
  sorts : (sortsOf m).length = tallyIn isOrder ds

/-- One after the other. -/
def AllHold : List (List MeasureDetail) → List PbMeasure → Prop
  | [], [] => True
  | ds :: rest, m :: ms => MeasureHolds ds m ∧ AllHold rest ms
  | _, _ => False

/-- The expressions of a project or a join. -/
def expressionsIn : Body → Nat
  | .project es => es.length
  | .join _ e _ => e.toList.length
  | _ => 0

/-- The filters of a relation. -/
def filtersIn : Body → Nat
  | .read _ _ f b _ => f.toList.length + b.toList.length
  | .filter f => f.toList.length
  | .join _ _ p => p.toList.length
  | _ => 0

/-- The grouping expressions of an aggregate. -/
def groupingsIn : Body → Nat
  | .aggregate gs _ => gs.flatten.length
  | _ => 0

/-- The sorts of a relation. -/
def sortsIn : Body → Nat
  | .sort ss => ss.length
  | _ => 0

/-- The measures of a relation. -/
def measuresIn : Body → List PbMeasure
  | .aggregate _ ms => ms
  | _ => []

/-- Everything written in a relation is in the message. -/
structure Holds (ds : List Detail) (r : PbRel) : Prop where
  expressions : expressionsIn r.body = tally isExpression ds
  filters : filtersIn r.body = tally isFilter ds
  groupings : groupingsIn r.body = tally isGrouping ds
  sorts : sortsIn r.body = tally isSort ds
  measures : AllHold (blocksIn ds) (measuresIn r.body)
  emits : r.emit.length = tally isEmit ds

/-- What is written fits into a relation of this kind. -/
structure Fits (k : Enum.RelType) (ds : List Detail) : Prop where
  belong : ∀ d ∈ ds, Belongs k d
  condition : k = .join → tally isExpression ds ≤ 1
  filter : k = .join ∨ k = .filter → tally isFilter ds ≤ 1
  filters : tally isFilter ds ≤ 2
  measures : ∀ b ∈ blocksIn ds, tallyIn isCall b ≤ 1 ∧ tallyIn isCondition b ≤ 1

end Verif.Rel
