import Verif.Spec.Whole

/-! # What the reader does not look at -/

namespace Verif.Expr

open Verif Verif.Tree

/-- The context without what only the printer uses. -/
abbrev blind (c : Context) : Context := { c with scopes := [], functionName := fun _ => none }

mutual
theorem visit_blind (c : Context) : ∀ t : ExprTree, visit (blind c) t = visit c t
  | .call id args a ty => by
    rw [visit, visit, visitList_blind c args, visitArgs_blind c args]; rfl
  | .const k => by rw [visit, visit]
  | .column s id => by rw [visit, visit]; rfl
  | .cast e a ty => by rw [visit, visit, visit_blind c e]
  | .scalarSubquery a r => by rw [visit, visit]; rfl
  | .inSubquery es a r => by rw [visit, visit, visitList_blind c es]; rfl
  | .setPredicate x a r => by rw [visit, visit]; rfl
  | .setComparison e op all a r => by rw [visit, visit, visit_blind c e]; rfl
theorem visitArgs_blind (c : Context) : ∀ ts : List ExprTree,
    visitArgs (blind c) ts = visitArgs c ts
  | [] => by rw [visitArgs, visitArgs]
  | e :: es => by rw [visitArgs, visitArgs, visit_blind c e, visitArgs_blind c es]
theorem visitList_blind (c : Context) : ∀ ts : List ExprTree,
    visitList (blind c) ts = visitList c ts
  | [] => by rw [visitList, visitList]
  | e :: es => by rw [visitList, visitList, visit_blind c e, visitList_blind c es]
end

mutual
theorem first_blind (c : Context) (b : Bool) : ∀ t : ExprTree, first (blind c) b t = first c b t
  | .call id args a ty => by
    rw [first, first, firstList_blind c b args, firstArgs_blind c b args]; rfl
  | .const k => by rw [first, first]
  | .column s id => by rw [first, first]; rfl
  | .cast e a ty => by rw [first, first, first_blind c b e]
  | .scalarSubquery a r => by rw [first, first]
  | .inSubquery es a r => by rw [first, first, firstList_blind c b es]
  | .setPredicate x a r => by rw [first, first]
  | .setComparison e op all a r => by rw [first, first, first_blind c b e]
theorem firstArgs_blind (c : Context) (b : Bool) : ∀ ts : List ExprTree,
    firstArgs (blind c) b ts = firstArgs c b ts
  | [] => by rw [firstArgs, firstArgs]
  | e :: es => by rw [firstArgs, firstArgs, first_blind c b e, firstArgs_blind c b es]
theorem firstList_blind (c : Context) (b : Bool) : ∀ ts : List ExprTree,
    firstList (blind c) b ts = firstList c b ts
  | [] => by rw [firstList, firstList]
  | e :: es => by rw [firstList, firstList, first_blind c b e, firstList_blind c b es]
end

end Verif.Expr

namespace Verif.Rel

open Verif Verif.Tree Verif.Expr

/-- The context without what only the printer uses. -/
abbrev blind (c : RelContext) : RelContext :=
  { c with
    expr := { Expr.blind c.expr with readScopes := [] }
    alternative := fun _ => none
    measureName := fun _ => none }

/-- The context with other names for the expressions of a project. -/
abbrev naming (f : Nat → Str) (c : RelContext) : RelContext := { c with fresh := f }

theorem value_blind (b : Bool) (c : RelContext) (d : Schema.RelData) (t : ExprTree) :
    value b (blind c) d t = value b c d t := by
  unfold value
  cases b
  · exact congrArg (fun x : Got PbExpr => x.map fun r => (Value.expr r.1, r.2))
      (visit_blind { c.expr with readScopes := d :: c.outer } t)
  · exact first_blind { c.expr with readScopes := d :: c.outer } c.inside t

theorem exprValue_blind (b : Bool) (c : RelContext) (d : Schema.RelData) (t : ExprTree) :
    exprValue b (blind c) d t = exprValue b c d t := by
  unfold exprValue; rw [value_blind]

theorem readSortField_blind (b : Bool) (c : RelContext) (d : Schema.RelData) (t : ExprTree)
    (y : Option Str) : readSortField b (blind c) d t y = readSortField b c d t y := by
  unfold readSortField; rw [exprValue_blind]

theorem readMeasureDetails_blind (b : Bool) (c : RelContext) (k : Nat) :
    ∀ (ds : List MeasureDetail) (d : Schema.RelData) (m : MeasureState),
    readMeasureDetails b (blind c) k d m ds = readMeasureDetails b c k d m ds
  | [], _, _ => rfl
  | .measure t ty ids :: ds, d, m => by
    simp only [readMeasureDetails, exprValue_blind, readMeasureDetails_blind b c k ds]; rfl
  | .filter t :: ds, d, m => by
    simp only [readMeasureDetails, exprValue_blind, readMeasureDetails_blind b c k ds]
  | .invocation id :: ds, d, m => by
    simp only [readMeasureDetails, readMeasureDetails_blind b c k ds]
  | .sort t y :: ds, d, m => by
    simp only [readMeasureDetails, readSortField_blind, readMeasureDetails_blind b c k ds]

theorem readDetail_blind (b : Bool) (c : RelContext) (st : State) (d : Detail) :
    readDetail b (blind c) st d = readDetail b c st d := by
  cases d <;> simp only [readDetail]
  · rfl
  · simp only [readFilter, value_blind]
  · simp only [readExpression, value_blind]
  · rfl
  · simp only [readGrouping, value_blind]
  · simp only [readMeasure, readMeasureDetails_blind]
  · simp only [readSort, readSortField_blind]
  · rfl

theorem readDetails_blind (b : Bool) (c : RelContext) : ∀ (ds : List Detail) (st : State),
    readDetails b (blind c) st ds = readDetails b c st ds
  | [], _ => rfl
  | d :: ds, st => by
    simp only [readDetails, readDetail_blind, readDetails_blind b c ds]

theorem addExpressions_blind (b : Bool) (c : RelContext) (ns : List Str) :
    ∀ (es : List PbExpr) (d : Schema.RelData) (k : Nat),
    addExpressions b (blind c) ns d k es = addExpressions b c ns d k es
  | [], _, _ => by unfold addExpressions; rfl
  | e :: es, d, k => by
    unfold addExpressions
    split <;> rename_i heq
    · simp at heq
    · injection heq with h1 h2
      subst h2
      simp only [addExpressions_blind b c ns es]
    · injection heq with h1 h2
      subst h2
      simp only [addExpressions_blind b c ns es]

theorem addProject_blind (b : Bool) (c : RelContext) (st : State) :
    addProject b (blind c) st = addProject b c st := by
  unfold addProject
  split <;> simp only [addExpressions_blind]

theorem readEmits_blind (b : Bool) (c : RelContext) : ∀ (ds : List Detail) (st : State),
    readEmits b (blind c) st ds = readEmits b c st ds
  | [], _ => rfl
  | d :: ds, st => by
    cases d <;> simp only [readEmits, readEmits_blind b c ds] <;> rfl

/-- **The reader does not look at what only the printer uses.** -/
theorem readPass_blind (b : Bool) (c : RelContext) (k : Enum.RelType) (ds : List Detail)
    (ns : List Str) : readPass b (blind c) k ds ns = readPass b c k ds ns := by
  unfold readPass
  rw [readDetails_blind]
  simp only [addProject_blind, readEmits_blind]
  rfl

/-! ## The second pass makes no names -/

theorem readMeasureDetails_naming (f : Nat → Str) (b : Bool) (c : RelContext) (k : Nat) :
    ∀ (ds : List MeasureDetail) (d : Schema.RelData) (m : MeasureState),
    readMeasureDetails b (naming f c) k d m ds = readMeasureDetails b c k d m ds
  | [], _, _ => rfl
  | .measure t ty ids :: ds, d, m => by
    simp only [readMeasureDetails, readMeasureDetails_naming f b c k ds]; rfl
  | .filter t :: ds, d, m => by
    simp only [readMeasureDetails, readMeasureDetails_naming f b c k ds]; rfl
  | .invocation id :: ds, d, m => by
    simp only [readMeasureDetails, readMeasureDetails_naming f b c k ds]
  | .sort t y :: ds, d, m => by
    simp only [readMeasureDetails, readMeasureDetails_naming f b c k ds]; rfl

theorem readDetail_naming (f : Nat → Str) (c : RelContext) (st : State) (d : Detail) :
    readDetail false (naming f c) st d = readDetail false c st d := by
  cases d <;> simp only [readDetail]
  · rfl
  · rfl
  · rfl
  · rfl
  · rfl
  · simp only [readMeasure, readMeasureDetails_naming]
  · rfl
  · rfl

theorem readDetails_naming (f : Nat → Str) (c : RelContext) : ∀ (ds : List Detail) (st : State),
    readDetails false (naming f c) st ds = readDetails false c st ds
  | [], _ => rfl
  | d :: ds, st => by
    simp only [readDetails, readDetail_naming, readDetails_naming f c ds]

theorem addExpressions_naming (f : Nat → Str) (c : RelContext) (ns : List Str) :
    ∀ (es : List PbExpr) (d : Schema.RelData) (k : Nat),
    addExpressions false (naming f c) ns d k es = addExpressions false c ns d k es
  | [], _, _ => by unfold addExpressions; rfl
  | e :: es, d, k => by
    unfold addExpressions
    split <;> rename_i heq
    · simp at heq
    · injection heq with h1 h2
      subst h2
      simp only [addExpressions_naming f c ns es]
    · injection heq with h1 h2
      subst h2
      simp only [addExpressions_naming f c ns es]

theorem readEmits_naming (f : Nat → Str) (c : RelContext) : ∀ (ds : List Detail) (st : State),
    readEmits false (naming f c) st ds = readEmits false c st ds
  | [], _ => rfl
  | d :: ds, st => by
    cases d <;> simp only [readEmits, readEmits_naming f c ds] <;> rfl

theorem readPass_naming (f : Nat → Str) (c : RelContext) (k : Enum.RelType) (ds : List Detail)
    (ns : List Str) : readPass false (naming f c) k ds ns = readPass false c k ds ns := by
  have h : ∀ st, addProject false (naming f c) st = addProject false c st := by
    intro st
    unfold addProject
    split <;> simp only [addExpressions_naming]
  unfold readPass
  rw [readDetails_naming]
  simp only [h, readEmits_naming]
  rfl

/-! ## The first pass does not look at the relations around -/

end Verif.Rel

namespace Verif.Expr

open Verif Verif.Tree

/-- The context with other relations around. -/
abbrev around (d : Schema.RelData) (o : List Schema.RelData) (c : Context) : Context :=
  { c with readScopes := d :: o }

mutual
theorem first_around (c : Context) (d : Schema.RelData) (o o' : List Schema.RelData) (b : Bool) :
    ∀ t : ExprTree, first (around d o c) b t = first (around d o' c) b t
  | .call id args a ty => by
    rw [first, first, firstList_around c d o o' b args, firstArgs_around c d o o' b args]; rfl
  | .const k => by rw [first, first]
  | .column s id => by rw [first, first]; rfl
  | .cast e a ty => by rw [first, first, first_around c d o o' b e]
  | .scalarSubquery a r => by rw [first, first]
  | .inSubquery es a r => by rw [first, first, firstList_around c d o o' b es]
  | .setPredicate x a r => by rw [first, first]
  | .setComparison e op all a r => by rw [first, first, first_around c d o o' b e]
theorem firstArgs_around (c : Context) (d : Schema.RelData) (o o' : List Schema.RelData)
    (b : Bool) : ∀ ts : List ExprTree,
      firstArgs (around d o c) b ts = firstArgs (around d o' c) b ts
  | [] => by rw [firstArgs, firstArgs]
  | e :: es => by
    rw [firstArgs, firstArgs, first_around c d o o' b e, firstArgs_around c d o o' b es]
theorem firstList_around (c : Context) (d : Schema.RelData) (o o' : List Schema.RelData)
    (b : Bool) : ∀ ts : List ExprTree,
      firstList (around d o c) b ts = firstList (around d o' c) b ts
  | [] => by rw [firstList, firstList]
  | e :: es => by
    rw [firstList, firstList, first_around c d o o' b e, firstList_around c d o o' b es]
end

end Verif.Expr

namespace Verif.Rel

open Verif Verif.Tree Verif.Expr

/-- The context with other relations around. -/
abbrev within (o : List Schema.RelData) (c : RelContext) : RelContext := { c with outer := o }

theorem value_within (o : List Schema.RelData) (c : RelContext) (d : Schema.RelData)
    (t : ExprTree) : value true (within o c) d t = value true c d t := by
  unfold value
  exact first_around c.expr d o c.outer c.inside t

theorem exprValue_within (o : List Schema.RelData) (c : RelContext) (d : Schema.RelData)
    (t : ExprTree) : exprValue true (within o c) d t = exprValue true c d t := by
  unfold exprValue; rw [value_within]

theorem readSortField_within (o : List Schema.RelData) (c : RelContext) (d : Schema.RelData)
    (t : ExprTree) (y : Option Str) :
    readSortField true (within o c) d t y = readSortField true c d t y := by
  unfold readSortField; rw [exprValue_within]

theorem readMeasureDetails_within (o : List Schema.RelData) (c : RelContext) (k : Nat) :
    ∀ (ds : List MeasureDetail) (d : Schema.RelData) (m : MeasureState),
    readMeasureDetails true (within o c) k d m ds = readMeasureDetails true c k d m ds
  | [], _, _ => rfl
  | .measure t ty ids :: ds, d, m => by
    simp only [readMeasureDetails, exprValue_within, readMeasureDetails_within o c k ds]; rfl
  | .filter t :: ds, d, m => by
    simp only [readMeasureDetails, exprValue_within, readMeasureDetails_within o c k ds]
  | .invocation id :: ds, d, m => by
    simp only [readMeasureDetails, readMeasureDetails_within o c k ds]
  | .sort t y :: ds, d, m => by
    simp only [readMeasureDetails, readSortField_within, readMeasureDetails_within o c k ds]

theorem readDetail_within (o : List Schema.RelData) (c : RelContext) (st : State) (d : Detail) :
    readDetail true (within o c) st d = readDetail true c st d := by
  cases d <;> simp only [readDetail]
  · rfl
  · simp only [readFilter, value_within]
  · simp only [readExpression, value_within]
  · rfl
  · simp only [readGrouping, value_within]
  · simp only [readMeasure, readMeasureDetails_within]
  · simp only [readSort, readSortField_within]
  · rfl

theorem readDetails_within (o : List Schema.RelData) (c : RelContext) :
    ∀ (ds : List Detail) (st : State),
    readDetails true (within o c) st ds = readDetails true c st ds
  | [], _ => rfl
  | d :: ds, st => by
    simp only [readDetails, readDetail_within, readDetails_within o c ds]

theorem addExpressions_within (o : List Schema.RelData) (c : RelContext) (ns : List Str) :
    ∀ (es : List PbExpr) (d : Schema.RelData) (k : Nat),
    addExpressions true (within o c) ns d k es = addExpressions true c ns d k es
  | [], _, _ => by unfold addExpressions; rfl
  | e :: es, d, k => by
    unfold addExpressions
    split <;> rename_i heq
    · simp at heq
    · injection heq with h1 h2
      subst h2
      simp only [addExpressions_within o c ns es]
    · injection heq with h1 h2
      subst h2
      simp only [addExpressions_within o c ns es]

theorem readEmits_within (o : List Schema.RelData) (c : RelContext) :
    ∀ (ds : List Detail) (st : State),
    readEmits true (within o c) st ds = readEmits true c st ds
  | [], _ => rfl
  | d :: ds, st => by
    cases d <;> simp only [readEmits, readEmits_within o c ds] <;> rfl

/-- **The first pass does not look at the relations around.** -/
theorem readPass_within (o : List Schema.RelData) (c : RelContext) (k : Enum.RelType)
    (ds : List Detail) (ns : List Str) :
    readPass true (within o c) k ds ns = readPass true c k ds ns := by
  have h : ∀ st, addProject true (within o c) st = addProject true c st := by
    intro st
    unfold addProject
    split <;> simp only [addExpressions_within]
  unfold readPass
  rw [readDetails_within]
  simp only [h, readEmits_within]
  rfl

end Verif.Rel
