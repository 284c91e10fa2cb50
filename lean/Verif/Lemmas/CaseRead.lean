import Verif.Lemmas.CaseExpr

/-!
Whole plans are read without looking at the case of letters that are not spelled.
-/

namespace Verif.Case

open Verif Lex Tree TyPb Literal

/-! ## Literals -/

theorem textToType_low (inside : Bool) (t : TypeTree) :
    textToTypeProto inside t.low.text = textToTypeProto inside t.text := by
  rw [TypeTree.low_text, textToTypeProto_low]

@[simp] theorem typeFor_low (inside : Bool) (ext : Option PbType) (own : Option TypeTree) :
    typeFor inside ext (own.map TypeTree.low) = typeFor inside ext own := by
  cases ext <;> cases own <;> simp only [typeFor, Option.map_none, Option.map_some, textToType_low]

@[simp] theorem bareCs_length (cs : List ConstTree) : (bareCs cs).length = cs.length := by
  induction cs with
  | nil => rfl
  | cons c cs ih => simp [bareCs, ih]

@[simp] theorem bareCs_isEmpty (cs : List ConstTree) : (bareCs cs).isEmpty = cs.isEmpty := by
  cases cs <;> rfl

mutual
theorem visitConst_bare (lib : Lib) : ∀ (c : ConstTree) (inside : Bool) (ext : Option PbType),
    visitConst lib inside ext (bareC c) = visitConst lib inside ext c
  | .number t ty, inside, ext => by simp only [bareC, visitConst, typeFor_low]
  | .string t ty, inside, ext => by simp only [bareC, visitConst, typeFor_low]
  | .mapLit ks vs ty, inside, ext => by
    simp only [bareC, visitConst, typeFor_low, bareCs_length, bareCs_isEmpty, visitEach_bare lib ks,
      visitEach_bare lib vs]
  | .structLit cs ty, inside, ext => by
    simp only [bareC, visitConst, typeFor_low, bareCs_length, visitEach_bare lib cs]
  | .null t ty, inside, ext => by simp only [bareC, visitConst, typeFor_low]
  | .bool b t ty, inside, ext => by simp only [bareC, visitConst, typeFor_low]
theorem visitEach_bare (lib : Lib) : ∀ (cs : List ConstTree) (inside : Bool) (ext : List (Option PbType)),
    visitEach lib inside ext (bareCs cs) = visitEach lib inside ext cs
  | [], inside, ext => by simp only [bareCs]
  | c :: cs, inside, [] => by simp only [bareCs, visitEach]
  | c :: cs, inside, e :: es => by
    simp only [bareCs, visitEach, visitConst_bare lib c, visitEach_bare lib cs]
end

/-! ## Expressions -/

open Expr

@[simp] theorem readType_low (t : TypeTree) : readType t.low = readType t := by
  simp only [readType, textToType_low]

@[simp] theorem readOutput_low (t : Option TypeTree) : readOutput (t.map TypeTree.low) = readOutput t := by
  cases t <;> simp [readOutput]

theorem lower_lowS (s : Str) : (lowS s).map toLower = s.map toLower := lowS_idem s

@[simp] theorem readComparison_low (s : Str) : Enum.readComparison (lowS s) = Enum.readComparison s := by
  simp only [Enum.readComparison, lower_lowS]

mutual
theorem bareC_low : ∀ c : ConstTree, (bareC c).low.text = c.low.text
  | .number t ty => by cases ty <;> simp [bareC, ConstTree.low, ConstTree.text, optText, TypeTree.low_text]
  | .string t ty => by cases ty <;> simp [bareC, ConstTree.low, ConstTree.text, optText, TypeTree.low_text]
  | .mapLit ks vs ty => by
    cases ty <;> simp [bareC, ConstTree.low, ConstTree.text, optText, TypeTree.low_text, bareCs_low ks, bareCs_low vs]
  | .structLit cs ty => by
    cases ty <;> simp [bareC, ConstTree.low, ConstTree.text, optText, TypeTree.low_text, bareCs_low cs]
  | .null t ty => by cases ty <;> simp [bareC, ConstTree.low, ConstTree.text, optText, TypeTree.low_text]
  | .bool b t ty => by cases ty <;> simp [bareC, ConstTree.low, ConstTree.text, optText, TypeTree.low_text]
theorem bareCs_low : ∀ cs : List ConstTree, ConstTree.texts (ConstTree.lowL (bareCs cs)) = ConstTree.texts (ConstTree.lowL cs)
  | [] => rfl
  | c :: cs => by simp only [bareCs, ConstTree.lowL, ConstTree.texts, bareC_low c, bareCs_low cs]
end

theorem optLow_text (lead : Str) (t : Option TypeTree) :
    optText lead ((t.map TypeTree.low).map TypeTree.low) = optText lead (t.map TypeTree.low) := by
  cases t <;> simp [optText, TypeTree.low_text]

mutual
theorem bareE_low : ∀ e : ExprTree, (bareE e).low.text = e.low.text
  | .call id args cs ty => by
    by_cases h : isIfThen id = true
    · simp only [bareE, h, if_true, ExprTree.low, ExprTree.text, lowS_idem, bareEs_low args, optLow_text]
    · simp only [bareE, h, ExprTree.low, ExprTree.text, bareArgs_low args, optLow_text, Bool.false_eq_true, if_false]
  | .const c => by simp only [bareE, ExprTree.low, ExprTree.text, bareC_low]
  | .column s id => rfl
  | .cast e kw ty => by simp only [bareE, ExprTree.low, ExprTree.text, bareE_low e, lowS_idem, TypeTree.low_text]
  | .scalarSubquery kw r => by simp only [bareE, ExprTree.low, ExprTree.text, lowS_idem]
  | .inSubquery es kw r => by simp only [bareE, ExprTree.low, ExprTree.text, lowS_idem, bareEs_low es]
  | .setPredicate x kw r => by simp only [bareE, ExprTree.low, ExprTree.text, lowS_idem]
  | .setComparison e op a kw r => by simp only [bareE, ExprTree.low, ExprTree.text, lowS_idem, bareE_low e]
theorem bareArgs_low : ∀ es : List ExprTree, ExprTree.texts (ExprTree.lowL (bareArgs es)) = ExprTree.texts (ExprTree.lowL es)
  | [] => rfl
  | e :: es => by
    by_cases h : looksEnum e = true
    · simp only [bareArgs, h, if_true, ExprTree.lowL, ExprTree.texts, bareArgs_low es]
    · simp only [bareArgs, h, Bool.false_eq_true, if_false, ExprTree.lowL, ExprTree.texts, bareE_low e, bareArgs_low es]
theorem bareEs_low : ∀ es : List ExprTree, ExprTree.texts (ExprTree.lowL (bareEs es)) = ExprTree.texts (ExprTree.lowL es)
  | [] => rfl
  | e :: es => by simp only [bareEs, ExprTree.lowL, ExprTree.texts, bareE_low e, bareEs_low es]
end

theorem endsWith_low (s w : Str) (hw : lowS w = w) (h : StringManipulation.endsWith s w = true) :
    StringManipulation.endsWith (lowS s) w = true := by
  simp only [StringManipulation.endsWith, Bool.and_eq_true, decide_eq_true_eq, beq_iff_eq, lowS_length] at h ⊢
  refine ⟨h.1, ?_⟩
  rw [← lowS_drop, ← lowS_take, h.2, hw]

theorem looksEnum_of_isEnum (e : ExprTree) (h : isEnum e = true) : looksEnum e = true :=
  endsWith_low _ _ rfl h

theorem isEnum_bare (e : ExprTree) (h : ¬looksEnum e = true) : isEnum (bareE e) = false := by
  cases h1 : isEnum (bareE e) with
  | false => rfl
  | true =>
    have := looksEnum_of_isEnum _ h1
    rw [← looksEnum_low, looksEnum, bareE_low] at this
    rw [← looksEnum_low, looksEnum] at h
    exact absurd this h

theorem isEnum_not (e : ExprTree) (h : ¬looksEnum e = true) : isEnum e = false := by
  cases h1 : isEnum e with
  | false => rfl
  | true => exact absurd (looksEnum_of_isEnum _ h1) h

mutual
theorem visit_bare (c : Context) : ∀ e : ExprTree, visit c (bareE e) = visit c e
  | .call id args cs ty => by
    by_cases h : isIfThen id = true
    · simp only [bareE, h, if_true, visit, isIfThen_low, visitList_bare c args]
    · simp only [bareE, h, Bool.false_eq_true, if_false, visit, visitArgs_bare c args, readOutput_low]
  | .const k => by simp only [bareE, visit, visitConst_bare]
  | .column s id => rfl
  | .cast e kw ty => by simp only [bareE, visit, visit_bare c e, readType_low]
  | .scalarSubquery kw r => by simp only [bareE, visit]
  | .inSubquery es kw r => by simp only [bareE, visit, visitList_bare c es]
  | .setPredicate x kw r => by simp only [bareE, visit]
  | .setComparison e op a kw r => by simp only [bareE, visit, visit_bare c e, readComparison_low]
theorem visitArgs_bare (c : Context) : ∀ es : List ExprTree, visitArgs c (bareArgs es) = visitArgs c es
  | [] => rfl
  | e :: es => by
    by_cases h : looksEnum e = true
    · simp only [bareArgs, h, if_true, visitArgs, visitArgs_bare c es]
    · simp only [bareArgs, h, Bool.false_eq_true, if_false, visitArgs, visitArgs_bare c es, isEnum_bare e h,
        isEnum_not e h, visit_bare c e]
theorem visitList_bare (c : Context) : ∀ es : List ExprTree, visitList c (bareEs es) = visitList c es
  | [] => rfl
  | e :: es => by simp only [bareEs, visitList, visit_bare c e, visitList_bare c es]
end

mutual
theorem hasSubquery_bare : ∀ e : ExprTree, hasSubquery (bareE e) = hasSubquery e
  | .call id args cs ty => by
    by_cases h : isIfThen id = true
    · simp only [bareE, h, if_true, hasSubquery, hasSubqueriesEs args]
    · simp only [bareE, h, Bool.false_eq_true, if_false, hasSubquery, hasSubqueriesArgs args]
  | .const k => by simp only [bareE, hasSubquery]
  | .column s id => rfl
  | .cast e kw ty => by simp only [bareE, hasSubquery, hasSubquery_bare e]
  | .scalarSubquery kw r => by simp only [bareE, hasSubquery]
  | .inSubquery es kw r => by simp only [bareE, hasSubquery]
  | .setPredicate x kw r => by simp only [bareE, hasSubquery]
  | .setComparison e op a kw r => by simp only [bareE, hasSubquery]
theorem hasSubqueriesArgs : ∀ es : List ExprTree, hasSubqueries (bareArgs es) = hasSubqueries es
  | [] => rfl
  | e :: es => by
    by_cases h : looksEnum e = true
    · simp only [bareArgs, h, if_true, hasSubqueries, hasSubqueriesArgs es]
    · simp only [bareArgs, h, Bool.false_eq_true, if_false, hasSubqueries, hasSubqueriesArgs es, hasSubquery_bare e]
theorem hasSubqueriesEs : ∀ es : List ExprTree, hasSubqueries (bareEs es) = hasSubqueries es
  | [] => rfl
  | e :: es => by simp only [bareEs, hasSubqueries, hasSubquery_bare e, hasSubqueriesEs es]
end

mutual
theorem subqueryRefs_bare : ∀ e : ExprTree, subqueryRefs (bareE e) = subqueryRefs e
  | .call id args cs ty => by
    by_cases h : isIfThen id = true
    · simp only [bareE, h, if_true, subqueryRefs, subqueryRefsEs args]
    · simp only [bareE, h, Bool.false_eq_true, if_false, subqueryRefs, subqueryRefsArgs args]
  | .const k => by simp only [bareE, subqueryRefs]
  | .column s id => rfl
  | .cast e kw ty => by simp only [bareE, subqueryRefs, subqueryRefs_bare e]
  | .scalarSubquery kw r => by simp only [bareE, subqueryRefs]
  | .inSubquery es kw r => by simp only [bareE, subqueryRefs, subqueryRefsEs es]
  | .setPredicate x kw r => by simp only [bareE, subqueryRefs]
  | .setComparison e op a kw r => by simp only [bareE, subqueryRefs, subqueryRefs_bare e]
theorem subqueryRefsArgs : ∀ es : List ExprTree, subqueryRefsL (bareArgs es) = subqueryRefsL es
  | [] => rfl
  | e :: es => by
    by_cases h : looksEnum e = true
    · simp only [bareArgs, h, if_true, subqueryRefsL, subqueryRefsArgs es]
    · simp only [bareArgs, h, Bool.false_eq_true, if_false, subqueryRefsL, subqueryRefsArgs es, subqueryRefs_bare e]
theorem subqueryRefsEs : ∀ es : List ExprTree, subqueryRefsL (bareEs es) = subqueryRefsL es
  | [] => rfl
  | e :: es => by simp only [bareEs, subqueryRefsL, subqueryRefs_bare e, subqueryRefsEs es]
end

mutual
theorem first_bare (c : Context) (inside : Bool) : ∀ e : ExprTree, first c inside (bareE e) = first c inside e
  | .call id args cs ty => by
    by_cases h : isIfThen id = true
    · simp only [bareE, h, if_true, first, isIfThen_low, firstList_bare c inside args]
    · simp only [bareE, h, Bool.false_eq_true, if_false, first, firstArgs_bare c inside args, readOutput_low]
  | .const k => by simp only [bareE, first, visitConst_bare]
  | .column s id => rfl
  | .cast e kw ty => by simp only [bareE, first, first_bare c inside e, readType_low]
  | .scalarSubquery kw r => by simp only [bareE, first]
  | .inSubquery es kw r => by simp only [bareE, first, firstList_bare c inside es]
  | .setPredicate x kw r => by simp only [bareE, first]
  | .setComparison e op a kw r => by simp only [bareE, first, first_bare c inside e]
theorem firstArgs_bare (c : Context) (inside : Bool) : ∀ es : List ExprTree,
    firstArgs c inside (bareArgs es) = firstArgs c inside es
  | [] => rfl
  | e :: es => by
    by_cases h : looksEnum e = true
    · simp only [bareArgs, h, if_true, firstArgs, firstArgs_bare c inside es]
    · simp only [bareArgs, h, Bool.false_eq_true, if_false, firstArgs, firstArgs_bare c inside es, isEnum_bare e h,
        isEnum_not e h, first_bare c inside e, hasSubquery_bare e]
theorem firstList_bare (c : Context) (inside : Bool) : ∀ es : List ExprTree,
    firstList c inside (bareEs es) = firstList c inside es
  | [] => rfl
  | e :: es => by simp only [bareEs, firstList, first_bare c inside e, firstList_bare c inside es]
end

/-! ## Relations -/

/-- The first of some identifiers in lower case. -/
def lowHead : List Str → List Str
  | [] => []
  | i :: is => lowS i :: is

def bareM : Rel.MeasureDetail → Rel.MeasureDetail
  | .measure e ty ids => .measure (bareE e) (ty.map TypeTree.low) (lowHead ids)
  | .filter e => .filter (bareE e)
  | .invocation id => .invocation (lowS id)
  | .sort e by_ => .sort (bareE e) (by_.map lowS)

def bareD : Rel.Detail → Rel.Detail
  | .common => .common
  | .schema id => .schema id
  | .filter words e => .filter (words.map lowS) (bareE e)
  | .expression e named => .expression (bareE e) named
  | .extension => .extension
  | .source id => .source id
  | .grouping e => .grouping (bareE e)
  | .measure ds => .measure (ds.map bareM)
  | .sort e by_ => .sort (bareE e) (by_.map lowS)
  | .count text => .count text
  | .type id => .type (lowS id)
  | .emit s id => .emit s id

def bareRel (t : Rel.RelTree) : Rel.RelTree := ⟨lowS t.type, ⟨t.ref.id, t.ref.low.schema⟩, t.details.map bareD⟩

def bareColumn (c : Str × TypeTree) : Str × TypeTree := (c.1, c.2.low)

def bareP : Sec.PlanDetail → Sec.PlanDetail
  | .pipelines ps => .pipelines ps
  | .relation t => .relation (bareRel t)
  | .root names => .root names
  | .schema id columns => .schema id (columns.map bareColumn)
  | .source t => .source t
  | .space t => .space t

open Rel

theorem letters_low (s : Str) : (lowS s).filter isLetter = lowS (s.filter isLetter) := by
  induction s with
  | nil => rfl
  | cons c s ih =>
    rw [lowS_cons, List.filter_cons, List.filter_cons, isLetter_toLower, ih]
    cases isLetter c <;> rfl

@[simp] theorem normalize_low (s p : Str) : Enum.normalize (lowS s) p = Enum.normalize s p := by
  simp only [Enum.normalize, letters_low, lower_lowS]

@[simp] theorem readJoin_low (s : Str) : Enum.readJoin (lowS s) = Enum.readJoin s := by
  simp only [Enum.readJoin, normalize_low]
@[simp] theorem readInvocation_low (s : Str) : Enum.readInvocation (lowS s) = Enum.readInvocation s := by
  simp only [Enum.readInvocation, normalize_low]
@[simp] theorem readPhase_low (s : Str) : Enum.readPhase (lowS s) = Enum.readPhase s := by
  simp only [Enum.readPhase, normalize_low]
@[simp] theorem readDirection_low (s : Str) : Enum.readDirection (lowS s) = Enum.readDirection s := by
  simp only [Enum.readDirection, normalize_low]
@[simp] theorem readRelationType_low (s : Str) : Enum.readRelationType (lowS s) = Enum.readRelationType s := by
  simp only [Enum.readRelationType, lower_lowS]
@[simp] theorem readBehavior_low (s : Str) : Filter.readBehavior (lowS s) = Filter.readBehavior s := by
  simp only [Filter.readBehavior, lower_lowS]

theorem behavior_low {E : Type} (words : Option Str) (x : Option E) :
    (⟨words.map lowS, x⟩ : Filter.Clause E).behavior = (⟨words, x⟩ : Filter.Clause E).behavior := by
  cases words <;> simp [Filter.Clause.behavior]

theorem visitFilter_low {E : Type} (k : Filter.RelationType) (s : Filter.Filters E) (words : Option Str) (x : Option E) :
    Filter.visitFilter k s ⟨words.map lowS, x⟩ = Filter.visitFilter k s ⟨words, x⟩ := by
  simp only [Filter.visitFilter, behavior_low]

@[simp] theorem value_bare (first : Bool) (c : RelContext) (d : Schema.RelData) (t : ExprTree) :
    value first c d (bareE t) = value first c d t := by
  cases first <;> simp [value, first_bare, visit_bare]

@[simp] theorem exprValue_bare (first : Bool) (c : RelContext) (d : Schema.RelData) (t : ExprTree) :
    exprValue first c d (bareE t) = exprValue first c d t := by
  simp only [exprValue, value_bare]

@[simp] theorem readFilter_bare (first : Bool) (c : RelContext) (st : Rel.State) (words : Option Str) (t : ExprTree) :
    readFilter first c st (words.map lowS) (bareE t) = readFilter first c st words t := by
  simp only [readFilter, value_bare, visitFilter_low]

@[simp] theorem readExpression_bare (first : Bool) (c : RelContext) (st : Rel.State) (t : ExprTree) (n : Option Str) :
    readExpression first c st (bareE t) n = readExpression first c st t n := by
  simp only [readExpression, value_bare]

@[simp] theorem readGrouping_bare (first : Bool) (c : RelContext) (st : Rel.State) (t : ExprTree) :
    readGrouping first c st (bareE t) = readGrouping first c st t := by
  simp only [readGrouping, value_bare]

@[simp] theorem readSortField_bare (first : Bool) (c : RelContext) (d : Schema.RelData) (t : ExprTree) (b : Option Str) :
    readSortField first c d (bareE t) (b.map lowS) = readSortField first c d t b := by
  cases b <;> simp [readSortField]

@[simp] theorem aggregateOf_low (e : PbExpr) (out : Option PbType) (ids : List Str) :
    aggregateOf e out (lowHead ids) = aggregateOf e out ids := by
  cases ids with
  | nil => rfl
  | cons i is => cases e <;> simp [aggregateOf, lowHead]

@[simp] theorem pushMeasure_low (c : RelContext) (k : Nat) (ids : List Str) (d : Schema.RelData) :
    pushMeasure c k (lowHead ids) d = pushMeasure c k ids d := by
  match ids with
  | [] => rfl
  | [_] => rfl
  | _ :: _ :: _ => rfl

@[simp] theorem readMeasureType_low (e : PbExpr) (t : Option TypeTree) :
    readMeasureType e (t.map TypeTree.low) = readMeasureType e t := by
  cases e <;> cases t <;> simp [readMeasureType]

theorem readMeasureDetails_bare (first : Bool) (c : RelContext) (k : Nat) (ds : List MeasureDetail) :
    ∀ (d : Schema.RelData) (m : MeasureState),
      readMeasureDetails first c k d m (ds.map bareM) = readMeasureDetails first c k d m ds := by
  induction ds with
  | nil => intros; rfl
  | cons x ds ih =>
    intro d m
    cases x <;> simp only [List.map_cons, bareM, readMeasureDetails, exprValue_bare, readMeasureType_low,
      aggregateOf_low, pushMeasure_low, ih, readInvocation_low, readSortField_bare]

@[simp] theorem readDetail_bare (first : Bool) (c : RelContext) (st : Rel.State) (d : Detail) :
    readDetail first c st (bareD d) = readDetail first c st d := by
  cases d <;> simp only [bareD, readDetail, readFilter_bare, readExpression_bare, readGrouping_bare, readMeasure,
    readMeasureDetails_bare, readSort, readSortField_bare, readJoinType, readJoin_low]

theorem readDetails_bare (first : Bool) (c : RelContext) (ds : List Detail) (st : Rel.State) :
    readDetails first c st (ds.map bareD) = readDetails first c st ds := by
  induction ds generalizing st with
  | nil => rfl
  | cons d ds ih => simp only [List.map_cons, readDetails, readDetail_bare, ih]

theorem readEmits_bare (first : Bool) (c : RelContext) (ds : List Detail) (st : Rel.State) :
    readEmits first c st (ds.map bareD) = readEmits first c st ds := by
  induction ds generalizing st with
  | nil => rfl
  | cons d ds ih => cases d <;> simp only [List.map_cons, bareD, readEmits, ih]

theorem readPass_bare (first : Bool) (c : RelContext) (k : Enum.RelType) (ds : List Detail) (names : List Str) :
    readPass first c k (ds.map bareD) names = readPass first c k ds names := by
  simp only [readPass, readDetails_bare, readEmits_bare]

theorem measureRefs_bare (d : MeasureDetail) : measureRefs (bareM d) = measureRefs d := by
  cases d <;> simp only [bareM, measureRefs, subqueryRefs_bare]

theorem detailRefs_bare (d : Detail) : detailRefs (bareD d) = detailRefs d := by
  cases d <;> simp only [bareD, detailRefs, subqueryRefs_bare, List.flatMap_map, measureRefs_bare]

/-! ## Plans -/

open Whole

theorem refsOf_bare (t : RelTree) : refsOf (bareRel t) = refsOf t := by
  simp only [refsOf, bareRel, List.flatMap_map, detailRefs_bare]

theorem subsOf_bare (ts : List RelTree) (n : Str) : subsOf (ts.map bareRel) n = subsOf ts n := by
  induction ts with
  | nil => rfl
  | cons t ts ih =>
    simp only [subsOf, List.map_cons, List.filter_cons] at ih ⊢
    have : (bareRel t).ref.id = t.ref.id := rfl
    rw [this]
    by_cases h : t.ref.id = n
    · simp only [h, decide_true, if_true, List.flatMap_cons, refsOf_bare, ih]
    · simp only [h, decide_false, Bool.false_eq_true, if_false, ih]

theorem graphOf_bare (l : List Sec.Symbol) (ts : List RelTree) : graphOf l (ts.map bareRel) = graphOf l ts := by
  simp only [graphOf, subsOf_bare]

theorem freshNames_bare (ds : List Detail) (u : Counters) : freshNames u (ds.map bareD) = freshNames u ds := by
  induction ds generalizing u with
  | nil => rfl
  | cons d ds ih =>
    cases d with
    | expression e n => cases n <;> simp only [List.map_cons, bareD, freshNames, ih]
    | _ => simp only [List.map_cons, bareD, freshNames, ih]

theorem freshOf_bare (first : Bool) (u : Counters) (t : RelTree) : freshOf first u (bareRel t) = freshOf first u t := by
  simp only [freshOf, bareRel, readRelationType_low, freshNames_bare]

theorem readRelation_bare (lib : Literal.Lib) (st : Sec.State) (g : Pipe.Table) (first : Bool) (done : Relations)
    (fresh : List Str) (t : RelTree) :
    readRelation lib st g first done fresh (bareRel t) = readRelation lib st g first done fresh t := by
  simp only [readRelation, bareRel, readRelationType_low, readPass_bare]

theorem readRelations_bare (lib : Literal.Lib) (st : Sec.State) (g : Pipe.Table) (first : Bool) (ts : List RelTree) :
    ∀ (u : Counters) (done : Relations),
      readRelations lib st g first u done (ts.map bareRel) = readRelations lib st g first u done ts := by
  induction ts with
  | nil => intros; rfl
  | cons t ts ih =>
    intro u done
    simp only [List.map_cons, readRelations, freshOf_bare, readRelation_bare, ih]
    rfl

theorem readColumns_bare (loc : Nat) (cs : List (Str × TypeTree)) :
    Sec.readColumns loc (cs.map bareColumn) = Sec.readColumns loc cs := by
  induction cs with
  | nil => rfl
  | cons c cs ih => simp only [List.map_cons, Sec.readColumns, bareColumn, readType_low, ih]

theorem visitDefinitions_bare (ds : List Sec.PlanDetail) : ∀ (loc : Nat) (st : Sec.State),
    Sec.visitDefinitions loc (ds.map bareP) st = Sec.visitDefinitions loc ds st := by
  induction ds with
  | nil => intros; rfl
  | cons d ds ih =>
    intro loc st
    have h : Sec.visitDefinition loc st (bareP d) = Sec.visitDefinition loc st d := by
      cases d <;> simp only [bareP, Sec.visitDefinition, readColumns_bare]
    simp only [List.map_cons, Sec.visitDefinitions, h, ih]

theorem visitRelations_bare (ds : List Sec.PlanDetail) : ∀ (loc : Nat) (st : Sec.State),
    Sec.visitRelations loc (ds.map bareP) st = Sec.visitRelations loc ds st := by
  induction ds with
  | nil => intros; rfl
  | cons d ds ih =>
    intro loc st
    have h : Sec.visitRelation loc st (bareP d) = Sec.visitRelation loc st d := by
      cases d <;> simp only [bareP, Sec.visitRelation, bareRel, readRelationType_low]
    simp only [List.map_cons, Sec.visitRelations, h, ih]

theorem visitRoots_bare (ds : List Sec.PlanDetail) : ∀ (loc : Nat) (st : Sec.State),
    Sec.visitRoots loc (ds.map bareP) st = Sec.visitRoots loc ds st := by
  induction ds with
  | nil => intros; rfl
  | cons d ds ih =>
    intro loc st
    have h : Sec.visitRoot loc st (bareP d) = Sec.visitRoot loc st d := by
      cases d <;> simp only [bareP, Sec.visitRoot]
    simp only [List.map_cons, Sec.visitRoots, h, ih]

theorem visitPlan_bare (ds : List Sec.PlanDetail) : Sec.visitPlan (ds.map bareP) = Sec.visitPlan ds := by
  simp only [Sec.visitPlan, visitDefinitions_bare, visitRelations_bare, visitRoots_bare]

theorem relationOf_bare (ds : List Sec.PlanDetail) :
    (ds.map bareP).filterMap relationOf = (ds.filterMap relationOf).map bareRel := by
  induction ds with
  | nil => rfl
  | cons d ds ih => cases d <;> simp only [List.map_cons, bareP, List.filterMap_cons, relationOf, ih]

theorem pipelinesOf_bare (ds : List Sec.PlanDetail) :
    (ds.map bareP).filterMap pipelinesOf = ds.filterMap pipelinesOf := by
  induction ds with
  | nil => rfl
  | cons d ds ih => cases d <;> simp only [List.map_cons, bareP, List.filterMap_cons, pipelinesOf, ih]

theorem refsKnown_bare (l : List Sec.Symbol) (ds : List Sec.PlanDetail) : ∀ seen : List Str,
    refsKnown l seen (ds.map bareP) = refsKnown l seen ds := by
  induction ds with
  | nil => intros; rfl
  | cons d ds ih => intro seen; cases d <;> simp only [List.map_cons, bareP, refsKnown, refsOf_bare, ih]

/-- Only what is spelled counts. -/
theorem fromDetails_bare (lib : Literal.Lib) (fuel : Nat) (ds : List Sec.PlanDetail) :
    fromDetails lib fuel (ds.map bareP) = fromDetails lib fuel ds := by
  simp only [fromDetails, visitPlan_bare, relationOf_bare, pipelinesOf_bare, refsKnown_bare, graphOf_bare, readPasses,
    readRelations_bare]

/-! ## What is spelled put back -/

/-- A list of parts with what is spelled. -/
def putList {α : Type} (p : α → List Str → α × List Str) : List α → List Str → List α × List Str
  | [], w => ([], w)
  | a :: as, w => ((p a w).1 :: (putList p as (p a w).2).1, (putList p as (p a w).2).2)

theorem putList_spelled {α : Type} {p : α → List Str → α × List Str} {low bare : α → α} {sp : α → List Str}
    (h : ∀ a r, p (low a) (sp a ++ r) = (bare a, r)) (l : List α) (r : List Str) :
    putList p (l.map low) (l.flatMap sp ++ r) = (l.map bare, r) := by
  induction l with
  | nil => rfl
  | cons a l ih => simp [putList, List.append_assoc, h, ih]

def putM : MeasureDetail → List Str → MeasureDetail × List Str
  | .measure e ty ids, w =>
    (.measure (putE e w).1 ty (ids.take 1 ++ (putE e w).2.take (ids.length - 1)), (putE e w).2.drop (ids.length - 1))
  | .filter e, w => (.filter (putE e w).1, (putE e w).2)
  | .invocation id, w => (.invocation id, w)
  | .sort e by_, w => (.sort (putE e w).1 by_, (putE e w).2)

theorem putM_spelled (d : MeasureDetail) (r : List Str) : putM d.low (spelledM d ++ r) = (bareM d, r) := by
  cases d with
  | measure e ty ids =>
    cases ids <;> simp [MeasureDetail.low, spelledM, putM, bareM, lowHead, List.append_assoc, putE_spelled]
  | _ => simp [MeasureDetail.low, spelledM, putM, bareM, putE_spelled]

def putD : Detail → List Str → Detail × List Str
  | .common, w => (.common, w)
  | .schema _, w => (.schema (w.headD []), w.tail)
  | .filter words e, w => (.filter words (putE e w).1, (putE e w).2)
  | .expression e n, w => (.expression (putE e w).1 (fillO n (putE e w).2).1, (fillO n (putE e w).2).2)
  | .extension, w => (.extension, w)
  | .source _, w => (.source (w.headD []), w.tail)
  | .grouping e, w => (.grouping (putE e w).1, (putE e w).2)
  | .measure ds, w => (.measure (putList putM ds w).1, (putList putM ds w).2)
  | .sort e by_, w => (.sort (putE e w).1 by_, (putE e w).2)
  | .count _, w => (.count (w.headD []), w.tail)
  | .type id, w => (.type id, w)
  | .emit s _, w => (.emit (fillO s w).1 ((fillO s w).2.headD []), (fillO s w).2.tail)

theorem putD_spelled (d : Detail) (r : List Str) : putD d.low (spelledD d ++ r) = (bareD d, r) := by
  cases d <;> simp [Detail.low, spelledD, putD, bareD, putE_spelled, putList_spelled putM_spelled, List.append_assoc]

def putRel (t : RelTree) (w : List Str) : RelTree × List Str :=
  (⟨t.type, ⟨w.headD [], t.ref.schema⟩, (putList putD t.details w.tail).1⟩, (putList putD t.details w.tail).2)

theorem putRel_spelled (t : RelTree) (r : List Str) : putRel t.low (spelledRel t ++ r) = (bareRel t, r) := by
  simp [RelTree.low, spelledRel, putRel, bareRel, putList_spelled putD_spelled]

def putF : Sec.FileDetail → List Str → Sec.FileDetail × List Str
  | .partition _, w => (.partition (w.headD []), w.tail)
  | .start _, w => (.start (w.headD []), w.tail)
  | .length _, w => (.length (w.headD []), w.tail)
  | .file _, w => (.file (w.headD []), w.tail)
  | .orc, w => (.orc, w)
  | .parquet, w => (.parquet, w)
  | .location, w => (.location, w)

theorem putF_spelled (d : Sec.FileDetail) (r : List Str) : putF d.low (spelledF d ++ r) = (id d, r) := by
  cases d <;> simp [Sec.FileDetail.low, spelledF, putF]

def putFile (t : Sec.FileTree) (w : List Str) : Sec.FileTree × List Str :=
  (⟨w.headD [], (putList putF t.details w.tail).1⟩, (putList putF t.details w.tail).2)

theorem putFile_spelled (t : Sec.FileTree) (r : List Str) : putFile t.low (spelledFile t ++ r) = (id t, r) := by
  simp [Sec.FileTree.low, spelledFile, putFile, putList_spelled putF_spelled]

def putSource : Sec.SourceTree → List Str → Sec.SourceTree × List Str
  | .localFiles _ fs, w => (.localFiles (w.headD []) (putList putFile fs w.tail).1, (putList putFile fs w.tail).2)
  | .virtualTable _, w => (.virtualTable (w.headD []), w.tail)
  | .namedTable _ ss, w => (.namedTable (w.headD []) (w.tail.take ss.length), w.tail.drop ss.length)
  | .extensionTable _, w => (.extensionTable (w.headD []), w.tail)

theorem putSource_spelled (t : Sec.SourceTree) (r : List Str) : putSource t.low (spelledSource t ++ r) = (t, r) := by
  cases t <;> simp [Sec.SourceTree.low, spelledSource, putSource, putList_spelled putFile_spelled]

def putFun (t : Ext.FunctionTree) (w : List Str) : Ext.FunctionTree × List Str :=
  (⟨w.headD [], (fillO t.alias w.tail).1⟩, (fillO t.alias w.tail).2)

theorem putFun_spelled (t : Ext.FunctionTree) (r : List Str) : putFun t.low (spelledFun t ++ r) = (id t, r) := by
  simp [Ext.FunctionTree.low, spelledFun, putFun]

def putRef (_ : Pipe.Ref) (w : List Str) : Pipe.Ref × List Str := (⟨w.headD [], w.tail.headD []⟩, w.tail.tail)

theorem putRef_spelled (t : Pipe.Ref) (r : List Str) : putRef t.low ([t.name, t.text] ++ r) = (id t, r) := by
  simp [putRef]

def putColumn (c : Str × TypeTree) (w : List Str) : (Str × TypeTree) × List Str := ((w.headD [], c.2), w.tail)

theorem putColumn_spelled (c : Str × TypeTree) (r : List Str) :
    putColumn (Sec.lowColumn c) ([c.1] ++ r) = (bareColumn c, r) := by
  simp [putColumn, Sec.lowColumn, bareColumn]

def putP : Sec.PlanDetail → List Str → Sec.PlanDetail × List Str
  | .pipelines ps, w => (.pipelines (putList (putList putRef) ps w).1, (putList (putList putRef) ps w).2)
  | .relation t, w => (.relation (putRel t w).1, (putRel t w).2)
  | .root names, w => (.root (w.take names.length), w.drop names.length)
  | .schema _ cs, w => (.schema (w.headD []) (putList putColumn cs w.tail).1, (putList putColumn cs w.tail).2)
  | .source t, w => (.source (putSource t w).1, (putSource t w).2)
  | .space t, w =>
    (.space ⟨(fillO t.uri w).1, (putList putFun t.functions (fillO t.uri w).2).1⟩,
      (putList putFun t.functions (fillO t.uri w).2).2)

theorem putRefs_spelled (l : List Pipe.Ref) (r : List Str) :
    putList putRef (l.map Pipe.Ref.low) (l.flatMap (fun r => [r.name, r.text]) ++ r) = (id l, r) := by
  rw [putList_spelled putRef_spelled, List.map_id]
  rfl

theorem refWords (ps : List (List Pipe.Ref)) :
    ps.flatten.flatMap (fun r => [r.name, r.text]) = ps.flatMap (List.flatMap fun r => [r.name, r.text]) := by
  induction ps with
  | nil => rfl
  | cons p ps ih => simp [List.flatMap_append, ih]

theorem columnWords (cs : List (Str × TypeTree)) : cs.flatMap (fun c => [c.1]) = cs.map (·.1) := by
  induction cs with
  | nil => rfl
  | cons c cs ih => rw [List.flatMap_cons, ih]; rfl

theorem putP_spelled (d : Sec.PlanDetail) (r : List Str) : putP d.low (spelledP d ++ r) = (bareP d, r) := by
  cases d with
  | pipelines ps =>
    have := putList_spelled (low := List.map Pipe.Ref.low) (bare := id) putRefs_spelled ps r
    simp only [List.map_id] at this
    simp only [Sec.PlanDetail.low, spelledP, putP, bareP, refWords]
    rw [this]
  | relation t => simp [Sec.PlanDetail.low, spelledP, putP, bareP, putRel_spelled]
  | root names => simp [Sec.PlanDetail.low, spelledP, putP, bareP]
  | schema id cs =>
    have := putList_spelled putColumn_spelled cs r
    rw [columnWords] at this
    simp [Sec.PlanDetail.low, spelledP, putP, bareP, this]
  | source t => simp [Sec.PlanDetail.low, spelledP, putP, bareP, putSource_spelled]
  | space t =>
    simp [Sec.PlanDetail.low, Ext.SpaceTree.low, spelledP, putP, bareP, List.append_assoc,
      putList_spelled putFun_spelled]

/-- Details in lower case and what is spelled in them tell all that counts. -/
theorem bare_eq {ds ds' : List Sec.PlanDetail} (h : ds.map Sec.PlanDetail.low = ds'.map Sec.PlanDetail.low)
    (hs : ds.flatMap spelledP = ds'.flatMap spelledP) : ds.map bareP = ds'.map bareP := by
  have h1 := putList_spelled putP_spelled ds []
  have h2 := putList_spelled putP_spelled ds' []
  rw [h, hs, h2] at h1
  exact (congrArg Prod.fst h1).symm

end Verif.Case
