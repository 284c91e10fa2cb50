import Verif.Spec.Unused
import Verif.Lemmas.OrderTable

/-! # What is read depends on the names that are used only -/

namespace Verif.Expr

open Verif Verif.Lex Verif.Tree Verif.Whole

/-- The context with another table of functions and relations. -/
def asking (fa : Str → Option Nat) (rl : Str → Option Bool) (c : Context) : Context :=
  { c with functionAnchor := fa, relation := rl }

variable {fa : Str → Option Nat} {rl : Str → Option Bool} {c : Context} {inside : Bool}

/-- The tables say the same of these names. -/
def Says (fa : Str → Option Nat) (rl : Str → Option Bool) (c : Context) (ns : List Str) : Prop :=
  ∀ n ∈ ns, fa n = c.functionAnchor n ∧ rl n = c.relation n

theorem readFunction_asking {id : Str} (h : fa id = c.functionAnchor id) :
    readFunction (asking fa rl c) id = readFunction c id := by
  unfold readFunction
  rw [show (asking fa rl c).functionAnchor id = c.functionAnchor id from h]

theorem withRelation_asking {ref : RelRef} {m : PbExpr × List RErr} {f g : Str → Got PbExpr}
    (h : rl ref.text = c.relation ref.text) (hf : ∀ n, f n = g n) :
    withRelation (asking fa rl c) ref m f = withRelation c ref m g := by
  unfold withRelation
  rw [show (asking fa rl c).relation ref.text = c.relation ref.text from h]
  split <;> simp [hf]

mutual
theorem visit_asking : ∀ e : ExprTree, Says fa rl c (namesIn e) →
    visit (asking fa rl c) e = visit c e
  | .call id args x ty, h => by
    have h1 : fa id = c.functionAnchor id := (h id (by simp [namesIn])).1
    have h2 : Says fa rl c (namesInL args) := fun n hn => h n (by simp [namesIn, hn])
    simp only [visit]
    rw [visitList_asking args h2, visitArgs_asking args h2, readFunction_asking h1]
  | .const k, _ => by simp only [visit]; rfl
  | .column s i, _ => by simp only [visit]; rfl
  | .cast e x ty, h => by
    simp only [visit]
    rw [visit_asking e (by simpa [namesIn] using h)]
  | .scalarSubquery x ref, h => by
    simp only [visit]
    exact withRelation_asking (h ref.text (by simp [namesIn])).2 fun _ => rfl
  | .inSubquery es x ref, h => by
    simp only [visit]
    refine withRelation_asking (h ref.text (by simp [namesIn])).2 fun n => ?_
    rw [visitList_asking es fun n hn => h n (by simp [namesIn, hn])]
  | .setPredicate a x ref, h => by
    simp only [visit]
    exact withRelation_asking (h ref.text (by simp [namesIn])).2 fun _ => rfl
  | .setComparison e op al x ref, h => by
    simp only [visit]
    rw [visit_asking e fun n hn => h n (by simp [namesIn, hn])]
    congr 1
    funext l
    exact withRelation_asking (h ref.text (by simp [namesIn])).2 fun _ => rfl
theorem visitArgs_asking : ∀ es : List ExprTree, Says fa rl c (namesInL es) →
    visitArgs (asking fa rl c) es = visitArgs c es
  | [], _ => by simp only [visitArgs]
  | e :: es, h => by
    simp only [visitArgs]
    rw [visit_asking e fun n hn => h n (by simp [namesInL, hn]),
      visitArgs_asking es fun n hn => h n (by simp [namesInL, hn])]
theorem visitList_asking : ∀ es : List ExprTree, Says fa rl c (namesInL es) →
    visitList (asking fa rl c) es = visitList c es
  | [], _ => by simp only [visitList]
  | e :: es, h => by
    simp only [visitList]
    rw [visit_asking e fun n hn => h n (by simp [namesInL, hn]),
      visitList_asking es fun n hn => h n (by simp [namesInL, hn])]
end

mutual
theorem first_asking : ∀ e : ExprTree, Says fa rl c (namesIn e) →
    first (asking fa rl c) inside e = first c inside e
  | .call id args x ty, h => by
    have h1 : fa id = c.functionAnchor id := (h id (by simp [namesIn])).1
    have h2 : Says fa rl c (namesInL args) := fun n hn => h n (by simp [namesIn, hn])
    simp only [first]
    rw [firstList_asking args h2, firstArgs_asking args h2, readFunction_asking h1]
  | .const k, _ => by simp only [first]; rfl
  | .column s i, _ => by simp only [first]; rfl
  | .cast e x ty, h => by
    simp only [first]
    rw [first_asking e (by simpa [namesIn] using h)]
  | .scalarSubquery x ref, h => by simp only [first]
  | .inSubquery es x ref, h => by
    simp only [first]
    rw [firstList_asking es fun n hn => h n (by simp [namesIn, hn])]
  | .setPredicate a x ref, h => by simp only [first]
  | .setComparison e op al x ref, h => by
    simp only [first]
    rw [first_asking e fun n hn => h n (by simp [namesIn, hn])]
theorem firstArgs_asking : ∀ es : List ExprTree, Says fa rl c (namesInL es) →
    firstArgs (asking fa rl c) inside es = firstArgs c inside es
  | [], _ => by simp only [firstArgs]
  | e :: es, h => by
    simp only [firstArgs]
    rw [first_asking e fun n hn => h n (by simp [namesInL, hn]),
      firstArgs_asking es fun n hn => h n (by simp [namesInL, hn])]
theorem firstList_asking : ∀ es : List ExprTree, Says fa rl c (namesInL es) →
    firstList (asking fa rl c) inside es = firstList c inside es
  | [], _ => by simp only [firstList]
  | e :: es, h => by
    simp only [firstList]
    rw [first_asking e fun n hn => h n (by simp [namesInL, hn]),
      firstList_asking es fun n hn => h n (by simp [namesInL, hn])]
end

end Verif.Expr

namespace Verif.Rel

open Verif Verif.Lex Verif.Tree Verif.Expr Verif.Whole

/-- The context with another symbol table. -/
def asking (fa : Str → Option Nat) (rl : Str → Option Bool) (so : Str → Option SourceSymbol)
    (sc : Str → Option (List Schema.Field)) (c : RelContext) : RelContext :=
  { c with expr := Expr.asking fa rl c.expr, source := so, schema := sc }

variable {fa : Str → Option Nat} {rl : Str → Option Bool} {so : Str → Option SourceSymbol}
  {sc : Str → Option (List Schema.Field)} {c : RelContext} {pass : Bool}

structure SaysAll (fa : Str → Option Nat) (rl : Str → Option Bool) (so : Str → Option SourceSymbol)
    (sc : Str → Option (List Schema.Field)) (c : RelContext) (ns : List Str) : Prop where
  expr : Says fa rl c.expr ns
  source : ∀ n ∈ ns, so n = c.source n
  schema : ∀ n ∈ ns, sc n = c.schema n

theorem SaysAll.mono {ns ms : List Str} (h : SaysAll fa rl so sc c ns) (hm : ∀ n ∈ ms, n ∈ ns) :
    SaysAll fa rl so sc c ms :=
  ⟨fun n hn => h.expr n (hm n hn), fun n hn => h.source n (hm n hn),
    fun n hn => h.schema n (hm n hn)⟩

theorem value_asking {d : Schema.RelData} {t : ExprTree} (h : SaysAll fa rl so sc c (namesIn t)) :
    value pass (asking fa rl so sc c) d t = value pass c d t := by
  have h' : Says fa rl { c.expr with readScopes := d :: c.outer } (namesIn t) := h.expr
  have h1 := visit_asking (fa := fa) (rl := rl) t h'
  have h2 := first_asking (fa := fa) (rl := rl) (inside := c.inside) t h'
  unfold value
  show (if pass then Expr.first (Expr.asking fa rl { c.expr with readScopes := d :: c.outer })
    c.inside t else (visit (Expr.asking fa rl { c.expr with readScopes := d :: c.outer }) t).map _) = _
  rw [h1, h2]

theorem exprValue_asking {d : Schema.RelData} {t : ExprTree}
    (h : SaysAll fa rl so sc c (namesIn t)) :
    exprValue pass (asking fa rl so sc c) d t = exprValue pass c d t := by
  unfold exprValue
  rw [value_asking h]

theorem readSortField_asking {d : Schema.RelData} {t : ExprTree} {b : Option Str}
    (h : SaysAll fa rl so sc c (namesIn t)) :
    readSortField pass (asking fa rl so sc c) d t b = readSortField pass c d t b := by
  unfold readSortField
  rw [exprValue_asking h]

theorem readMeasureDetails_asking {k : Nat} :
    ∀ (ds : List MeasureDetail) (d : Schema.RelData) (m : MeasureState),
    SaysAll fa rl so sc c (ds.flatMap measureNames) →
    readMeasureDetails pass (asking fa rl so sc c) k d m ds = readMeasureDetails pass c k d m ds
  | [], _, _, _ => rfl
  | x :: ds, d, m, h => by
    have h2 : SaysAll fa rl so sc c (ds.flatMap measureNames) := h.mono fun n hn => by
      rw [List.flatMap_cons]; exact List.mem_append_right _ hn
    have h1 : SaysAll fa rl so sc c (measureNames x) := h.mono fun n hn => by
      rw [List.flatMap_cons]; exact List.mem_append_left _ hn
    have ih := fun d m => readMeasureDetails_asking (k := k) ds d m h2
    cases x with
    | measure e ty ids =>
      simp only [readMeasureDetails]
      rw [exprValue_asking h1]
      simp only [ih]
      rfl
    | filter e =>
      simp only [readMeasureDetails]
      rw [exprValue_asking h1]
      simp only [ih]
    | invocation id => simp only [readMeasureDetails, ih]
    | sort e b =>
      simp only [readMeasureDetails]
      rw [readSortField_asking h1]
      simp only [ih]

theorem readDetail_asking {st : State} {d : Detail} (h : SaysAll fa rl so sc c (detailNames d)) :
    readDetail pass (asking fa rl so sc c) st d = readDetail pass c st d := by
  cases d with
  | schema id =>
    simp only [readDetail, readSchema]
    rw [show (asking fa rl so sc c).schema id = c.schema id from h.schema id (by simp [detailNames])]
  | source id =>
    simp only [readDetail, readSource]
    rw [show (asking fa rl so sc c).source id = c.source id from h.source id (by simp [detailNames])]
  | filter w e => simp only [readDetail, readFilter]; rw [value_asking h]
  | expression e n => simp only [readDetail, readExpression]; rw [value_asking h]; rfl
  | grouping e => simp only [readDetail, readGrouping]; rw [value_asking h]
  | measure ds => simp only [readDetail, readMeasure]; rw [readMeasureDetails_asking _ _ _ h]
  | sort e b =>
    simp only [readDetail, readSort]
    split
    · rw [readSortField_asking h]
    · rfl
  | _ => rfl

theorem readDetails_asking : ∀ {ds : List Detail} {st : State},
    SaysAll fa rl so sc c (ds.flatMap detailNames) →
    readDetails pass (asking fa rl so sc c) st ds = readDetails pass c st ds
  | [], _, _ => rfl
  | d :: ds, st, h => by
    rw [List.flatMap_cons] at h
    unfold readDetails
    rw [readDetail_asking (h.mono fun n hn => List.mem_append_left _ hn)]
    congr 1
    funext r
    rw [readDetails_asking (h.mono fun n hn => List.mem_append_right _ hn)]

theorem addExpressions_asking (ns : List Str) : ∀ (es : List PbExpr) (d : Schema.RelData) (k : Nat),
    addExpressions pass (asking fa rl so sc c) ns d k es = addExpressions pass c ns d k es
  | [], _, _ => by unfold addExpressions; rfl
  | e :: es, d, k => by
    unfold addExpressions
    split <;> rename_i heq
    · simp at heq
    · injection heq with h1 h2
      subst h2
      simp only [addExpressions_asking ns es]
    · injection heq with h1 h2
      subst h2
      simp only [addExpressions_asking ns es]
      rfl

theorem readEmits_asking : ∀ (ds : List Detail) (st : State),
    readEmits pass (asking fa rl so sc c) st ds = readEmits pass c st ds
  | [], _ => rfl
  | d :: ds, st => by
    cases d <;> simp only [readEmits, readEmits_asking ds] <;> rfl

/-- A relation is read with what the table says of the names in its details. -/
theorem readPass_asking {k : Enum.RelType} {ds : List Detail} {ns : List Str}
    (h : SaysAll fa rl so sc c (ds.flatMap detailNames)) :
    readPass pass (asking fa rl so sc c) k ds ns = readPass pass c k ds ns := by
  have ha : ∀ st, addProject pass (asking fa rl so sc c) st = addProject pass c st := by
    intro st
    unfold addProject
    split <;> simp only [addExpressions_asking]
  unfold readPass
  rw [readDetails_asking h]
  simp only [ha, readEmits_asking]
  rfl

/-- The source of a relation. -/
def sourceIn : Body → Option Str
  | .read s _ _ _ _ => s
  | _ => none

theorem sourceIn_withFilters (f : Filter.Filters PbExpr) (b : Body) :
    sourceIn (withFilters f b) = sourceIn b := by
  cases b <;> rfl

theorem readDetail_source {first : Bool} {c : RelContext} {st : State} {d : Detail}
    {r : State × List ReadErr} (h : readDetail first c st d = .ok r) :
    sourceIn r.1.body = sourceIn st.body ∨ ∃ id, d = .source id ∧ sourceIn r.1.body = some id := by
  cases d with
  | common => cases h; exact .inl rfl
  | extension => cases h; exact .inl rfl
  | emit s i => cases h; exact .inl rfl
  | schema id =>
    simp only [readDetail, readSchema] at h
    split at h <;> rename_i hb
    · split at h
      · cases h; rw [hb]; exact .inl rfl
      · cases h; exact .inl rfl
    · cases h; exact .inl rfl
  | filter ws e =>
    simp only [readDetail, readFilter] at h
    obtain ⟨v, -, h⟩ := Outcome.of_bind h
    split at h
    all_goals
      split at h
      · cases h
      · cases h; exact .inl (sourceIn_withFilters _ _)
  | expression e n =>
    simp only [readDetail, readExpression] at h
    obtain ⟨v, -, h⟩ := Outcome.of_bind h
    split at h <;> rename_i hb
    · cases h; exact .inl rfl
    · obtain ⟨e, h⟩ := of_asExpr h
      cases h; rw [hb]; exact .inl rfl
    · obtain ⟨e, h⟩ := of_asExpr h
      cases h; rw [hb]; exact .inl rfl
    · cases h; exact .inl rfl
  | source id =>
    simp only [readDetail, readSource] at h
    split at h
    · split at h
      · cases h; exact .inr ⟨id, rfl, rfl⟩
      · cases h; exact .inr ⟨id, rfl, rfl⟩
      · cases h
      · cases h; exact .inl rfl
    · cases h; exact .inl rfl
  | grouping e =>
    simp only [readDetail, readGrouping] at h
    obtain ⟨v, -, h⟩ := Outcome.of_bind h
    split at h <;> rename_i hb
    · obtain ⟨e, h⟩ := of_asExpr h
      obtain ⟨d, -, h⟩ := Outcome.of_map h
      subst h; rw [hb]; exact .inl rfl
    · cases h; exact .inl rfl
  | measure ds =>
    simp only [readDetail, readMeasure] at h
    obtain ⟨v, -, h⟩ := Outcome.of_map h
    subst h
    split <;> rename_i hb
    · rw [hb]; exact .inl rfl
    · exact .inl rfl
  | sort e b =>
    simp only [readDetail, readSort] at h
    split at h <;> rename_i hb
    · obtain ⟨v, -, h⟩ := Outcome.of_map h
      subst h; rw [hb]; exact .inl rfl
    · cases h; exact .inl rfl
  | count t =>
    simp only [readDetail, readCount] at h
    split at h <;> rename_i hb
    · obtain ⟨v, -, h⟩ := Outcome.of_map h
      subst h; rw [hb]; exact .inl rfl
    · cases h; exact .inl rfl
  | type id =>
    simp only [readDetail, readJoinType] at h
    split at h <;> rename_i hb
    · cases h; rw [hb]; exact .inl rfl
    · cases h; exact .inl rfl

theorem readDetails_source {first : Bool} {c : RelContext} :
    ∀ {ds : List Detail} {st : State} {r : State × List ReadErr},
      readDetails first c st ds = .ok r →
      sourceIn r.1.body = sourceIn st.body ∨ ∃ id, .source id ∈ ds ∧ sourceIn r.1.body = some id
  | [], _, _, h => by cases h; exact .inl rfl
  | d :: ds, st, r, h => by
    unfold readDetails at h
    obtain ⟨a, h1, h⟩ := Outcome.of_bind h
    obtain ⟨b, h2, h⟩ := Outcome.of_map h
    subst h
    rcases readDetails_source h2 with h3 | ⟨id, h3, h4⟩
    · rcases readDetail_source h1 with h5 | ⟨id, rfl, h6⟩
      · exact .inl (h3.trans h5)
      · exact .inr ⟨id, by simp, h3.trans h6⟩
    · exact .inr ⟨id, by simp [h3], h4⟩

/-- The source of a relation that has been read is named in its details. -/
theorem readPass_source {first : Bool} {c : RelContext} {k : Enum.RelType} {ds : List Detail}
    {ns : List Str} {r : State × List ReadErr} (h : readPass first c k ds ns = .ok r) {id : Str}
    (hs : sourceIn r.1.body = some id) : .source id ∈ ds := by
  have h0 : sourceIn (startState first c k ns).body = none := by cases k <;> rfl
  unfold readPass at h
  obtain ⟨a, h1, h⟩ := Outcome.of_bind h
  obtain ⟨b, h2, h⟩ := Outcome.of_bind h
  have hb : sourceIn b.body = sourceIn a.1.body := by
    unfold addProject at h2
    split at h2 <;> rename_i he
    · obtain ⟨d, -, h2⟩ := Outcome.of_map h2
      subst h2; rfl
    · cases h2; rfl
  have hr : sourceIn r.1.body = sourceIn b.body := by
    split at h
    · cases h; rfl
    · obtain ⟨d, h3, h⟩ := Outcome.of_map h
      subst h
      unfold finish at h3
      obtain ⟨e, -, h3⟩ := Outcome.of_map h3
      subst h3
      rw [← readEmits_keepsBody first c ds b]
      simp only
      split <;> rename_i he
      · rw [he]; rfl
      · rfl
  rcases readDetails_source h1 with h3 | ⟨id', h3, h4⟩
  · rw [hr, hb, h3, h0] at hs; cases hs
  · rw [hr, hb, h4] at hs
    injection hs with hs
    exact hs ▸ h3

end Verif.Rel
