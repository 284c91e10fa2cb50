import Verif.Lemmas.RenameExpr

/-! # Reading relations with other names -/

namespace Verif.Rel

open Verif Verif.Lex Verif.Tree Verif.Expr Verif.Whole

def PbSort.ren (ρ : Str → Str) (s : PbSort) : PbSort := ⟨renP ρ s.expr, s.kind⟩

def PbAggregate.ren (ρ : Str → Str) (f : PbAggregate) : PbAggregate :=
  ⟨f.function, f.options, renPArgs ρ f.arguments, renPs ρ f.args, f.output, f.phase, f.invocation,
    f.sorts.map (PbSort.ren ρ)⟩

def PbMeasure.ren (ρ : Str → Str) (m : PbMeasure) : PbMeasure :=
  ⟨m.measure.map (PbAggregate.ren ρ), m.filter.map (renP ρ)⟩

/-- The relation with other names for what it refers to. -/
def Body.ren (ρ : Str → Str) : Body → Body
  | .read s t f b p => .read (s.map ρ) (t.map ρ) (f.map (renP ρ)) (b.map (renP ρ)) p
  | .filter f => .filter (f.map (renP ρ))
  | .fetch o n => .fetch o n
  | .aggregate gs ms => .aggregate (gs.map (renPs ρ)) (ms.map (PbMeasure.ren ρ))
  | .sort ss => .sort (ss.map (PbSort.ren ρ))
  | .project es => .project (renPs ρ es)
  | .join t e p => .join t (e.map (renP ρ)) (p.map (renP ρ))
  | .cross => .cross
  | .other => .other

def State.ren (ρ : Str → Str) (st : State) : State :=
  ⟨st.body.ren ρ, st.emit, st.data.ren ρ, st.names.map ρ⟩

def renStep (ρ : Str → Str) (r : State × List ReadErr) : State × List ReadErr := (r.1.ren ρ, r.2)

/-- The tables of `c'` say of the other names what those of `c` say. -/
structure TurnsAll (ρ : Str → Str) (c c' : RelContext) : Prop where
  spelling : Spelling ρ
  lib : c'.expr.lib = c.expr.lib
  anchor : ∀ n, c'.expr.functionAnchor (ρ n) = c.expr.functionAnchor n
  relation : ∀ n, c'.expr.relation (ρ n) = c.expr.relation n
  name : c'.name = ρ c.name
  inside : c'.inside = c.inside
  inputs : c'.inputs = c.inputs.map (Schema.Field.ren ρ)
  firstInputs : c'.firstInputs = c.firstInputs.map (Schema.Field.ren ρ)
  outer : c'.outer = c.outer.map (Schema.RelData.ren ρ)
  source : ∀ n, c'.source (ρ n) = c.source n
  schema : ∀ n, c'.schema (ρ n) = (c.schema n).map (·.map (Schema.Field.ren ρ))
  fresh : ∀ k, c'.fresh k = ρ (c.fresh k)

variable {ρ : Str → Str} {c c' : RelContext} {pass : Bool}

/-- An expression that can have the other names. -/
def Kept (ρ : Str → Str) (e : ExprTree) : Prop := calm ρ e = true

theorem value_ren (h : TurnsAll ρ c c') {d : Schema.RelData} {t : ExprTree} (ht : Kept ρ t) :
    value pass c' (d.ren ρ) (renE ρ t) = (value pass c d t).map (renV ρ) := by
  have hx : Turns ρ { c.expr with readScopes := d :: c.outer }
      { c'.expr with readScopes := d.ren ρ :: c'.outer } :=
    ⟨h.spelling, h.lib, by simp [h.outer], h.anchor, h.relation⟩
  unfold value
  simp only
  rw [visit_ren hx t ht, first_ren hx _ t ht, h.inside]
  split
  · rfl
  · cases visit { c.expr with readScopes := d :: c.outer } t <;> rfl

theorem exprValue_ren (h : TurnsAll ρ c c') {d : Schema.RelData} {t : ExprTree} (ht : Kept ρ t) :
    exprValue pass c' (d.ren ρ) (renE ρ t) = (exprValue pass c d t).map (renR ρ) := by
  unfold exprValue
  rw [value_ren h ht]
  cases value pass c d t with
  | throw e => rfl
  | ub => rfl
  | ok v => exact asExpr_ren fun e => rfl

theorem filterKind_ren (b : Body) : filterKind (b.ren ρ) = filterKind b := by cases b <;> rfl

def renFilters (ρ : Str → Str) (f : Filter.Filters PbExpr) : Filter.Filters PbExpr :=
  ⟨f.filter.map (renP ρ), f.bestEffort.map (renP ρ), f.postJoin.map (renP ρ),
    f.condition.map (renP ρ)⟩

theorem filtersOf_ren (b : Body) : filtersOf (b.ren ρ) = renFilters ρ (filtersOf b) := by
  cases b <;> rfl

theorem withFilters_ren (f : Filter.Filters PbExpr) (b : Body) :
    withFilters (renFilters ρ f) (b.ren ρ) = (withFilters f b).ren ρ := by
  cases b <;> rfl

def renResult (ρ : Str → Str) (r : Filter.Result PbExpr) : Filter.Result PbExpr :=
  ⟨renFilters ρ r.filters, r.errs, r.threw⟩

theorem assign_ren {old value : Option PbExpr} {s : Filter.Filters PbExpr}
    {errs : List Filter.FilterErr} {set set' : PbExpr → Filter.Filters PbExpr}
    (h : ∀ e, set' (renP ρ e) = renFilters ρ (set e)) :
    Filter.assign (old.map (renP ρ)) (value.map (renP ρ)) (renFilters ρ s) errs set' =
      renResult ρ (Filter.assign old value s errs set) := by
  unfold Filter.assign
  cases old with
  | some o => rfl
  | none =>
    cases value with
    | some v => simp [h, renResult]
    | none => rfl

theorem visitFilter_ren (k : Filter.RelationType) (s : Filter.Filters PbExpr) (w : Option Str)
    (x : Option PbExpr) :
    Filter.visitFilter k (renFilters ρ s) ⟨w, x.map (renP ρ)⟩ =
      renResult ρ (Filter.visitFilter k s ⟨w, x⟩) := by
  unfold Filter.visitFilter
  have hb : (⟨w, x.map (renP ρ)⟩ : Filter.Clause PbExpr).behavior =
      (⟨w, x⟩ : Filter.Clause PbExpr).behavior := rfl
  simp only [hb]
  cases k <;> try rfl
  · simp only
    split
    · exact assign_ren fun e => rfl
    · exact assign_ren fun e => rfl
    · rfl
  · simp only
    split
    · exact assign_ren fun e => rfl
    · rfl
  · simp only
    split
    · cases hs : s.condition with
      | some o => simp [renFilters, renResult, hs]
      | none => cases x <;> simp [renFilters, renResult, hs]
    · rfl

theorem readFilter_ren (h : TurnsAll ρ c c') {st : State} {w : Option Str} {t : ExprTree}
    (ht : Kept ρ t) :
    readFilter pass c' (st.ren ρ) w (renE ρ t) = (readFilter pass c st w t).map (renStep ρ) := by
  unfold readFilter
  rw [show (st.ren ρ).data = st.data.ren ρ from rfl, value_ren h ht]
  cases value pass c st.data t with
  | throw e => rfl
  | ub => rfl
  | ok v =>
    obtain ⟨v, er⟩ := v
    have e1 : (st.ren ρ).body = st.body.ren ρ := rfl
    simp only [Outcome.map, Outcome.bind_ok, renV, e1, filterKind_ren, filtersOf_ren]
    have close : ∀ (r : Filter.Result PbExpr),
        (if (renResult ρ r).threw = true then Outcome.throw Exc.invalidArgument
          else .ok (({ st.ren ρ with body := withFilters (renResult ρ r).filters (st.body.ren ρ) },
            er.map .expr ++ (renResult ρ r).errs.map .filter) : State × List ReadErr)) =
        Outcome.map (renStep ρ) (if r.threw = true then Outcome.throw Exc.invalidArgument
          else .ok (({ st with body := withFilters r.filters st.body },
            er.map .expr ++ r.errs.map .filter) : State × List ReadErr)) := by
      intro r
      cases hr : r.threw
      · simp [renResult, hr, Outcome.map, renStep, State.ren, withFilters_ren]
      · simp [renResult, hr, Outcome.map]
    cases v with
    | nothing =>
      have hv := visitFilter_ren (ρ := ρ) (filterKind st.body) (filtersOf st.body) w none
      have := close (Filter.visitFilter (filterKind st.body) (filtersOf st.body) ⟨w, none⟩)
      rw [← hv] at this
      exact this
    | list es =>
      have hv := visitFilter_ren (ρ := ρ) (filterKind st.body) (filtersOf st.body) w none
      have := close (Filter.visitFilter (filterKind st.body) (filtersOf st.body) ⟨w, none⟩)
      rw [← hv] at this
      exact this
    | expr e =>
      have hv := visitFilter_ren (ρ := ρ) (filterKind st.body) (filtersOf st.body) w (some e)
      have := close (Filter.visitFilter (filterKind st.body) (filtersOf st.body) ⟨w, some e⟩)
      rw [← hv] at this
      exact this

theorem readSchema_ren (h : TurnsAll ρ c c') {st : State} {id : Str} :
    readSchema c' (st.ren ρ) (ρ id) = (readSchema c st id).map (renStep ρ) := by
  obtain ⟨b, em, d, ns⟩ := st
  unfold readSchema
  cases b <;> simp only [State.ren, Body.ren] <;> try rfl
  rw [h.schema id]
  cases c.schema id with
  | none => rfl
  | some cols => simp [Outcome.map, renStep, State.ren, Body.ren, Schema.RelData.ren]

theorem readSource_ren (h : TurnsAll ρ c c') {st : State} {id : Str} :
    readSource c' (st.ren ρ) (ρ id) = (readSource c st id).map (renStep ρ) := by
  obtain ⟨b, em, d, ns⟩ := st
  unfold readSource
  cases b <;> simp only [State.ren, Body.ren] <;> try rfl
  rw [h.source id]
  split <;> rfl

theorem readExpression_ren (h : TurnsAll ρ c c') {st : State} {t : ExprTree} {named : Option Str}
    (ht : Kept ρ t) :
    readExpression pass c' (st.ren ρ) (renE ρ t) (named.map ρ) =
      (readExpression pass c st t named).map (renStep ρ) := by
  obtain ⟨b, em, d, ns⟩ := st
  unfold readExpression
  rw [show (State.ren ρ ⟨b, em, d, ns⟩).data = d.ren ρ from rfl, value_ren h ht]
  cases value pass c d t with
  | throw e => rfl
  | ub => rfl
  | ok v =>
    simp only [Outcome.map, Outcome.bind_ok, State.ren]
    cases b <;> simp only [Body.ren] <;> try rfl
    · refine asExpr_ren fun e => ?_
      have hn : ∀ k, (named.map ρ).getD (c'.fresh k) = ρ (named.getD (c.fresh k)) := by
        intro k
        cases named <;> simp [h.fresh]
      simp only [Outcome.map, renStep, State.ren, Body.ren, renPs_append, renPs, renPs_length, renV, hn]
      cases pass <;> simp
    · rename_i ty e p
      cases e with
      | some e => rfl
      | none => exact asExpr_ren fun e => rfl

theorem rooted_ren (e : PbExpr) : rooted (renP ρ e) = renP ρ (rooted e) := by
  cases e <;> simp [renP, rooted]

theorem addGrouping_ren (e : PbExpr) (gs : List (List PbExpr)) :
    addGrouping (renP ρ e) (gs.map (renPs ρ)) = (addGrouping e gs).map (renPs ρ) := by
  cases gs <;> simp [addGrouping, renPs, renPs_append]

theorem pushField_ren (d : Schema.RelData) (e : PbExpr) :
    pushField (d.ren ρ) (renP ρ e) = (pushField d e).map (Schema.RelData.ren ρ) := by
  cases e <;> simp only [renP] <;> try rfl
  rename_i s b
  cases s <;> simp only [pushField] <;> try rfl
  rw [show (d.ren ρ).fields = d.fields.map (Schema.Field.ren ρ) from rfl, Schema.vecAt_ren]
  cases Schema.vecAt d.fields _ <;> simp [Outcome.map, Schema.RelData.ren]

theorem readGrouping_ren (h : TurnsAll ρ c c') {st : State} {t : ExprTree} (ht : Kept ρ t) :
    readGrouping pass c' (st.ren ρ) (renE ρ t) = (readGrouping pass c st t).map (renStep ρ) := by
  obtain ⟨b, em, d, ns⟩ := st
  unfold readGrouping
  rw [show (State.ren ρ ⟨b, em, d, ns⟩).data = d.ren ρ from rfl, value_ren h ht]
  cases value pass c d t with
  | throw e => rfl
  | ub => rfl
  | ok v =>
    simp only [Outcome.map, Outcome.bind_ok, State.ren]
    cases b <;> simp only [Body.ren] <;> try rfl
    refine asExpr_ren fun e => ?_
    rw [pushField_ren, rooted_ren, addGrouping_ren]
    cases pushField d e <;> rfl

def renSortR (ρ : Str → Str) (r : PbSort × List ReadErr) : PbSort × List ReadErr := (r.1.ren ρ, r.2)

theorem readSortField_ren (h : TurnsAll ρ c c') {d : Schema.RelData} {t : ExprTree} {b : Option Str}
    (ht : Kept ρ t) :
    readSortField pass c' (d.ren ρ) (renE ρ t) b = (readSortField pass c d t b).map (renSortR ρ) := by
  unfold readSortField
  rw [exprValue_ren h ht]
  cases exprValue pass c d t with
  | throw e => rfl
  | ub => rfl
  | ok r => cases b <;> rfl

def MeasureState.ren (ρ : Str → Str) (m : MeasureState) : MeasureState :=
  ⟨m.measure.map (PbAggregate.ren ρ), m.filter.map (renP ρ), m.invocation,
    m.sorts.map (PbSort.ren ρ)⟩

def renAgg (ρ : Str → Str) (r : PbAggregate × List ReadErr) : PbAggregate × List ReadErr :=
  (r.1.ren ρ, r.2)

theorem aggregateOf_ren (e : PbExpr) (out : Option TyPb.PbType) (ids : List Str) :
    aggregateOf (renP ρ e) out (renIds ρ ids) = (aggregateOf e out ids).map (renAgg ρ) := by
  rcases ids with _ | ⟨a, _ | ⟨b, l⟩⟩ <;> cases e <;>
    simp [renP, renIds, aggregateOf, Outcome.map, renAgg, PbAggregate.ren, PbAggregate.empty, renPs,
      renPArgs] <;> rfl

theorem readMeasureType_ren (e : PbExpr) (ty : Option TypeTree) :
    readMeasureType (renP ρ e) ty = readMeasureType e ty := by
  cases e <;> simp only [renP] <;> cases ty <;> rfl

theorem pushMeasure_ren (h : TurnsAll ρ c c') (k : Nat) (ids : List Str) (d : Schema.RelData) :
    pushMeasure c' k (renIds ρ ids) (d.ren ρ) = (pushMeasure c k ids d).ren ρ := by
  rcases ids with _ | ⟨a, _ | ⟨b, l⟩⟩ <;>
    simp [renIds, pushMeasure, Schema.RelData.ren, Schema.Field.ren, Schema.Origin.ren, h.name,
      h.spelling.empty]

def renMR (ρ : Str → Str) (r : (Schema.RelData × MeasureState) × List ReadErr) :
    (Schema.RelData × MeasureState) × List ReadErr := ((r.1.1.ren ρ, r.1.2.ren ρ), r.2)

theorem readMeasureDetails_ren (h : TurnsAll ρ c c') {k : Nat} :
    ∀ (ds : List MeasureDetail) (d : Schema.RelData) (m : MeasureState),
    (∀ x ∈ ds, ∀ e ∈ measureExprs x, Kept ρ e) →
    readMeasureDetails pass c' k (d.ren ρ) (m.ren ρ) (ds.map (renMeasure ρ)) =
      (readMeasureDetails pass c k d m ds).map (renMR ρ)
  | [], _, _, _ => rfl
  | x :: ds, d, m, hk => by
    have hx := hk x (by simp)
    have ih := fun d m => readMeasureDetails_ren h (k := k) ds d m fun y hy => hk y (by simp [hy])
    cases x with
    | measure t ty ids =>
      have ht : Kept ρ t := hx t (by simp [measureExprs])
      simp only [List.map_cons, renMeasure, readMeasureDetails]
      rw [exprValue_ren h ht]
      cases exprValue pass c d t with
      | throw e => rfl
      | ub => rfl
      | ok e =>
        simp only [Outcome.map, Outcome.bind_ok, renR, readMeasureType_ren]
        cases readMeasureType e.1 ty with
        | throw e => rfl
        | ub => rfl
        | ok o =>
          simp only [Outcome.bind_ok, aggregateOf_ren]
          cases aggregateOf e.1 o.1 ids with
          | throw e => rfl
          | ub => rfl
          | ok f =>
            simp only [Outcome.map, Outcome.bind_ok, renAgg, pushMeasure_ren h]
            obtain ⟨ms, mf, mi, mo⟩ := m
            cases ms with
            | some a => rfl
            | none =>
              have := ih (pushMeasure c k ids d) ⟨some f.1, mf, mi, mo⟩
              simp only [MeasureState.ren, Option.map_none, Option.map_some] at this ⊢
              rw [this]
              cases readMeasureDetails pass c k (pushMeasure c k ids d) ⟨some f.1, mf, mi, mo⟩ ds <;> rfl
    | filter t =>
      have ht : Kept ρ t := hx t (by simp [measureExprs])
      simp only [List.map_cons, renMeasure, readMeasureDetails]
      rw [exprValue_ren h ht]
      cases exprValue pass c d t with
      | throw e => rfl
      | ub => rfl
      | ok e =>
        simp only [Outcome.map, Outcome.bind_ok, renR]
        obtain ⟨ms, mf, mi, mo⟩ := m
        cases mf with
        | some a => rfl
        | none =>
          have := ih d ⟨ms, some e.1, mi, mo⟩
          simp only [MeasureState.ren, Option.map_none, Option.map_some] at this ⊢
          rw [this]
          cases readMeasureDetails pass c k d ⟨ms, some e.1, mi, mo⟩ ds <;> rfl
    | invocation id =>
      simp only [List.map_cons, renMeasure, readMeasureDetails]
      have := ih d { m with invocation := (Enum.readInvocation id).1 }
      rw [show ({ m.ren ρ with invocation := (Enum.readInvocation id).1 } : MeasureState) =
        MeasureState.ren ρ { m with invocation := (Enum.readInvocation id).1 } from rfl, this]
      generalize readMeasureDetails pass c k d _ ds = o
      cases o <;> rfl
    | sort t b =>
      have ht : Kept ρ t := hx t (by simp [measureExprs])
      simp only [List.map_cons, renMeasure, readMeasureDetails]
      rw [readSortField_ren h ht]
      cases readSortField pass c d t b with
      | throw e => rfl
      | ub => rfl
      | ok s =>
        simp only [Outcome.map, Outcome.bind_ok, renSortR]
        have := ih d { m with sorts := m.sorts ++ [s.1] }
        rw [show ({ m.ren ρ with sorts := (m.ren ρ).sorts ++ [s.1.ren ρ] } : MeasureState) =
          MeasureState.ren ρ { m with sorts := m.sorts ++ [s.1] } by simp [MeasureState.ren], this]
        generalize readMeasureDetails pass c k d _ ds = o
        cases o <;> rfl

theorem measureOf_ren (m : MeasureState) : measureOf (m.ren ρ) = (measureOf m).ren ρ := by
  obtain ⟨ms, mf, mi, mo⟩ := m
  unfold measureOf
  simp only [MeasureState.ren, List.isEmpty_map]
  by_cases hi : mi = 0 <;> by_cases ho : mo.isEmpty = true <;> cases ms <;>
    simp [hi, ho, PbMeasure.ren, PbAggregate.ren, PbAggregate.empty, renPArgs, renPs]

theorem measureCount_ren (b : Body) : measureCount (b.ren ρ) = measureCount b := by
  cases b <;> simp [Body.ren, measureCount]

theorem readMeasure_ren (h : TurnsAll ρ c c') {st : State} {ds : List MeasureDetail}
    (hk : ∀ x ∈ ds, ∀ e ∈ measureExprs x, Kept ρ e) :
    readMeasure pass c' (st.ren ρ) (ds.map (renMeasure ρ)) =
      (readMeasure pass c st ds).map (renStep ρ) := by
  obtain ⟨b, em, d, ns⟩ := st
  unfold readMeasure
  simp only [State.ren, measureCount_ren]
  have := readMeasureDetails_ren (pass := pass) h (k := measureCount b) ds d ⟨none, none, 0, []⟩ hk
  rw [show MeasureState.ren ρ ⟨none, none, 0, []⟩ = ⟨none, none, 0, []⟩ from rfl] at this
  rw [this]
  cases readMeasureDetails pass c (measureCount b) d ⟨none, none, 0, []⟩ ds with
  | throw e => rfl
  | ub => rfl
  | ok r =>
    cases b <;> simp [Outcome.map, Body.ren, renStep, State.ren, renMR, measureOf_ren]

theorem readSort_ren (h : TurnsAll ρ c c') {st : State} {t : ExprTree} {b : Option Str}
    (ht : Kept ρ t) :
    readSort pass c' (st.ren ρ) (renE ρ t) b = (readSort pass c st t b).map (renStep ρ) := by
  obtain ⟨bd, em, d, ns⟩ := st
  unfold readSort
  cases bd <;> simp only [State.ren, Body.ren] <;> try rfl
  rw [readSortField_ren h ht]
  cases readSortField pass c d t b <;> simp [Outcome.map, renStep, State.ren, Body.ren, renSortR]

theorem readCount_ren (h : TurnsAll ρ c c') {st : State} {t : Str} :
    readCount c' (st.ren ρ) t = (readCount c st t).map (renStep ρ) := by
  obtain ⟨bd, em, d, ns⟩ := st
  unfold readCount
  cases bd <;> simp only [State.ren, Body.ren] <;> try rfl
  rw [h.lib]
  generalize Literal.visitNumber c.expr.lib t _ = o
  cases o <;> rfl

theorem readJoinType_ren {st : State} {id : Str} :
    readJoinType (st.ren ρ) id = (readJoinType st id).map (renStep ρ) := by
  obtain ⟨bd, em, d, ns⟩ := st
  unfold readJoinType
  cases bd <;> rfl

/-- A part of a relation that can have the other names. -/
def KeptDetail (ρ : Str → Str) (d : Detail) : Prop := ∀ e ∈ exprsOf d, Kept ρ e

theorem readDetail_ren (h : TurnsAll ρ c c') {st : State} {d : Detail} (hd : KeptDetail ρ d) :
    readDetail pass c' (st.ren ρ) (renDetail ρ d) = (readDetail pass c st d).map (renStep ρ) := by
  cases d with
  | common => rfl
  | extension => rfl
  | emit s i => rfl
  | schema id => exact readSchema_ren h
  | source id => exact readSource_ren h
  | filter w e => exact readFilter_ren h (hd e (by simp [exprsOf]))
  | expression e n => exact readExpression_ren h (hd e (by simp [exprsOf]))
  | grouping e => exact readGrouping_ren h (hd e (by simp [exprsOf]))
  | measure ds =>
    exact readMeasure_ren h fun x hx e he => hd e (List.mem_flatMap.mpr ⟨x, hx, he⟩)
  | sort e b => exact readSort_ren h (hd e (by simp [exprsOf]))
  | count t => exact readCount_ren h
  | type id => exact readJoinType_ren

theorem readDetails_ren (h : TurnsAll ρ c c') : ∀ {ds : List Detail} {st : State},
    (∀ d ∈ ds, KeptDetail ρ d) →
    readDetails pass c' (st.ren ρ) (ds.map (renDetail ρ)) =
      (readDetails pass c st ds).map (renStep ρ)
  | [], _, _ => rfl
  | d :: ds, st, hd => by
    simp only [List.map_cons]
    unfold readDetails
    rw [readDetail_ren h (hd d (by simp))]
    cases readDetail pass c st d with
    | throw e => rfl
    | ub => rfl
    | ok r =>
      simp only [Outcome.map, Outcome.bind_ok, renStep]
      rw [readDetails_ren h fun x hx => hd x (by simp [hx])]
      cases readDetails pass c r.1 ds <;> rfl

theorem addExpressions_ren (h : TurnsAll ρ c c') (ns : List Str) :
    ∀ (es : List PbExpr) (d : Schema.RelData) (k : Nat),
    addExpressions pass c' (ns.map ρ) (d.ren ρ) k (renPs ρ es) =
      (addExpressions pass c ns d k es).map (Schema.RelData.ren ρ)
  | [], _, _ => rfl
  | e :: es, d, k => by
    have ih := fun d k => addExpressions_ren h ns es d k
    have hl : (d.ren ρ).fields.length = d.fields.length := by simp [Schema.RelData.ren]
    have hg : (d.ren ρ).generated.length = d.generated.length := by simp [Schema.RelData.ren]
    have hc : ∀ n : Str, ({ d.ren ρ with generated := (d.ren ρ).generated ++
        [⟨.computed c'.name k, ρ n, [], none⟩] } : Schema.RelData) =
        Schema.RelData.ren ρ { d with generated := d.generated ++ [⟨.computed c.name k, n, [], none⟩] } := by
      intro n
      simp [Schema.RelData.ren, Schema.Field.ren, Schema.Origin.ren, h.name, h.spelling.empty]
    have hname : ∀ i : Nat, ((ns.map ρ)[i]?).getD [] = ρ ((ns[i]?).getD []) := by
      intro i
      rw [List.getElem?_map]
      cases ns[i]? <;> simp [h.spelling.empty]
    have hother : ∀ e' : PbExpr, (∀ n b t, e' ≠ .field (.field n b) t) →
        ∀ (ns : List Str) (c : RelContext) (d : Schema.RelData) (es : List PbExpr),
          addExpressions pass c ns d k (e' :: es) = addExpressions pass c ns
            { d with generated := d.generated ++ [⟨.computed c.name k,
              (ns[if pass then k else d.generated.length]?).getD [], [], none⟩] } (k + 1) es := by
      intro e' he ns c d es
      conv => lhs; unfold addExpressions
      split
      · rename_i heq; cases heq
      · rename_i heq; injection heq with h1 h2; exact absurd h1 (he _ _ _)
      · rename_i heq; injection heq with h1 h2; subst h2; rfl
    by_cases hf : ∃ n b t, e = .field (.field n b) t
    · obtain ⟨n, b, t, rfl⟩ := hf
      simp only [renPs, renP, addExpressions, hl]
      rw [show (d.ren ρ).fields = d.fields.map (Schema.Field.ren ρ) from rfl, Schema.vecAt_ren]
      split
      · cases Schema.vecAt d.fields (Schema.asSize n) with
        | throw e => rfl
        | ub => rfl
        | ok f =>
          simp only [Outcome.map, Outcome.bind_ok]
          have := ih { d with generated := d.generated ++ [f] } (k + 1)
          refine Eq.trans (congrArg (addExpressions pass c' (ns.map ρ) · (k + 1) (renPs ρ es)) ?_) this
          simp [Schema.RelData.ren]
      · exact ih d (k + 1)
    · have h1 : ∀ n b t, e ≠ .field (.field n b) t := fun n b t he => hf ⟨n, b, t, he⟩
      have h2 : ∀ n b t, renP ρ e ≠ .field (.field n b) t := by
        intro n b t he
        cases e <;> simp only [renP] at he <;> try cases he
        exact h1 _ _ _ rfl
      simp only [renPs]
      rw [hother e h1, hother (renP ρ e) h2, hg, hname, hc]
      exact ih _ _

theorem addProject_ren (h : TurnsAll ρ c c') (st : State) :
    addProject pass c' (st.ren ρ) = (addProject pass c st).map (State.ren ρ) := by
  obtain ⟨bd, em, d, ns⟩ := st
  unfold addProject
  cases bd <;> simp only [State.ren, Body.ren] <;> try rfl
  rw [addExpressions_ren h]
  generalize addExpressions pass c ns d 0 _ = o
  cases o <;> rfl

theorem readEmit_ren (h : TurnsAll ρ c c') (st : State) (n : Str) :
    readEmit pass c' (st.ren ρ) (ρ n) = renStep ρ (readEmit pass c st n) := by
  unfold readEmit
  have e1 : Schema.find true ((st.ren ρ).data :: c'.outer) (ρ n) = Schema.find true (st.data :: c.outer) n := by
    rw [h.outer]
    exact Schema.find_ren h.spelling true n (st.data :: c.outer)
  have e2 : Schema.findHere true (st.ren ρ).data (ρ n) = Schema.findHere true st.data n :=
    Schema.findHere_ren h.spelling true st.data n
  have e3 : c'.outer.isEmpty = c.outer.isEmpty := by rw [h.outer, List.isEmpty_map]
  rw [e1, e2, e3]
  split
  · split <;> rfl
  · split
    · rfl
    · rfl
    · split <;> rfl

theorem readEmits_ren (h : TurnsAll ρ c c') : ∀ (ds : List Detail) (st : State),
    readEmits pass c' (st.ren ρ) (ds.map (renDetail ρ)) = renStep ρ (readEmits pass c st ds)
  | [], _ => rfl
  | d :: ds, st => by
    have ih := fun st => readEmits_ren h ds st
    cases d <;> simp only [List.map_cons, renDetail, readEmits] <;> try exact ih st
    rw [columnText_ren h.spelling, readEmit_ren h, show (renStep ρ (readEmit pass c st _)).1 = (readEmit pass c st _).1.ren ρ from rfl,
      ih]
    rfl

def closed (d : Schema.RelData) : Schema.RelData :=
  if d.aggregate then { d with output := d.output ++ d.generated } else d

def regrouped : Body → Body
  | .aggregate [] ms => .aggregate [[]] ms
  | b => b

theorem finish_eq (st : State) : finish st = (Schema.applyText (closed st.data) st.emit).map fun r =>
    ({ st with body := regrouped st.body, data := r.1 }, r.2.map .field) := rfl

theorem closed_ren (d : Schema.RelData) : closed (d.ren ρ) = (closed d).ren ρ := by
  obtain ⟨a, f, g, o⟩ := d
  cases a <;> simp [closed, Schema.RelData.ren]

theorem regrouped_ren (b : Body) : regrouped (b.ren ρ) = (regrouped b).ren ρ := by
  cases b <;> try rfl
  rename_i gs ms
  cases gs <;> simp [regrouped, Body.ren, renPs]

theorem finish_ren (st : State) : finish (st.ren ρ) = (finish st).map (renStep ρ) := by
  rw [finish_eq, finish_eq, show (st.ren ρ).data = st.data.ren ρ from rfl, closed_ren,
    Schema.applyText_ren, show (st.ren ρ).emit = st.emit from rfl,
    show (st.ren ρ).body = st.body.ren ρ from rfl, regrouped_ren]
  cases Schema.applyText (closed st.data) st.emit <;> rfl

theorem startState_ren (h : TurnsAll ρ c c') (k : Enum.RelType) (ns : List Str) :
    startState pass c' k (ns.map ρ) = (startState pass c k ns).ren ρ := by
  unfold startState State.ren Schema.RelData.ren
  simp only [State.mk.injEq, true_and, and_true]
  refine ⟨by cases k <;> rfl, ?_⟩
  rw [h.inputs, h.firstInputs]
  cases pass <;> rfl

/-- A relation is read the same way with other names. -/
theorem readPass_ren (h : TurnsAll ρ c c') {k : Enum.RelType} {ds : List Detail} {ns : List Str}
    (hd : ∀ d ∈ ds, KeptDetail ρ d) :
    readPass pass c' k (ds.map (renDetail ρ)) (ns.map ρ) = (readPass pass c k ds ns).map (renStep ρ) := by
  unfold readPass
  rw [startState_ren h, readDetails_ren h hd]
  cases readDetails pass c (startState pass c k ns) ds with
  | throw e => rfl
  | ub => rfl
  | ok r =>
    simp only [Outcome.map, Outcome.bind_ok, renStep]
    rw [addProject_ren h]
    cases addProject pass c r.1 with
    | throw e => rfl
    | ub => rfl
    | ok s =>
      simp only [Outcome.map, Outcome.bind_ok, h.inside]
      split
      · rfl
      · rw [readEmits_ren h]
        simp only [renStep]
        rw [finish_ren]
        cases finish (readEmits pass c s ds).1 <;> rfl

end Verif.Rel
