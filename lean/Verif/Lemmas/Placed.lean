import Verif.Spec.Placed
import Verif.Lemmas.OrderRead
import Verif.Prop.Filter
import Verif.Spec.Whole
import Verif.Lemmas.PipelineTree

/-! # What is written in a relation of a text plan, and what becomes of it -/

namespace Verif.Rel

open Verif Verif.Expr Verif.Tree

theorem map_ok_iff {α β : Type} {o : Outcome α} {f : α → β} {b : β} (h : o.map f = .ok b) :
    ∃ a, o = .ok a ∧ f a = b := by
  cases o with
  | ok a => exact ⟨a, rfl, by simpa using h⟩
  | throw e => simp at h
  | ub => simp at h

theorem bind_ok_iff {α β : Type} {o : Outcome α} {f : α → Outcome β} {b : β}
    (h : o.bind f = .ok b) : ∃ a, o = .ok a ∧ f a = .ok b := by
  cases o with
  | ok a => exact ⟨a, rfl, h⟩
  | throw e => simp at h
  | ub => simp at h

theorem kept_ok {α : Type} {b : Bool} {e : Exc} {a a' : α}
    (h : (if b then Outcome.throw e else .ok a) = .ok a') : b = false ∧ a = a' := by
  cases b with
  | true => simp at h
  | false => exact ⟨rfl, by simpa using h⟩

theorem asExpr_ok {α : Type} {v : Value} {f : PbExpr → Outcome α} {a : α}
    (h : v.asExpr f = .ok a) : ∃ e, f e = .ok a := by
  unfold Value.asExpr at h
  split at h <;> first | exact ⟨_, h⟩ | simp at h

/-! ## Measures -/

theorem aggregateOf_sorts {e : PbExpr} {out : Option TyPb.PbType} {ids : List Str} {f : PbAggregate}
    {errs : List ReadErr} (h : aggregateOf e out ids = .ok (f, errs)) : f.sorts = [] := by
  unfold aggregateOf at h
  split at h
  · simp only [Outcome.ok.injEq, Prod.mk.injEq] at h
    rw [← h.1]
  · split at h
    · simp at h
    · simp only [Outcome.ok.injEq, Prod.mk.injEq] at h
      rw [← h.1]
      rfl

/-- Measures read up to here have no sorts of their own. -/
def Unsorted (m : MeasureState) : Prop := ∀ f, m.measure = some f → f.sorts = []

theorem measureDetails_hold {first : Bool} {c : RelContext} {k : Nat} :
    ∀ (ds : List MeasureDetail) {d d' : Schema.RelData} {m m' : MeasureState},
    readMeasureDetails first c k d m ds = .ok ((d', m'), []) → Unsorted m →
    Unsorted m' ∧ m'.measure.toList.length = m.measure.toList.length + tallyIn isCall ds ∧
      m'.filter.toList.length = m.filter.toList.length + tallyIn isCondition ds ∧
      m'.sorts.length = m.sorts.length + tallyIn isOrder ds
  | [], d, d', m, m', h, hu => by
    simp only [readMeasureDetails, Outcome.ok.injEq, Prod.mk.injEq] at h
    obtain ⟨⟨-, rfl⟩, -⟩ := h
    simp [hu, tallyIn]
  | .measure t ty ids :: ds, d, d', m, m', h, hu => by
    rw [readMeasureDetails] at h
    obtain ⟨e, -, h⟩ := bind_ok_iff h
    obtain ⟨o, -, h⟩ := bind_ok_iff h
    obtain ⟨f, hf, h⟩ := bind_ok_iff h
    cases hm : m.measure with
    | some x =>
      rw [hm] at h
      simp at h
    | none =>
      rw [hm] at h
      obtain ⟨r, hr, h⟩ := map_ok_iff h
      simp only [Prod.mk.injEq, List.append_eq_nil_iff] at h
      obtain ⟨h1, -, h2⟩ := h
      have hr' : readMeasureDetails first c k (pushMeasure c k ids d)
          { m with measure := some f.1 } ds = .ok ((d', m'), []) := by
        rw [hr, ← h1, ← h2]
      have := measureDetails_hold ds hr' (fun g hg => by
        simp only [Option.some.injEq] at hg
        rw [← hg]
        exact aggregateOf_sorts (f := f.1) (errs := f.2) hf)
      simpa [tallyIn, List.filter_cons, isCall, isCondition, isOrder, Nat.add_comm] using this
  | .filter t :: ds, d, d', m, m', h, hu => by
    rw [readMeasureDetails] at h
    obtain ⟨e, -, h⟩ := bind_ok_iff h
    cases hm : m.filter with
    | some x =>
      rw [hm] at h
      simp at h
    | none =>
      rw [hm] at h
      obtain ⟨r, hr, h⟩ := map_ok_iff h
      simp only [Prod.mk.injEq, List.append_eq_nil_iff] at h
      obtain ⟨h1, -, h2⟩ := h
      have hr' : readMeasureDetails first c k d { m with filter := some e.1 } ds =
          .ok ((d', m'), []) := by
        rw [hr, ← h1, ← h2]
      have := measureDetails_hold ds hr' hu
      simpa [tallyIn, List.filter_cons, isCall, isCondition, isOrder, Nat.add_comm] using this
  | .invocation id :: ds, d, d', m, m', h, hu => by
    rw [readMeasureDetails] at h
    obtain ⟨r, hr, h⟩ := map_ok_iff h
    simp only [Prod.mk.injEq, List.append_eq_nil_iff] at h
    obtain ⟨h1, -, h2⟩ := h
    have hr' : readMeasureDetails first c k d
        { m with invocation := (Enum.readInvocation id).1 } ds = .ok ((d', m'), []) := by
      rw [hr, ← h1, ← h2]
    have := measureDetails_hold ds hr' hu
    simpa [tallyIn, List.filter_cons, isCall, isCondition, isOrder] using this
  | .sort t by_ :: ds, d, d', m, m', h, hu => by
    rw [readMeasureDetails] at h
    obtain ⟨e, -, h⟩ := bind_ok_iff h
    obtain ⟨r, hr, h⟩ := map_ok_iff h
    simp only [Prod.mk.injEq, List.append_eq_nil_iff] at h
    obtain ⟨h1, -, h2⟩ := h
    have hr' : readMeasureDetails first c k d { m with sorts := m.sorts ++ [e.1] } ds =
        .ok ((d', m'), []) := by
      rw [hr, ← h1, ← h2]
    have := measureDetails_hold ds hr' hu
    simpa [tallyIn, List.filter_cons, isCall, isCondition, isOrder, Nat.add_comm, Nat.add_left_comm] using this

theorem measureOf_isSome {m : MeasureState} (h : m.measure.isSome) :
    (measureOf m).measure.isSome := by
  unfold measureOf
  simp only
  split <;> split <;> simp [h]

theorem measureOf_sorts {m : MeasureState} (h : Unsorted m) : sortsOf (measureOf m) = m.sorts := by
  unfold measureOf sortsOf
  simp only
  have h0 : ∀ o : Option PbAggregate, (∀ f, o = some f → f.sorts = []) →
      (o.map (·.sorts)).getD [] = [] := by
    intro o ho
    cases o with
    | none => rfl
    | some f => simp [ho f rfl]
  have h1 : (m.measure.map (·.sorts)).getD [] = [] := h0 _ h
  have h2 : (m.measure.getD PbAggregate.empty).sorts = [] := by
    cases hm : m.measure with
    | none => rfl
    | some f => exact h f hm
  by_cases hs : m.sorts.isEmpty
  · have : m.sorts = [] := by simpa using hs
    rw [this]
    by_cases hi : m.invocation = 0 <;> simp [hi, h1, h2]
  · by_cases hi : m.invocation = 0 <;> simp [hi, h2, hs]

theorem measure_holds {first : Bool} {c : RelContext} {k : Nat} {ds : List MeasureDetail}
    {d d' : Schema.RelData} {m' : MeasureState}
    (h : readMeasureDetails first c k d ⟨none, none, 0, []⟩ ds = .ok ((d', m'), [])) :
    MeasureHolds ds (measureOf m') := by
  obtain ⟨h1, h2, h3, h4⟩ := measureDetails_hold ds h (fun f hf => by simp at hf)
  simp only [Option.toList_none, List.length_nil, Nat.zero_add] at h2 h3 h4
  refine ⟨⟨?_, fun h => measureOf_isSome ?_⟩, ?_, ?_⟩
  · rw [← h2]
    cases m'.measure <;> simp
  · rw [h] at h2
    cases hm : m'.measure with
    | none => rw [hm] at h2; simp at h2
    | some _ => rfl
  · rw [← h3]
    rfl
  · rw [measureOf_sorts h1, h4]

theorem allHold_append : ∀ {bs bs' : List (List MeasureDetail)} {ms ms' : List PbMeasure},
    AllHold bs ms → AllHold bs' ms' → AllHold (bs ++ bs') (ms ++ ms')
  | [], _, [], _, _, h => h
  | [], _, _ :: _, _, h, _ => h.elim
  | _ :: _, _, [], _, h, _ => h.elim
  | _ :: _, _, _ :: _, _, h, h' => ⟨h.1, allHold_append h.2 h'⟩

/-! ## One detail -/

/-- What one detail adds to the body of a relation. -/
structure Adds (d : Detail) (b b' : Body) : Prop where
  kind : b'.kind = b.kind
  belongs : Belongs b.kind d
  expressions : expressionsIn b' = expressionsIn b + tally isExpression [d]
  filters : filtersIn b' = filtersIn b + tally isFilter [d]
  groupings : groupingsIn b' = groupingsIn b + tally isGrouping [d]
  sorts : sortsIn b' = sortsIn b + tally isSort [d]
  measures : ∃ ms, measuresIn b' = measuresIn b ++ ms ∧ AllHold (blocksIn [d]) ms

/-- A detail that adds nothing that is counted. -/
theorem adds_same {d : Detail} {b b' : Body} (hb : Belongs b.kind d) (hk : b'.kind = b.kind)
    (h1 : expressionsIn b' = expressionsIn b) (h2 : filtersIn b' = filtersIn b)
    (h3 : groupingsIn b' = groupingsIn b) (h4 : sortsIn b' = sortsIn b)
    (h5 : measuresIn b' = measuresIn b)
    (e1 : isExpression d = false) (e2 : isFilter d = false) (e3 : isGrouping d = false)
    (e4 : isSort d = false) (e5 : blocksIn [d] = []) : Adds d b b' where
  kind := hk
  belongs := hb
  expressions := by simp [tally, e1, h1]
  filters := by simp [tally, e2, h2]
  groupings := by simp [tally, e3, h3]
  sorts := by simp [tally, e4, h4]
  measures := ⟨[], by simp [h5], by rw [e5]; trivial⟩

theorem filter_asks {words : Option Str} {v : Option PbExpr} {b : Filter.Behavior}
    (h : (Filter.Clause.behavior (E := PbExpr) ⟨words, v⟩) = (b, [])) :
    Filter.Asks (E := PbExpr) ⟨words, none⟩ b := by
  by_cases hm : Filter.Meaningful (E := PbExpr) ⟨words, v⟩
  · obtain ⟨b', hb'⟩ := hm
    rw [Filter.behavior_asks hb'] at h
    simp only [Prod.mk.injEq, and_true] at h
    rw [← h]
    exact hb'
  · rw [Filter.behavior_meaningless hm] at h
    simp at h

theorem filter_adds {words : Option Str} {t : ExprTree} {b : Body} {x : Option PbExpr}
    {r : Filter.Result PbExpr}
    (hr : Filter.visitFilter (filterKind b) (filtersOf b) ⟨words, x⟩ = r) (ht : r.threw = false)
    (he : r.errs = []) : Adds (.filter words t) b (withFilters r.filters b) := by
  subst hr
  have key : ∀ bh errs, Filter.Clause.behavior (E := PbExpr) ⟨words, x⟩ = (bh, errs) → errs = [] →
      Filter.Asks (E := PbExpr) ⟨words, none⟩ bh := by
    intro bh errs h1 h2
    exact filter_asks (v := x) (by rw [h1, h2])
  revert ht he
  unfold Filter.visitFilter
  cases hb : Filter.Clause.behavior (E := PbExpr) ⟨words, x⟩ with
  | mk bh errs =>
  have ka := key bh errs hb
  cases b <;> simp only [filterKind, filtersOf]
  case read s t' f g p =>
    cases bh <;> cases f <;> cases g <;> cases x <;>
      simp [Filter.assign] <;> intro he <;>
      exact ⟨rfl, ⟨_, ka he, by rfl⟩, rfl, by simp [withFilters, filtersIn, tally, List.filter_cons, isFilter], rfl,
        rfl, [], by simp [withFilters, measuresIn], trivial⟩
  case filter f =>
    cases bh <;> cases f <;> cases x <;>
      simp <;> intro he <;>
      exact ⟨rfl, ⟨_, ka he, by rfl⟩, rfl, by simp [withFilters, filtersIn, tally, List.filter_cons, isFilter], rfl,
        rfl, [], by simp [withFilters, measuresIn], trivial⟩
  case join ty e p =>
    cases bh <;> cases p <;> cases x <;>
      simp [Filter.assign] <;> intro he <;>
      exact ⟨rfl, ⟨_, ka he, by rfl⟩, rfl, by simp [withFilters, filtersIn, tally, List.filter_cons, isFilter], rfl,
        rfl, [], by simp [withFilters, measuresIn], trivial⟩
  all_goals simp

theorem detail_adds {first : Bool} {c : RelContext} {st st' : State} {d : Detail}
    (h : readDetail first c st d = .ok (st', [])) :
    Adds d st.body st'.body ∧ st'.emit = st.emit := by
  cases d with
  | common =>
    simp only [readDetail, Outcome.ok.injEq, Prod.mk.injEq, and_true] at h
    subst h
    exact ⟨adds_same trivial rfl rfl rfl rfl rfl rfl rfl rfl rfl rfl rfl, rfl⟩
  | extension =>
    simp only [readDetail, Outcome.ok.injEq, Prod.mk.injEq, and_true] at h
    subst h
    exact ⟨adds_same trivial rfl rfl rfl rfl rfl rfl rfl rfl rfl rfl rfl, rfl⟩
  | emit s n =>
    simp only [readDetail, Outcome.ok.injEq, Prod.mk.injEq, and_true] at h
    subst h
    exact ⟨adds_same trivial rfl rfl rfl rfl rfl rfl rfl rfl rfl rfl rfl, rfl⟩
  | schema id =>
    simp only [readDetail, readSchema] at h
    cases hb : st.body <;> rw [hb] at h <;> simp at h
    cases hc : c.schema id <;> rw [hc] at h <;> simp at h <;> subst h
    · rw [hb]
      exact ⟨adds_same rfl rfl rfl rfl rfl rfl rfl rfl rfl rfl rfl rfl, rfl⟩
    · exact ⟨adds_same rfl rfl rfl rfl rfl rfl rfl rfl rfl rfl rfl rfl, rfl⟩
  | source id =>
    simp only [readDetail, readSource] at h
    cases hb : st.body <;> rw [hb] at h <;> simp at h
    split at h <;> simp at h <;> subst h
    · exact ⟨adds_same rfl rfl rfl rfl rfl rfl rfl rfl rfl rfl rfl rfl, rfl⟩
    · exact ⟨adds_same rfl rfl rfl rfl rfl rfl rfl rfl rfl rfl rfl rfl, rfl⟩
    · rw [hb]
      exact ⟨adds_same rfl rfl rfl rfl rfl rfl rfl rfl rfl rfl rfl rfl, rfl⟩
  | count text =>
    simp only [readDetail, readCount] at h
    cases hb : st.body <;> rw [hb] at h <;> simp at h
    obtain ⟨r, -, h⟩ := map_ok_iff h
    simp at h
    rw [← h.1]
    exact ⟨adds_same rfl rfl rfl rfl rfl rfl rfl rfl rfl rfl rfl rfl, rfl⟩
  | type id =>
    simp only [readDetail, readJoinType] at h
    cases hb : st.body <;> rw [hb] at h <;> simp at h
    rw [← h.1]
    exact ⟨adds_same rfl rfl rfl rfl rfl rfl rfl rfl rfl rfl rfl rfl, rfl⟩
  | filter words t =>
    simp only [readDetail, readFilter] at h
    obtain ⟨v, -, h⟩ := bind_ok_iff h
    obtain ⟨ht, h⟩ := kept_ok h
    simp only [Prod.mk.injEq, List.append_eq_nil_iff, List.map_eq_nil_iff] at h
    obtain ⟨rfl, -, he⟩ := h
    exact ⟨filter_adds rfl ht he, rfl⟩
  | expression t named =>
    simp only [readDetail, readExpression] at h
    obtain ⟨v, -, h⟩ := bind_ok_iff h
    cases hb : st.body <;> rw [hb] at h <;> try simp only at h
    case project es =>
      obtain ⟨e, h⟩ := asExpr_ok h
      simp only [Outcome.ok.injEq, Prod.mk.injEq] at h
      rw [← h.1]
      exact ⟨⟨rfl, .inl rfl, by simp [expressionsIn, tally, List.filter_cons, isExpression], rfl,
        rfl, rfl, [], rfl, trivial⟩, rfl⟩
    case join ty e p =>
      cases e with
      | some _ => simp at h
      | none =>
        obtain ⟨e, h⟩ := asExpr_ok h
        simp only [Outcome.ok.injEq, Prod.mk.injEq] at h
        rw [← h.1]
        exact ⟨⟨rfl, .inr rfl, by simp [expressionsIn, tally, List.filter_cons, isExpression], rfl,
          rfl, rfl, [], rfl, trivial⟩, rfl⟩
    all_goals simp at h
  | grouping t =>
    simp only [readDetail, readGrouping] at h
    obtain ⟨v, -, h⟩ := bind_ok_iff h
    cases hb : st.body <;> rw [hb] at h <;> simp only at h
    case aggregate gs ms =>
      obtain ⟨e, h⟩ := asExpr_ok h
      obtain ⟨d', -, h⟩ := map_ok_iff h
      simp only [Prod.mk.injEq] at h
      rw [← h.1]
      refine ⟨⟨rfl, rfl, rfl, rfl, ?_, rfl, [], by simp [measuresIn], trivial⟩, rfl⟩
      cases gs with
      | nil => simp [groupingsIn, addGrouping, tally, List.filter_cons, isGrouping]
      | cons g gs =>
        simp [groupingsIn, addGrouping, tally, List.filter_cons, isGrouping]
        omega
    all_goals simp at h
  | sort t by_ =>
    simp only [readDetail, readSort] at h
    cases hb : st.body <;> rw [hb] at h <;> simp at h
    obtain ⟨r, -, h⟩ := map_ok_iff h
    simp only [Prod.mk.injEq] at h
    rw [← h.1]
    exact ⟨⟨rfl, rfl, rfl, rfl, rfl, by simp [sortsIn, tally, List.filter_cons, isSort], [], rfl, trivial⟩, rfl⟩
  | measure ds =>
    simp only [readDetail, readMeasure] at h
    obtain ⟨r, hr, h⟩ := map_ok_iff h
    cases hb : st.body <;> rw [hb] at h <;> simp only [Prod.mk.injEq] at h
    case aggregate gs ms =>
      obtain ⟨h1, h2⟩ := h
      rw [← h1]
      obtain ⟨⟨d', m'⟩, errs⟩ := r
      simp only at h2
      subst h2
      exact ⟨⟨rfl, rfl, rfl, rfl, rfl, rfl, [measureOf m'], rfl, measure_holds hr, trivial⟩, rfl⟩
    all_goals simp at h

/-! ## All details -/

theorem tally_cons (p : Detail → Bool) (d : Detail) (ds : List Detail) :
    tally p (d :: ds) = tally p [d] + tally p ds := by
  unfold tally
  rw [← List.length_append, ← List.filter_append]
  rfl

theorem blocksIn_cons (d : Detail) (ds : List Detail) :
    blocksIn (d :: ds) = blocksIn [d] ++ blocksIn ds := by
  cases d <;> rfl

theorem details_add {first : Bool} {c : RelContext} : ∀ (ds : List Detail) {st st' : State},
    readDetails first c st ds = .ok (st', []) →
    (∀ d ∈ ds, Belongs st.body.kind d) ∧ st'.body.kind = st.body.kind ∧ st'.emit = st.emit ∧
      expressionsIn st'.body = expressionsIn st.body + tally isExpression ds ∧
      filtersIn st'.body = filtersIn st.body + tally isFilter ds ∧
      groupingsIn st'.body = groupingsIn st.body + tally isGrouping ds ∧
      sortsIn st'.body = sortsIn st.body + tally isSort ds ∧
      ∃ ms, measuresIn st'.body = measuresIn st.body ++ ms ∧ AllHold (blocksIn ds) ms
  | [], st, st', h => by
    simp only [readDetails, Outcome.ok.injEq, Prod.mk.injEq, and_true] at h
    subst h
    exact ⟨by simp, rfl, rfl, rfl, rfl, rfl, rfl, [], by simp, trivial⟩
  | d :: ds, st, st', h => by
    rw [readDetails] at h
    obtain ⟨r, hr, h⟩ := bind_ok_iff h
    obtain ⟨s, hs, h⟩ := map_ok_iff h
    simp only [Prod.mk.injEq, List.append_eq_nil_iff] at h
    obtain ⟨h1, h2, h3⟩ := h
    obtain ⟨r1, r2⟩ := r
    obtain ⟨s1, s2⟩ := s
    simp only at h1 h2 h3 hs
    subst h1 h2 h3
    obtain ⟨a, ae⟩ := detail_adds hr
    obtain ⟨b1, b2, b3, b4, b5, b6, b7, ms, b8, b9⟩ := details_add ds hs
    obtain ⟨ms', a8, a9⟩ := a.measures
    rw [a.kind] at b1 b2
    refine ⟨?_, b2, b3.trans ae, ?_, ?_, ?_, ?_, ms' ++ ms, ?_, ?_⟩
    · intro x hx
      rcases List.mem_cons.mp hx with rfl | hx
      · exact a.belongs
      · exact b1 x hx
    · rw [b4, a.expressions, tally_cons isExpression d ds, Nat.add_assoc]
    · rw [b5, a.filters, tally_cons isFilter d ds, Nat.add_assoc]
    · rw [b6, a.groupings, tally_cons isGrouping d ds, Nat.add_assoc]
    · rw [b7, a.sorts, tally_cons isSort d ds, Nat.add_assoc]
    · rw [b8, a8, List.append_assoc]
    · rw [blocksIn_cons]
      exact allHold_append a9 b9

theorem readEmit_adds {c : RelContext} {st st' : State} {n : Str}
    (h : readEmit false c st n = (st', [])) :
    st'.body = st.body ∧ st'.emit.length = st.emit.length + 1 := by
  unfold readEmit at h
  simp only [Bool.false_eq_true, if_false] at h
  split at h
  · simp only [Prod.mk.injEq, and_true] at h
    rw [← h]
    simp
  · simp at h
  · split at h <;> simp at h

theorem readEmits_add {c : RelContext} : ∀ (ds : List Detail) {st st' : State},
    readEmits false c st ds = (st', []) →
    st'.body = st.body ∧ st'.emit.length = st.emit.length + tally isEmit ds
  | [], st, st', h => by
    simp only [readEmits, Prod.mk.injEq, and_true] at h
    rw [h]
    exact ⟨rfl, rfl⟩
  | d :: ds, st, st', h => by
    by_cases hd : ∃ s n, d = .emit s n
    · obtain ⟨s, n, rfl⟩ := hd
      rw [readEmits] at h
      simp only [Prod.mk.injEq, List.append_eq_nil_iff] at h
      obtain ⟨h1, h2, h3⟩ := h
      have a := readEmit_adds (c := c) (st := st) (n := (ExprTree.column s n).text)
        (st' := (readEmit false c st (ExprTree.column s n).text).1) (by rw [← h2])
      have b := readEmits_add ds (c := c)
        (st := (readEmit false c st (ExprTree.column s n).text).1) (st' := st')
        (by rw [← h1, ← h3])
      refine ⟨b.1.trans a.1, ?_⟩
      rw [b.2, a.2, tally_cons, Nat.add_assoc]
      rfl
    · have e : readEmits false c st (d :: ds) = readEmits false c st ds := by
        cases d <;> first | rfl | exact absurd ⟨_, _, rfl⟩ hd
      have e' : tally isEmit [d] = 0 := by
        cases d <;> first | rfl | exact absurd ⟨_, _, rfl⟩ hd
      rw [e] at h
      obtain ⟨a, b⟩ := readEmits_add ds h
      exact ⟨a, by rw [b, tally_cons, e']; omega⟩

theorem addProject_body {first : Bool} {c : RelContext} {st st' : State}
    (h : addProject first c st = .ok st') : st'.body = st.body ∧ st'.emit = st.emit := by
  unfold addProject at h
  split at h
  · obtain ⟨d, -, rfl⟩ := map_ok_iff h
    exact ⟨rfl, rfl⟩
  · simp only [Outcome.ok.injEq] at h
    rw [h]
    exact ⟨rfl, rfl⟩

theorem finish_body {st st' : State} {errs : List ReadErr} (h : finish st = .ok (st', errs)) :
    st'.emit = st.emit ∧ st'.body.kind = st.body.kind ∧
      expressionsIn st'.body = expressionsIn st.body ∧
      filtersIn st'.body = filtersIn st.body ∧ groupingsIn st'.body = groupingsIn st.body ∧
      sortsIn st'.body = sortsIn st.body ∧ measuresIn st'.body = measuresIn st.body := by
  unfold finish at h
  obtain ⟨r, -, h⟩ := map_ok_iff h
  simp only [Prod.mk.injEq] at h
  rw [← h.1]
  refine ⟨rfl, ?_⟩
  simp only
  split <;> simp_all [Body.kind, expressionsIn, filtersIn, groupingsIn, sortsIn, measuresIn]

theorem emptyBody_in (k : Enum.RelType) : (emptyBody k).kind = k ∧ expressionsIn (emptyBody k) = 0 ∧
    filtersIn (emptyBody k) = 0 ∧ groupingsIn (emptyBody k) = 0 ∧ sortsIn (emptyBody k) = 0 ∧
    measuresIn (emptyBody k) = [] := by
  cases k <;> exact ⟨rfl, rfl, rfl, rfl, rfl, rfl⟩

/-- The second pass. -/
theorem pass_holds {c : RelContext} {k : Enum.RelType} {ds : List Detail} {names : List Str}
    {st : State} (h : readPass false c k ds names = .ok (st, [])) :
    (∀ d ∈ ds, Belongs k d) ∧ st.body.kind = k ∧ Holds ds ⟨st.body, st.emit⟩ := by
  unfold readPass at h
  obtain ⟨r, hr, h⟩ := bind_ok_iff h
  obtain ⟨s, hs, h⟩ := bind_ok_iff h
  simp only [Bool.false_and, Bool.false_eq_true, if_false] at h
  obtain ⟨f, hf, h⟩ := map_ok_iff h
  simp only [Prod.mk.injEq, List.append_eq_nil_iff] at h
  obtain ⟨h1, ⟨h2, h3⟩, h4⟩ := h
  obtain ⟨r1, r2⟩ := r
  obtain ⟨f1, f2⟩ := f
  simp only at h1 h2 h4 hs
  subst h1 h2
  obtain ⟨a1, a2, a3, a4, a5, a6, a7, ms, a8, a9⟩ := details_add ds hr
  obtain ⟨b1, b2⟩ := addProject_body hs
  obtain ⟨c1, c2⟩ := readEmits_add ds (c := c) (st := s) (st' := (readEmits false c s ds).1)
    (by rw [← h3])
  obtain ⟨d1, d0, d2, d3, d4, d5, d6⟩ := finish_body hf
  obtain ⟨e1, e2, e3, e4, e5, e6⟩ := emptyBody_in k
  have hb : (startState false c k names).body = emptyBody k := rfl
  have he : (startState false c k names).emit = [] := rfl
  rw [hb] at a1 a2 a4 a5 a6 a7 a8
  rw [he] at a3
  rw [e1] at a1
  refine ⟨a1, by rw [d0, c1, b1, a2, e1], ?_, ?_, ?_, ?_, ?_, ?_⟩
  · simp only
    rw [d2, c1, b1, a4, e2, Nat.zero_add]
  · simp only
    rw [d3, c1, b1, a5, e3, Nat.zero_add]
  · simp only
    rw [d4, c1, b1, a6, e4, Nat.zero_add]
  · simp only
    rw [d5, c1, b1, a7, e5, Nat.zero_add]
  · simp only
    rw [d6, c1, b1, a8, e6, List.nil_append]
    exact a9
  · simp only
    rw [d1, c2, b2, a3, List.length_nil, Nat.zero_add]

theorem allHold_fits : ∀ {bs : List (List MeasureDetail)} {ms : List PbMeasure}, AllHold bs ms →
    ∀ b ∈ bs, tallyIn isCall b ≤ 1 ∧ tallyIn isCondition b ≤ 1
  | [], _, _, _, h => nomatch h
  | _ :: _, [], h, _, _ => h.elim
  | _ :: _, m :: _, h, b, hb => by
    rcases List.mem_cons.mp hb with rfl | hb
    · refine ⟨h.1.call.1, ?_⟩
      rw [← h.1.condition]
      cases m.filter <;> simp
    · exact allHold_fits h.2 b hb

theorem fits_of_holds {k : Enum.RelType} {ds : List Detail} {r : PbRel}
    (hb : ∀ d ∈ ds, Belongs k d) (hk : r.body.kind = k) (h : Holds ds r) : Fits k ds where
  belong := hb
  condition := by
    intro e
    rw [← h.expressions]
    cases hr : r.body <;> rw [hr] at hk <;> simp_all [Body.kind, expressionsIn]
  filter := by
    intro e
    rw [← h.filters]
    cases hr : r.body <;> rw [hr] at hk <;> subst hk <;> simp_all [Body.kind, filtersIn]
  filters := by
    rw [← h.filters]
    cases r.body <;> simp only [filtersIn] <;> try omega
    case read f b _ => cases f <;> cases b <;> simp
    case filter f => cases f <;> simp
    case join f => cases f <;> simp
  measures := allHold_fits h.measures

end Verif.Rel

namespace Verif.Whole

open Verif Verif.Rel Verif.Expr

/-! ## The names of subqueries do not count -/

theorem relabelList_size (g : Nat → Option Str) : ∀ (es : List PbExpr) (k : Nat),
    (relabelList g k es).length = es.length
  | [], _ => by simp [relabelList]
  | _ :: es, _ => by simp [relabelList, relabelList_size g es]

theorem relabelSorts_size (g : Nat → Option Str) : ∀ (ss : List PbSort) (k : Nat),
    (relabelSorts g k ss).length = ss.length
  | [], _ => by simp [relabelSorts]
  | _ :: ss, _ => by simp [relabelSorts, relabelSorts_size g ss]

theorem relabelGroups_size (g : Nat → Option Str) : ∀ (gs : List (List PbExpr)) (k : Nat),
    (relabelGroups g k gs).flatten.length = gs.flatten.length
  | [], _ => by simp [relabelGroups]
  | es :: gs, k => by
    simp only [relabelGroups, List.flatten_cons, List.length_append, relabelList_size,
      relabelGroups_size g gs]

theorem relabelOpt_size (g : Nat → Option Str) (k : Nat) (e : Option PbExpr) :
    (relabelOpt g k e).toList.length = e.toList.length := by
  cases e <;> rfl

theorem relabelMeasure_holds (g : Nat → Option Str) (k : Nat) {ds : List MeasureDetail}
    {m : PbMeasure} (h : MeasureHolds ds m) : MeasureHolds ds (relabelMeasure g k m) where
  call := ⟨h.call.1, fun e => by
    have := h.call.2 e
    simp only [relabelMeasure, Option.isSome_map]
    exact this⟩
  condition := by
    rw [← h.condition]
    exact relabelOpt_size g _ m.filter
  sorts := by
    rw [← h.sorts]
    unfold sortsOf
    cases hm : m.measure with
    | none => simp [relabelMeasure, hm]
    | some f => simp [relabelMeasure, hm, relabelAggregate, relabelSorts_size]

theorem relabelMeasures_hold (g : Nat → Option Str) : ∀ {bs : List (List MeasureDetail)}
    {ms : List PbMeasure} (k : Nat), AllHold bs ms → AllHold bs (relabelMeasures g k ms)
  | [], [], _, _ => trivial
  | [], _ :: _, _, h => h.elim
  | _ :: _, [], _, h => h.elim
  | _ :: _, _ :: _, _, h => ⟨relabelMeasure_holds g _ h.1, relabelMeasures_hold g _ h.2⟩

theorem relabel_holds (g : Nat → Option Str) {ds : List Detail} {b : Body} {emit : List Int}
    (h : Holds ds ⟨b, emit⟩) : Holds ds ⟨relabelBody g b, emit⟩ where
  expressions := by
    rw [← h.expressions]
    cases b <;> simp only [relabelBody, expressionsIn, relabelList_size, relabelOpt_size]
  filters := by
    rw [← h.filters]
    cases b <;> simp only [relabelBody, filtersIn, relabelOpt_size]
  groupings := by
    rw [← h.groupings]
    cases b <;> simp only [relabelBody, groupingsIn, relabelGroups_size]
  sorts := by
    rw [← h.sorts]
    cases b <;> simp only [relabelBody, sortsIn, relabelSorts_size]
  measures := by
    have hm := h.measures
    cases b <;> simp only [relabelBody, measuresIn] at hm ⊢ <;>
      first | exact hm | exact relabelMeasures_hold g _ hm
  emits := h.emits

theorem blank_holds {ds : List Detail} {b : Body} {emit : List Int} (h : Holds ds ⟨b, emit⟩) :
    Holds ds ⟨blankBody b, emit⟩ := relabel_holds _ h

theorem ownOf_holds {l : List Sec.Symbol} {r : PbRel} {o : Own} {ds : List Detail}
    (h : ownOf l r = .ok o) (hr : Holds ds r) : Holds ds ⟨o.body, o.emit⟩ := by
  obtain ⟨b, emit⟩ := r
  unfold ownOf at h
  cases b
  case read s t f b p =>
    simp only at h
    obtain ⟨x, -, h⟩ := map_ok_iff h
    rw [← h]
    exact blank_holds (b := .read none none f b p)
      ⟨hr.expressions, hr.filters, hr.groupings, hr.sorts, hr.measures, hr.emits⟩
  all_goals
    simp only [Outcome.ok.injEq] at h
    rw [← h]
    exact blank_holds hr

theorem ownOf_empty {l : List Sec.Symbol} {o : Own} (h : ownOf l ⟨.other, []⟩ = .ok o) :
    o = ⟨.other, [], none, none⟩ := by
  simp only [ownOf, Outcome.ok.injEq] at h
  rw [← h]
  rfl

/-- The relation is one of the text, with all that is written in it; or nothing is written. -/
def Written (ts : List RelTree) (o : Own) : Prop :=
  o = ⟨.other, [], none, none⟩ ∨ ∃ t ∈ ts, Holds t.details ⟨o.body, o.emit⟩

theorem written_empty {ts : List RelTree} {o : Own} (h : Written ts o) :
    Written ts { o with body := emptyQueries o.body } := by
  rcases h with rfl | ⟨t, ht, h⟩
  · exact .inl rfl
  · exact .inr ⟨t, ht, relabel_holds _ h⟩

theorem owns_mem : ∀ {rs : List BRel} {o : Own}, o ∈ ownsL rs ↔ ∃ r ∈ rs, o ∈ owns r
  | [], _ => by simp [ownsL]
  | r :: rs, o => by simp [ownsL, owns_mem (rs := rs)]

mutual
theorem attach_written {l : List Sec.Symbol} {done : Relations} {ts : List RelTree}
    (hd : ∀ n d, done.find n = some d → ∃ t ∈ ts, Holds t.details d.rel) :
    ∀ (p : Pipe.Rel) {r : BRel}, attach l done p = .ok r → ∀ o ∈ owns r, Written ts o
  | .node k n ins subs, r, h, o, ho => by
    rw [attach] at h
    obtain ⟨x, hx, h⟩ := bind_ok_iff h
    obtain ⟨a, ha, h⟩ := bind_ok_iff h
    obtain ⟨b, hb, h⟩ := bind_ok_iff h
    have ia := attachL_written hd ins ha
    have ib := attachL_written hd subs hb
    have hw : Written ts x := by
      cases hf : done.find n with
      | none =>
        rw [hf] at hx
        exact .inl (ownOf_empty hx)
      | some d =>
        rw [hf] at hx
        obtain ⟨t, ht, hh⟩ := hd n d hf
        exact .inr ⟨t, ht, ownOf_holds hx hh⟩
    split at h
    · split at h
      · simp only [Outcome.ok.injEq] at h
        rw [← h, owns, List.mem_append, owns_mem] at ho
        rcases ho with ⟨r', hr', ho⟩ | ho
        · rw [Pipe.mem_arrange] at hr'
          rcases hr' with hr' | hr'
          · exact ia o (owns_mem.mpr ⟨r', hr', ho⟩)
          · exact ib o (owns_mem.mpr ⟨r', List.mem_of_mem_take hr', ho⟩)
        · rw [List.mem_singleton.mp ho]
          exact hw
      · simp at h
    · simp only [Outcome.ok.injEq] at h
      rw [← h, owns, List.mem_append] at ho
      rcases ho with ho | ho
      · exact ia o ho
      · rw [List.mem_singleton.mp ho]
        exact written_empty hw
theorem attachL_written {l : List Sec.Symbol} {done : Relations} {ts : List RelTree}
    (hd : ∀ n d, done.find n = some d → ∃ t ∈ ts, Holds t.details d.rel) :
    ∀ (ps : List Pipe.Rel) {rs : List BRel}, attachL l done ps = .ok rs →
      ∀ o ∈ ownsL rs, Written ts o
  | [], rs, h, o, ho => by
    simp only [attachL, Outcome.ok.injEq] at h
    rw [← h] at ho
    simp [ownsL] at ho
  | p :: ps, rs, h, o, ho => by
    rw [attachL] at h
    obtain ⟨x, hx, h⟩ := bind_ok_iff h
    obtain ⟨y, hy, h⟩ := map_ok_iff h
    have ix := attach_written hd p hx
    have iy := attachL_written hd ps hy
    rw [← h, ownsL, List.mem_append] at ho
    rcases ho with ho | ho
    · exact ix o ho
    · exact iy o ho
end

theorem namedAs_owns {names : List Str} : ∀ (ns : List Bool) (bs : List BRel) {x : List Str × BRel},
    x ∈ namedAs names ns bs → x.2 ∈ bs
  | [], _, _, h => by simp [namedAs] at h
  | _ :: _, [], _, h => by simp [namedAs] at h
  | n :: ns, b :: bs, x, h => by
    rw [namedAs] at h
    rcases List.mem_cons.mp h with rfl | h
    · exact List.mem_cons_self
    · exact List.mem_cons_of_mem _ (namedAs_owns ns bs h)

theorem foundFirst (n m : Str) (d : Done) (done : Relations) :
    Relations.find ((m, d) :: done) n = if m = n then some d else done.find n := by
  unfold Relations.find
  rw [List.find?_cons]
  by_cases h : m = n <;> simp [h]

end Verif.Whole
