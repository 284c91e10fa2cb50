import Verif.Prop.Relation

/-!
# C45: what is lost of relations in text plans
-/

namespace Verif.Rel

open Verif Verif.TyPb Verif.Tree Verif.Literal Verif.Lex Verif.Parse Verif.Expr

/-! ## Relations that are printed alike -/

theorem text_none_and (t : Text) : Text.and Text.none t = t := by
  cases t <;> rfl

theorem text_and_none (t : Text) : Text.and t Text.none = t := by
  cases t <;> simp [Text.and, Text.none, Outcome.bind, Outcome.map]

theorem text_and_assoc (p q r : Text) : Text.and (Text.and p q) r = Text.and p (Text.and q r) := by
  cases p <;> cases q <;> cases r <;> simp [Text.and, Outcome.bind, Outcome.map]

theorem printGrouping_append (c : Context) (h : List PbExpr) : ∀ g : List PbExpr,
    printGrouping c (g ++ h) = Text.and (printGrouping c g) (printGrouping c h)
  | [] => (text_none_and _).symm
  | e :: es => by
    rw [List.cons_append, printGrouping, printGrouping, printGrouping_append c h es,
      text_and_assoc]

theorem printGroupings_flatten (c : Context) : ∀ gs : List (List PbExpr),
    printGroupings c gs = printGrouping c gs.flatten
  | [] => rfl
  | g :: gs => by
    rw [printGroupings, List.flatten_cons, printGrouping_append, printGroupings_flatten c gs]

theorem printMeasure_forget (c : RelContext) (k : Nat) (m : PbMeasure) :
    printMeasure c k (forgetMeasure m) = printMeasure c k m := by
  obtain ⟨f, g⟩ := m
  cases f <;> rfl

theorem printMeasures_forget (c : RelContext) : ∀ (ms : List PbMeasure) (k : Nat),
    printMeasures c k (ms.map forgetMeasure) = printMeasures c k ms
  | [], _ => rfl
  | m :: ms, k => by
    rw [List.map_cons, printMeasures, printMeasures, printMeasure_forget,
      printMeasures_forget c ms (k + 1)]

/-- **C45 is false.**  The printer writes the same text, and reports the same errors, for every
relation and for what `forget` leaves of it. -/
theorem relation_printed_alike (c : RelContext) (r : PbRel) :
    printRelation c (forget r) = printRelation c r := by
  obtain ⟨body, emit⟩ := r
  cases body with
  | read s t f b p =>
    cases f with
    | some f => cases s <;> rfl
    | none =>
      cases b with
      | none => cases s <;> rfl
      | some b =>
        cases s with
        | none => rfl
        | some s =>
          simp only [forget, printRelation, printBody, Body.kind, Body.names, optLine,
            text_none_and]
  | aggregate gs ms =>
    simp only [forget, printRelation, printBody, Body.kind, Body.names, printGroupings,
      printGroupings_flatten, printMeasures_forget, text_and_none]
  | _ => rfl

/-- **C45 is false.**  A relation that is not what `forget` leaves of it, while that survives, is
printed and read without an error, as another relation. -/
theorem relation_silently_changed (c : RelContext) (hlib : c.expr.lib.Numerals) (r : PbRel)
    (h : RelReadable c (forget r)) (hne : forget r ≠ r) :
    (∃ text, printRelation c r = .ok (text, []) ∧
      readText c text = some (.ok (forget r, []))) ∧ ¬ ReadsBack c r := by
  obtain ⟨text, hp, hr⟩ := relation_roundtrip_partial c hlib (forget r) h
  rw [relation_printed_alike] at hp
  refine ⟨⟨text, hp, hr⟩, fun ⟨text', hp', hr'⟩ => hne ?_⟩
  rw [hp] at hp'
  simp only [Outcome.ok.injEq, Prod.mk.injEq, and_true] at hp'
  subst hp'
  rw [hr] at hr'
  simpa using hr'

/-- The conditions are met by: two grouping sets; no grouping set at all; an output mapping of a
filter; sorts of a measure; a best effort filter. -/
example : RelReadable sampleAggregate (forget ⟨.aggregate [[ref 0], []] [sampleMeasure], [1, 0]⟩) ∧
    forget ⟨.aggregate [[ref 0], []] [sampleMeasure], [1, 0]⟩ ≠
      ⟨.aggregate [[ref 0], []] [sampleMeasure], [1, 0]⟩ :=
  ⟨sampleAggregate_ok, by simp [forget]⟩

example : RelReadable sampleInside (forget ⟨.filter (some sampleExpr), [2, 1]⟩) ∧
    forget ⟨.filter (some sampleExpr), [2, 1]⟩ ≠ ⟨.filter (some sampleExpr), [2, 1]⟩ :=
  ⟨sampleInside_ok, by simp [forget]⟩

/-! ## What can be read at all -/

theorem value_image {c : RelContext} {d : Schema.RelData} {t : ExprTree} {v : Value}
    {errs : List RErr} (h : value false c d t = .ok (v, errs)) : ∃ e, v = .expr e ∧ Producible e := by
  simp only [value, Bool.false_eq_true, if_false] at h
  obtain ⟨⟨e, errs'⟩, hv, h⟩ := ok_of_map h
  simp only [Prod.mk.injEq] at h
  exact ⟨e, h.1.symm, visit_image _ _ _ _ hv⟩

theorem exprValue_image {c : RelContext} {d : Schema.RelData} {t : ExprTree} {e : PbExpr}
    {errs : List ReadErr} (h : exprValue false c d t = .ok (e, errs)) : Producible e := by
  rw [exprValue] at h
  obtain ⟨⟨v, errs'⟩, hv, h⟩ := ok_of_bind h
  obtain ⟨x, rfl, hx⟩ := value_image hv
  simp only [Value.asExpr, Outcome.ok.injEq, Prod.mk.injEq] at h
  rw [← h.1]; exact hx

/-- The body while the details are read: an aggregate may have no grouping set yet. -/
def Coming : Body → Prop
  | .aggregate gs ms =>
    (gs = [] ∨ ∃ g, gs = [g] ∧ ∀ e ∈ g, Producible e ∧ isRooted e) ∧ ∀ m ∈ ms, MeasureProducible m
  | b => BodyProducible b

theorem optProducible_none : OptProducible none := by simp [OptProducible]

theorem optProducible_some {e : PbExpr} (h : Producible e) : OptProducible (some e) := by
  intro x hx
  rw [← Option.some.inj hx]; exact h

theorem rooted_isRooted (e : PbExpr) : isRooted (rooted e) := by
  intro seg base h
  cases e <;> simp [rooted] at h
  exact h.2.symm

theorem rooted_producible {e : PbExpr} (h : Producible e) : Producible (rooted e) := by
  cases e with
  | field seg base =>
    cases seg with
    | field n child =>
      rw [Producible] at h
      simp only [rooted, Producible]
      exact ⟨h.1, h.2.1, .inl trivial⟩
    | other => simp [Producible] at h
  | masked _ => simp [Producible] at h
  | noReference _ => simp [Producible] at h
  | _ => exact h

theorem filter_image {c : RelContext} {st st' : State} {words : Option Str} {t : ExprTree}
    {errs : List ReadErr} (h : readFilter false c st words t = .ok (st', errs))
    (hc : Coming st.body) : Coming st'.body := by
  rw [readFilter] at h
  obtain ⟨⟨v, errs'⟩, hv, h⟩ := ok_of_bind h
  obtain ⟨e, rfl, he⟩ := value_image hv
  simp only at h
  split at h
  · cases h
  · simp only [Outcome.ok.injEq, Prod.mk.injEq] at h
    obtain ⟨rfl, -⟩ := h
    simp only
    cases hb : st.body with
    | read s t f b p =>
      rw [hb] at hc
      obtain ⟨h1, h2, h3⟩ := hc
      simp only [filterKind, filtersOf, Filter.visitFilter, withFilters]
      cases (Filter.Clause.behavior (⟨words, some e⟩ : Filter.Clause PbExpr)).1 with
      | default =>
        cases f with
        | none => exact ⟨optProducible_some he, h2, h3⟩
        | some _ => exact ⟨h1, h2, h3⟩
      | bestEffort =>
        cases b with
        | none => exact ⟨h1, optProducible_some he, h3⟩
        | some _ => exact ⟨h1, h2, h3⟩
      | postJoin => exact ⟨h1, h2, h3⟩
    | filter f =>
      rw [hb] at hc
      simp only [filterKind, filtersOf, Filter.visitFilter, withFilters]
      split
      · cases f with
        | none => exact optProducible_some he
        | some _ => exact hc
      · exact hc
    | join t x p =>
      rw [hb] at hc
      obtain ⟨h1, h2⟩ := hc
      simp only [filterKind, filtersOf, Filter.visitFilter, withFilters]
      split
      · cases p with
        | none => exact ⟨h1, optProducible_some he⟩
        | some _ => exact ⟨h1, h2⟩
      · exact ⟨h1, h2⟩
    | _ => rw [hb] at hc; exact hc

theorem sortField_image {c : RelContext} {d : Schema.RelData} {t : ExprTree} {b : Option Str}
    {s : PbSort} {errs : List ReadErr} (h : readSortField false c d t b = .ok (s, errs)) :
    SortProducible s := by
  rw [readSortField] at h
  obtain ⟨⟨e, errs'⟩, he, h⟩ := ok_of_map h
  have := exprValue_image he
  cases b with
  | none =>
    simp only [Prod.mk.injEq] at h
    rw [← h.1]
    exact ⟨this, by simp⟩
  | some w =>
    simp only [Prod.mk.injEq] at h
    rw [← h.1]
    exact ⟨this, by simp⟩

/-- The measure while it is read. -/
structure MeasureComing (m : MeasureState) : Prop where
  function : ∀ f, m.measure = some f →
    f.options = [] ∧ f.args = [] ∧ ProducibleArgs f.arguments ∧ f.sorts = []
  filter : OptProducible m.filter
  sorts : ∀ s ∈ m.sorts, SortProducible s

theorem aggregateOf_image {e : PbExpr} {out : Option PbType} {ids : List Str} {f : PbAggregate}
    {errs : List ReadErr} (he : Producible e) (h : aggregateOf e out ids = .ok (f, errs)) :
    f.options = [] ∧ f.args = [] ∧ ProducibleArgs f.arguments ∧ f.sorts = [] := by
  unfold aggregateOf at h
  split at h
  · simp only [Outcome.ok.injEq, Prod.mk.injEq] at h
    rw [← h.1]
    rw [Producible] at he
    exact ⟨rfl, rfl, he.2.1, rfl⟩
  · split at h
    · cases h
    · simp only [Outcome.ok.injEq, Prod.mk.injEq] at h
      rw [← h.1]
      exact ⟨rfl, rfl, by simp [PbAggregate.empty, ProducibleArgs], rfl⟩

theorem measureDetails_image {c : RelContext} {k : Nat} : ∀ (ds : List MeasureDetail)
    {d d' : Schema.RelData} {m m' : MeasureState} {errs : List ReadErr},
    readMeasureDetails false c k d m ds = .ok ((d', m'), errs) → MeasureComing m → MeasureComing m'
  | [], d, d', m, m', errs, h, hm => by
    rw [readMeasureDetails] at h
    simp only [Outcome.ok.injEq, Prod.mk.injEq] at h
    rw [← h.1.2]; exact hm
  | .measure t ty ids :: ds, d, d', m, m', errs, h, hm => by
    rw [readMeasureDetails] at h
    obtain ⟨⟨e, e1⟩, he, h⟩ := ok_of_bind h
    obtain ⟨⟨o, e2⟩, ho, h⟩ := ok_of_bind h
    obtain ⟨⟨f, e3⟩, hf, h⟩ := ok_of_bind h
    have hfi := aggregateOf_image (exprValue_image he) hf
    split at h
    · simp only [Outcome.ok.injEq, Prod.mk.injEq] at h
      rw [← h.1.2]; exact hm
    · obtain ⟨⟨⟨r1, r2⟩, r3⟩, hr, h⟩ := ok_of_map h
      simp only [Prod.mk.injEq] at h
      obtain ⟨⟨rfl, rfl⟩, -⟩ := h
      refine measureDetails_image ds hr ⟨fun g hg => ?_, hm.filter, hm.sorts⟩
      rw [← Option.some.inj hg]; exact hfi
  | .filter t :: ds, d, d', m, m', errs, h, hm => by
    rw [readMeasureDetails] at h
    obtain ⟨⟨e, e1⟩, he, h⟩ := ok_of_bind h
    split at h
    · simp only [Outcome.ok.injEq, Prod.mk.injEq] at h
      rw [← h.1.2]; exact hm
    · obtain ⟨⟨⟨r1, r2⟩, r3⟩, hr, h⟩ := ok_of_map h
      simp only [Prod.mk.injEq] at h
      obtain ⟨⟨rfl, rfl⟩, -⟩ := h
      exact measureDetails_image ds hr
        ⟨hm.function, optProducible_some (exprValue_image he), hm.sorts⟩
  | .invocation id :: ds, d, d', m, m', errs, h, hm => by
    rw [readMeasureDetails] at h
    obtain ⟨⟨⟨r1, r2⟩, r3⟩, hr, h⟩ := ok_of_map h
    simp only [Prod.mk.injEq] at h
    obtain ⟨⟨rfl, rfl⟩, -⟩ := h
    exact measureDetails_image ds hr ⟨hm.function, hm.filter, hm.sorts⟩
  | .sort t b :: ds, d, d', m, m', errs, h, hm => by
    rw [readMeasureDetails] at h
    obtain ⟨⟨s, e1⟩, hs, h⟩ := ok_of_bind h
    obtain ⟨⟨⟨r1, r2⟩, r3⟩, hr, h⟩ := ok_of_map h
    simp only [Prod.mk.injEq] at h
    obtain ⟨⟨rfl, rfl⟩, -⟩ := h
    refine measureDetails_image ds hr ⟨hm.function, hm.filter, fun x hx => ?_⟩
    rcases List.mem_append.mp hx with hx | hx
    · exact hm.sorts x hx
    · rw [List.mem_singleton.mp hx]; exact sortField_image hs

theorem empty_image : PbAggregate.empty.options = [] ∧ PbAggregate.empty.args = [] ∧
    ProducibleArgs PbAggregate.empty.arguments ∧ PbAggregate.empty.sorts = [] :=
  ⟨rfl, rfl, by simp [PbAggregate.empty, ProducibleArgs], rfl⟩

theorem measureOf_image {m : MeasureState} (h : MeasureComing m) : MeasureProducible (measureOf m) := by
  refine ⟨fun f hf => ?_, h.filter⟩
  have hg : ∀ g, (if m.invocation = 0 then m.measure
      else some { m.measure.getD PbAggregate.empty with invocation := m.invocation }) = some g →
      g.options = [] ∧ g.args = [] ∧ ProducibleArgs g.arguments ∧ g.sorts = [] := by
    intro g hg
    split at hg
    · exact h.function g hg
    · rw [← Option.some.inj hg]
      cases hm : m.measure with
      | none => exact empty_image
      | some x => exact h.function x hm
  simp only [measureOf] at hf
  split at hf
  · obtain ⟨h1, h2, h3, h4⟩ := hg f hf
    exact ⟨h1, h2, h3, by rw [h4]; simp⟩
  · rw [← Option.some.inj hf]
    cases hm : (if m.invocation = 0 then m.measure
      else some { m.measure.getD PbAggregate.empty with invocation := m.invocation }) with
    | none => exact ⟨rfl, rfl, empty_image.2.2.1, by simpa [PbAggregate.empty] using h.sorts⟩
    | some x =>
      obtain ⟨h1, h2, h3, h4⟩ := hg x hm
      exact ⟨h1, h2, h3, by simpa [h4] using h.sorts⟩

theorem detail_image {c : RelContext} {st st' : State} {d : Detail} {errs : List ReadErr}
    (h : readDetail false c st d = .ok (st', errs)) (hc : Coming st.body) : Coming st'.body := by
  cases d with
  | common => cases h; exact hc
  | extension => cases h; exact hc
  | emit _ _ => cases h; exact hc
  | filter w t => exact filter_image h hc
  | schema id =>
    simp only [readDetail, readSchema] at h
    split at h
    · rename_i hb
      rw [hb] at hc
      split at h
      · cases h; exact hc
      · cases h; rw [hb]; exact hc
    · cases h; exact hc
  | source id =>
    simp only [readDetail, readSource] at h
    split at h
    · rename_i hb
      rw [hb] at hc
      split at h
      · cases h; exact hc
      · cases h; exact hc
      · cases h
      · cases h; rw [hb]; exact hc
    · cases h; exact hc
  | expression t named =>
    simp only [readDetail, readExpression] at h
    obtain ⟨⟨v, e1⟩, hv, h⟩ := ok_of_bind h
    obtain ⟨e, rfl, he⟩ := value_image hv
    split at h
    · cases h; exact hc
    · rename_i hb
      rw [hb] at hc
      simp only [Value.asExpr, Outcome.ok.injEq, Prod.mk.injEq] at h
      rw [← h.1]
      exact ⟨optProducible_some he, hc.2⟩
    · rename_i es hb
      rw [hb] at hc
      simp only [Value.asExpr, Outcome.ok.injEq, Prod.mk.injEq] at h
      rw [← h.1]
      intro x hx
      rcases List.mem_append.mp hx with hx | hx
      · exact hc x hx
      · rw [List.mem_singleton.mp hx]; exact he
    · cases h; exact hc
  | grouping t =>
    simp only [readDetail, readGrouping] at h
    obtain ⟨⟨v, e1⟩, hv, h⟩ := ok_of_bind h
    obtain ⟨e, rfl, he⟩ := value_image hv
    split at h
    · rename_i gs ms hb
      rw [hb] at hc
      simp only [Value.asExpr] at h
      obtain ⟨x, -, h⟩ := ok_of_map h
      simp only [Prod.mk.injEq] at h
      rw [← h.1]
      refine ⟨.inr ?_, hc.2⟩
      have hr : Producible (rooted e) ∧ isRooted (rooted e) :=
        ⟨rooted_producible he, rooted_isRooted e⟩
      rcases hc.1 with rfl | ⟨g, rfl, hg⟩
      · exact ⟨_, rfl, by simpa using hr⟩
      · refine ⟨_, rfl, fun x hx => ?_⟩
        rcases List.mem_append.mp hx with hx | hx
        · exact hg x hx
        · rw [List.mem_singleton.mp hx]; exact hr
    · cases h; exact hc
  | measure ds =>
    simp only [readDetail, readMeasure] at h
    obtain ⟨⟨⟨r1, r2⟩, r3⟩, hr, h⟩ := ok_of_map h
    have hm := measureDetails_image ds hr ⟨by simp, optProducible_none, by simp⟩
    split at h
    · rename_i gs ms hb
      rw [hb] at hc
      simp only [Prod.mk.injEq] at h
      rw [← h.1]
      refine ⟨hc.1, fun m hmm => ?_⟩
      rcases List.mem_append.mp hmm with hmm | hmm
      · exact hc.2 m hmm
      · rw [List.mem_singleton.mp hmm]; exact measureOf_image hm
    · simp only [Prod.mk.injEq] at h
      rw [← h.1]
      exact hc
  | sort t b =>
    simp only [readDetail, readSort] at h
    split at h
    · rename_i ss hb
      rw [hb] at hc
      obtain ⟨⟨s, e1⟩, hs, h⟩ := ok_of_map h
      simp only [Prod.mk.injEq] at h
      rw [← h.1]
      intro x hx
      rcases List.mem_append.mp hx with hx | hx
      · exact hc x hx
      · rw [List.mem_singleton.mp hx]; exact sortField_image hs
    · cases h; exact hc
  | count text =>
    simp only [readDetail, readCount] at h
    split at h
    · rename_i hb
      rw [hb] at hc
      obtain ⟨r, -, h⟩ := ok_of_map h
      simp only [Prod.mk.injEq] at h
      rw [← h.1]
      exact hc
    · cases h; exact hc
  | type id =>
    simp only [readDetail, readJoinType] at h
    split at h
    · rename_i hb
      rw [hb] at hc
      cases h
      exact hc
    · cases h; exact hc

theorem details_image {c : RelContext} : ∀ (ds : List Detail) {st st' : State}
    {errs : List ReadErr}, readDetails false c st ds = .ok (st', errs) → Coming st.body →
    Coming st'.body
  | [], st, st', errs, h, hc => by cases h; exact hc
  | d :: ds, st, st', errs, h, hc => by
    rw [readDetails] at h
    obtain ⟨⟨s1, e1⟩, h1, h⟩ := ok_of_bind h
    obtain ⟨⟨s2, e2⟩, h2, h⟩ := ok_of_map h
    simp only [Prod.mk.injEq] at h
    rw [← h.1]
    exact details_image ds h2 (detail_image h1 hc)

theorem readEmit_body (first : Bool) (c : RelContext) (st : State) (n : Str) :
    (readEmit first c st n).1.body = st.body := by
  unfold readEmit
  repeat' split
  all_goals rfl

theorem readEmits_body (first : Bool) (c : RelContext) : ∀ (ds : List Detail) (st : State),
    (readEmits first c st ds).1.body = st.body
  | [], _ => rfl
  | d :: ds, st => by
    cases d with
    | emit s n =>
      rw [readEmits]
      simp only
      rw [readEmits_body first c ds, readEmit_body]
    | _ => rw [readEmits]; exact readEmits_body first c ds st; simp

theorem finish_image {st st' : State} {errs : List ReadErr} (h : finish st = .ok (st', errs))
    (hc : Coming st.body) : BodyProducible st'.body := by
  unfold finish at h
  obtain ⟨r, -, h⟩ := ok_of_map h
  simp only [Prod.mk.injEq] at h
  rw [← h.1]
  simp only
  split
  · rename_i hb
    rw [hb] at hc
    exact ⟨⟨[], rfl, by simp⟩, hc.2⟩
  · rename_i hb
    cases hbody : st.body with
    | aggregate gs ms =>
      rw [hbody] at hc
      rcases hc.1 with rfl | hg
      · exact absurd hbody (hb ms)
      · exact ⟨hg, hc.2⟩
    | _ => rw [hbody] at hc; exact hc

theorem emptyBody_coming (k : Enum.RelType) : Coming (emptyBody k) := by
  cases k with
  | aggregate => exact ⟨.inl rfl, by simp⟩
  | read => exact ⟨optProducible_none, optProducible_none, rfl⟩
  | filter => exact optProducible_none
  | fetch => exact rfl
  | join => exact ⟨optProducible_none, optProducible_none⟩
  | cross => trivial
  | set => trivial
  | sort => simp [emptyBody, Coming, BodyProducible]
  | project => simp [emptyBody, Coming, BodyProducible]

/-- **C45, limits.**  Whatever the text, the reader gives a relation of `BodyProducible`. -/
theorem relation_image (c : RelContext) (t : RelTree) {r : PbRel} {errs : List ReadErr}
    (h : readTree c t = .ok (r, errs)) : BodyProducible r.body := by
  unfold readTree at h
  split at h
  · cases h; trivial
  · rename_i k hk
    obtain ⟨a, -, h⟩ := ok_of_bind h
    obtain ⟨⟨b, e⟩, hb, h⟩ := ok_of_map h
    simp only [Prod.mk.injEq] at h
    rw [← h.1]
    rw [readPass] at hb
    obtain ⟨⟨s1, e1⟩, h1, hb⟩ := ok_of_bind hb
    obtain ⟨s2, h2, hb⟩ := ok_of_bind hb
    simp only [Bool.false_and, Bool.false_eq_true, if_false] at hb
    obtain ⟨⟨s3, e3⟩, h3, hb⟩ := ok_of_map hb
    simp only [Prod.mk.injEq] at hb
    rw [← hb.1]
    refine finish_image h3 ?_
    rw [readEmits_body]
    have hs : s2.body = s1.body := by
      unfold addProject at h2
      split at h2
      · obtain ⟨d, -, h2⟩ := ok_of_map h2
        rw [← h2]
      · cases h2; rfl
    rw [hs]
    exact details_image t.details h1 (emptyBody_coming k)

/-- **C45, limits.**  A relation outside `BodyProducible` does not survive: there is no text for it
at all. -/
theorem unproducible_relation_lost (c : RelContext) {r : PbRel} (h : ¬ BodyProducible r.body) :
    (∀ text errs, readText c text ≠ some (.ok (r, errs))) ∧ ¬ ReadsBack c r := by
  have h1 : ∀ text errs, readText c text ≠ some (.ok (r, errs)) := by
    intro text errs ht
    unfold readText at ht
    cases hp : parseText text with
    | none => rw [hp] at ht; cases ht
    | some t =>
      rw [hp, Option.map_some, Option.some.injEq] at ht
      exact h (relation_image c t ht)
  exact ⟨h1, fun ⟨text, _, ht⟩ => h1 text [] ht⟩

/-- The relations no text stands for. -/
theorem unproducible_relations (o n : Int) (ho : o ≠ 0) (s t : Option Str)
    (f b : Option PbExpr) (e : PbExpr) (k : Nat) (ss : List PbSort) (g h : List PbExpr)
    (gs : List (List PbExpr)) (ms : List PbMeasure) (seg : Segment) (steps : Nat)
    (m : PbMeasure) (a : PbAggregate) (hm : m.measure = some a) (ha : a.options ≠ []) :
    ¬ BodyProducible (.fetch o n) ∧
    ¬ BodyProducible (.read s t f b true) ∧
    ¬ BodyProducible (.sort (⟨e, .comparison k⟩ :: ss)) ∧
    ¬ BodyProducible (.aggregate [] ms) ∧
    ¬ BodyProducible (.aggregate (g :: h :: gs) ms) ∧
    ¬ BodyProducible (.aggregate [.field seg (.outer steps) :: g] ms) ∧
    ¬ BodyProducible (.aggregate gs (m :: ms)) := by
  refine ⟨ho, fun h => absurd h.2.2 (by simp), fun h => ?_, fun h => ?_, fun h => ?_, fun h => ?_,
    fun h => ?_⟩
  · exact (h ⟨e, .comparison k⟩ (by simp)).2 k rfl
  · obtain ⟨⟨g, hg, -⟩, -⟩ := h; cases hg
  · obtain ⟨⟨g, hg, -⟩, -⟩ := h; cases hg
  · obtain ⟨⟨g, hg, hr⟩, -⟩ := h
    cases hg
    have := (hr (.field seg (.outer steps)) (by simp)).2 seg _ rfl
    cases this
  · exact ha ((h.2 m (by simp)).1 a hm).1

end Verif.Rel
