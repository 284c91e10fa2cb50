import Verif.Prop.RelationLoss

/-!
# C45: relations that are reported, refused or misread
-/

namespace Verif.Rel

open Verif Verif.TyPb Verif.Tree Verif.Literal Verif.Lex Verif.Parse Verif.Expr

/-! ## What the printer reports -/

/-- Something is reported. -/
def Reports (t : Text) : Prop := ∀ text errs, t = .ok (text, errs) → errs ≠ []

theorem reports_left {p q : Text} (h : Reports p) : Reports (Text.and p q) := by
  intro text errs ht
  obtain ⟨a, ha, ht⟩ := ok_of_bind ht
  obtain ⟨b, hb, ht⟩ := ok_of_map ht
  simp only [Prod.mk.injEq] at ht
  intro he
  rw [← ht.2] at he
  exact h a.1 a.2 ha (List.append_eq_nil_iff.mp he).1

theorem reports_right {p q : Text} (h : Reports q) : Reports (Text.and p q) := by
  intro text errs ht
  obtain ⟨a, ha, ht⟩ := ok_of_bind ht
  obtain ⟨b, hb, ht⟩ := ok_of_map ht
  simp only [Prod.mk.injEq] at ht
  intro he
  rw [← ht.2] at he
  exact h b.1 b.2 hb (List.append_eq_nil_iff.mp he).2

theorem reports_relation {c : RelContext} {r : PbRel} {t : Text} (hb : printBody c r = some t)
    (h : Reports t) : Reports (printRelation c r) := by
  rw [printRelation, hb]
  exact reports_right (reports_right (reports_right (reports_left h)))

theorem reports_measures (c : RelContext) : ∀ (ms : List PbMeasure) (k : Nat),
    (∃ m ∈ ms, m.measure = none) → Reports (printMeasures c k ms)
  | [], _, h => by simp at h
  | m :: ms, k, ⟨x, hx, hn⟩ => by
    rw [printMeasures]
    rcases List.mem_cons.mp hx with rfl | hx
    · refine reports_left ?_
      intro text errs ht
      rw [printMeasure, hn] at ht
      simp only [Outcome.ok.injEq, Prod.mk.injEq] at ht
      rw [← ht.2]
      simp
    · exact reports_right (reports_measures c ms (k + 1) ⟨x, hx, hn⟩)

theorem reports_sorts (c : Context) : ∀ (ss : List PbSort) (acc : Str × List PrintErr),
    (acc.2 ≠ [] ∨ ((∀ s ∈ ss, ∀ f, s.kind ≠ .comparison f) ∧ ∃ s ∈ ss, s.kind = .notSet)) →
    Reports (printSorts c acc ss)
  | [], acc, h => by
    intro text errs ht
    rw [printSorts, Outcome.ok.injEq] at ht
    rcases h with h | h
    · rw [ht] at h; exact h
    · simp at h
  | ⟨e, k⟩ :: ss, acc, h => by
    intro text errs ht
    rw [printSorts] at ht
    obtain ⟨r, hr, ht⟩ := ok_of_bind ht
    cases k with
    | notSet =>
      simp only at ht
      exact reports_sorts c ss _ (.inl (by simp)) text errs ht
    | comparison f =>
      simp only at ht
      rcases h with h | h
      · simp only [Outcome.ok.injEq, Prod.mk.injEq] at ht
        rw [← ht.2]
        simp [h]
      · exact absurd rfl (h.1 ⟨e, .comparison f⟩ (by simp) f)
    | direction n =>
      simp only at ht
      refine reports_sorts c ss _ ?_ text errs ht
      rcases h with h | ⟨h1, s, hs, hk⟩
      · exact .inl (by simp [h])
      · refine .inr ⟨fun s hs => h1 s (by simp [hs]), s, ?_, hk⟩
        rcases List.mem_cons.mp hs with rfl | hs
        · cases hk
        · exact hs

theorem reports_emits (c : RelContext) : ∀ is : List Int,
    (∃ i ∈ is, Schema.printEmit c.here i = none) → Reports (printEmitLines c is)
  | [], h => by simp at h
  | j :: js, ⟨i, hi, hn⟩ => by
    rw [printEmitLines]
    rcases List.mem_cons.mp hi with rfl | hi
    · refine reports_left ?_
      intro text errs ht
      rw [printEmitLine, hn] at ht
      simp only [Outcome.ok.injEq, Prod.mk.injEq] at ht
      rw [← ht.2]
      simp
    · exact reports_right (reports_emits c js ⟨i, hi, hn⟩)

/-- What is set in a relation and has no text, and is reported: a kind the printer does not
know, a read without a kind, a projection, a measure without a function, a sort without a kind, a
number in an output mapping for which there is no field. -/
def Reported (c : RelContext) (r : PbRel) : Prop :=
  match r.body with
  | .other => True
  | .read s _ _ _ p => s = none ∨ p = true
  | .aggregate _ ms =>
    (∃ m ∈ ms, m.measure = none) ∨ ∃ i ∈ r.emit, Schema.printEmit c.here i = none
  | .sort ss => (∀ s ∈ ss, ∀ f, s.kind ≠ .comparison f) ∧ ∃ s ∈ ss, s.kind = .notSet
  | .project _ => ∃ i ∈ r.emit, Schema.printEmit c.here i = none
  | _ => False

/-- **C45.**  These are reported whatever else is in the relation. -/
theorem relation_reported (c : RelContext) (r : PbRel) (h : Reported c r) :
    Reports (printRelation c r) := by
  obtain ⟨body, emit⟩ := r
  cases body with
  | other =>
    intro text errs ht
    simp only [printRelation, printBody, Outcome.ok.injEq, Prod.mk.injEq] at ht
    rw [← ht.2]; simp
  | read s t f b p =>
    rcases h with rfl | rfl
    · intro text errs ht
      simp only [printRelation, printBody, Outcome.ok.injEq, Prod.mk.injEq] at ht
      rw [← ht.2]; simp
    · cases s with
      | none =>
        intro text errs ht
        simp only [printRelation, printBody, Outcome.ok.injEq, Prod.mk.injEq] at ht
        rw [← ht.2]; simp
      | some s =>
        refine reports_relation rfl (reports_right (reports_right ?_))
        intro text errs ht
        simp only [projectionLine, if_true, Outcome.ok.injEq, Prod.mk.injEq] at ht
        rw [← ht.2]; simp
  | aggregate gs ms =>
    rcases h with h | h
    · exact reports_relation rfl (reports_right (reports_left (reports_measures c ms 0 h)))
    · exact reports_relation rfl (reports_right (reports_right (reports_right
        (reports_emits c emit h))))
  | sort ss => exact reports_relation rfl (reports_sorts c.expr ss _ (.inr h))
  | project es => exact reports_relation rfl (reports_right (reports_right (reports_emits c emit h)))
  | filter _ => exact h.elim
  | fetch _ _ => exact h.elim
  | join _ _ _ => exact h.elim
  | cross => exact h.elim

/-- Non-vacuity: an output mapping with a number that is too large; a projection. -/
example : Reported sampleProject ⟨.project [ref 1, sampleSum], [9]⟩ :=
  ⟨9, by simp, by decide⟩

example (c : RelContext) (s : Option Str) : Reported c ⟨.read s none none none true, []⟩ :=
  .inr rfl

/-! ## Sorts -/

/-- What is printed before a sort with a comparison function does not matter. -/
theorem sorts_after (c : Context) (e : PbExpr) (f : Nat) (post : List PbSort) :
    ∀ (pre : List PbSort) (acc : Str × List PrintErr) (text : Str) (errs : List PrintErr),
    printSorts c acc (pre ++ ⟨e, .comparison f⟩ :: post) = .ok (text, errs) →
    (∀ s ∈ pre, ∀ g, s.kind ≠ .comparison g) → text = (functionText c f).1
  | [], acc, text, errs, h, _ => by
    rw [List.nil_append, printSorts] at h
    obtain ⟨r, -, h⟩ := ok_of_bind h
    simp only [Outcome.ok.injEq, Prod.mk.injEq] at h
    exact h.1.symm
  | ⟨x, k⟩ :: pre, acc, text, errs, h, hp => by
    rw [List.cons_append, printSorts] at h
    obtain ⟨r, -, h⟩ := ok_of_bind h
    have hp' : ∀ s ∈ pre, ∀ g, s.kind ≠ .comparison g := fun s hs => hp s (by simp [hs])
    cases k with
    | notSet => exact sorts_after c e f post pre _ text errs h hp'
    | direction n => exact sorts_after c e f post pre _ text errs h hp'
    | comparison g => exact absurd rfl (hp ⟨x, .comparison g⟩ (by simp) g)

theorem text_between {a b : Str} {e g : List PrintErr} {t : Text} {x : Str} {errs : List PrintErr}
    (h : Text.and (.ok (a, e)) (Text.and t (.ok (b, g))) = .ok (x, errs)) :
    ∃ y f, t = .ok (y, f) ∧ x = a ++ (y ++ b) := by
  cases t with
  | ok r =>
    simp only [Text.and, Outcome.bind, Outcome.map, Outcome.ok.injEq, Prod.mk.injEq] at h
    exact ⟨r.1, r.2, rfl, h.1.symm⟩
  | throw _ => cases h
  | ub => cases h

/-- **C45 is false.**  A comparison function in a sort relation replaces everything by its name:
the other sort fields, before and after it, and what is sorted by are not in the text. -/
theorem comparison_replaces_sorts (c : RelContext) (pre post : List PbSort) (e : PbExpr) (f : Nat)
    (emit : List Int) (hp : ∀ s ∈ pre, ∀ g, s.kind ≠ .comparison g) {text : Str}
    {errs : List PrintErr}
    (h : printRelation c ⟨.sort (pre ++ ⟨e, .comparison f⟩ :: post), emit⟩ = .ok (text, errs)) :
    text = kindText .sort ++ " relation ".toList ++ c.name ++ " {\n".toList ++
      ((functionText c.expr f).1 ++ "}\n".toList) := by
  rw [printRelation] at h
  simp only [printBody, Body.names, nameLine, Body.kind, text_none_and] at h
  obtain ⟨y, f', hs, hx⟩ := text_between h
  rw [hx, sorts_after c.expr e f post pre _ y f' hs hp]

theorem reads_as {c : RelContext} {r : PbRel} {text : Str} {t : RelTree}
    {o : Outcome (PbRel × List ReadErr)} (hp : parseText text = some t)
    (h : printRelation c r = .ok (text, [])) (hr : readTree c t = o) :
    ∃ text, printRelation c r = .ok (text, []) ∧ readText c text = some o :=
  ⟨text, h, by rw [readText, hp, Option.map_some, hr]⟩

theorem good_sortPlain {i : Item} (h : Good i) :
    GoodDetail ⟨"  sort ".toList ++ i.text ++ lineEnd,
      ⟨.sort, sortWord⟩ :: (i.toks ++ [semiTok]), .sort i.tree none⟩ where
  lexes := Lexes.cast (lexes_line 2 lexes_sort h.lexes _)
    (by rw [show "  sort ".toList = List.replicate 2 ' ' ++ (sortWord ++ [' ']) from by decide]
        simp) (by simp)
  head := ⟨_, _, rfl, by simp⟩
  parses rest := by
    refine parseDetail_of ?_
    simp only [List.cons_append, List.append_assoc, List.nil_append, parseKeywordDetail, parseSort]
    rw [exprOf_good h (by simp [goesOn, semiTok]), Option.bind_some, parseOptId,
      if_neg (by simp [nextIs, semiTok])]
    exact semi_ok _ _

theorem readDetail_sortPlain {first : Bool} {c : RelContext} {st : State} {done : List PbSort}
    {x : PbExpr} {t : ExprTree} (hb : st.body = .sort done)
    (hx : exprValue first c st.data t = .ok (x, [])) :
    readDetail first c st (.sort t none) =
      .ok ({ st with body := .sort (done ++ [⟨x, .notSet⟩]) }, []) := by
  simp only [readDetail, readSort, hb, readSortField, hx, Outcome.map]

/-- **C45 is false.**  The direction 0 is printed as no direction, without an error, and is read
as a sort field without a kind. -/
theorem unspecified_direction_lost (c : RelContext) (hlib : c.expr.lib.Numerals)
    (hn : Ext.IsName c.name) (ho : c.inside = false → c.firstInputs = c.inputs)
    (e : PbExpr) (he : ExprOk c (c.start false) e) (emit : List Int) :
    ∃ text, printRelation c ⟨.sort [⟨e, .direction 0⟩], emit⟩ = .ok (text, []) ∧
      readText c text = some (.ok (⟨.sort [⟨e, .notSet⟩], []⟩, [])) := by
  obtain ⟨i, hi⟩ := expr_item hlib he
  have hl := Lines.one (c := c) (good_sortPlain hi.good) trivial
  have hpass : Passes c ([Detail.sort i.tree none]) ⟨.sort [⟨e, .notSet⟩], []⟩ := by
    refine passes_flat (by simp [Flat, Body.kind]) (by simp [notEmit]) fun first names => ?_
    obtain ⟨x, hx, hxe, -⟩ := hi.value first (startState first c .sort names).data
      (start_tracks ho first .sort names)
    refine ⟨{ startState first c .sort names with body := .sort ([] ++ [⟨x, .notSet⟩]) },
      details_cons ?_ (details_nil _ _ _), rfl, rfl, rfl, fun hf => by rw [hxe hf]; rfl,
      fun he => start_same he first .sort names⟩
    exact readDetail_sortPlain rfl (exprValue_ok hx)
  have hmade := relation_text .sort hn hl.good
  obtain ⟨s, s', p1, p2, p3, p4, -⟩ := hpass.both
  simp only [Body.kind] at p1 p2 p3 p4
  refine reads_as hmade ?_ ?_
  rotate_left
  · rw [readTree]
    simp only [readKind]
    simp only [List.map_cons, List.map_nil]
    rw [p1]
    simp only [Outcome.bind]
    rw [p2]
    simp only [Outcome.map, p3, p4, List.append_nil]
  · simp only [printRelation, printBody, Body.names, nameLine, Body.kind, text_none_and, printSorts,
      hi.printed, Outcome.bind, List.nil_append, List.map_nil]
    have hd : directionText 0 = [] := by decide
    rw [hd, text_and, text_and]
    simp [linesText]

/-- Non-vacuity of these: the column `a`. -/
theorem sample_column_ok : ExprOk sampleProject (sampleProject.start false) (ref 0) :=
  ⟨⟨by decide, by decide, .inl rfl, "a".toList, by decide, column_a, by decide⟩, trivial⟩

/-! ## Reads -/

theorem details_snoc {first : Bool} {c : RelContext} {st' st'' : State} {d : Detail}
    {errs : List ReadErr} (hd : readDetail first c st' d = .ok (st'', errs)) :
    ∀ {a : List Detail} {st : State}, readDetails first c st a = .ok (st', []) →
    readDetails first c st (a ++ [d]) = .ok (st'', errs)
  | [], st, h => by
    cases h
    simp only [List.nil_append, readDetails, hd, Outcome.bind, Outcome.map, List.append_nil]
  | x :: xs, st, h => by
    rw [readDetails] at h
    obtain ⟨⟨s1, e1⟩, h1, h⟩ := ok_of_bind h
    obtain ⟨⟨s2, e2⟩, h2, h⟩ := ok_of_map h
    simp only [Prod.mk.injEq] at h
    obtain ⟨rfl, he⟩ := h
    obtain ⟨rfl, rfl⟩ := List.append_eq_nil_iff.mp he
    rw [List.cons_append, readDetails, h1]
    simp only [Outcome.bind]
    rw [details_snoc hd h2]
    rfl

theorem pass_flat_errs {first : Bool} {c : RelContext} {k : Enum.RelType} {ds : List Detail}
    {names : List Str} {st : State} {errs : List ReadErr} (hds : ∀ d ∈ ds, notEmit d)
    (h : readDetails first c (startState first c k names) ds = .ok (st, errs))
    (hb : Flat st.body) (he : st.emit = []) (ha : st.data.aggregate = false) :
    readPass first c k ds names = .ok (st, errs) := by
  rw [readPass, h]
  simp only [Outcome.bind]
  have hp : addProject first c st = .ok st := by
    unfold addProject
    obtain ⟨b, e, d, n⟩ := st
    cases b <;> first | rfl | exact absurd rfl hb.1
  rw [hp]
  simp only
  split
  · rfl
  · rw [emits_none first c st hds]
    have hf : finish st = .ok (st, []) := by
      obtain ⟨b, e, d, n⟩ := st
      simp only at he ha
      subst he
      unfold finish
      simp only [ha, Schema.applyText, List.isEmpty_nil, if_true, Outcome.map, Bool.false_eq_true,
        if_false, List.map_nil]
      cases b <;> first | rfl | exact absurd rfl hb.2
    simp only [hf, Outcome.map, List.append_nil]

theorem readDetail_second_filter {first : Bool} {c : RelContext} {st : State} {s t : Option Str}
    {x y : PbExpr} {u : ExprTree} (hb : st.body = .read s t (some x) none false)
    (hx : value first c st.data u = .ok (.expr y, [])) :
    readDetail first c st (.filter none u) = .ok (st, [.filter .twice]) := by
  obtain ⟨body, emit, data, names⟩ := st
  simp only at hb hx
  subst hb
  simp only [readDetail, readFilter, hx, Outcome.bind]
  rfl

theorem readDetail_first_filter {first : Bool} {c : RelContext} {st : State} {s t : Option Str}
    {x : PbExpr} {u : ExprTree} (hb : st.body = .read s t none none false)
    (hx : value first c st.data u = .ok (.expr x, [])) :
    readDetail first c st (.filter none u) =
      .ok ({ st with body := .read s t (some x) none false }, []) := by
  obtain ⟨body, emit, data, names⟩ := st
  simp only at hb hx
  subst hb
  simp only [readDetail, readFilter, hx, Outcome.bind]
  rfl

/-- **C45.**  A read with a filter and a best effort filter is printed with two filters; the
second is refused in both passes, and is lost. -/
theorem second_filter_refused (c : RelContext) (hlib : c.expr.lib.Numerals)
    (hn : Ext.IsName c.name) (ho : c.inside = false → c.firstInputs = c.inputs)
    {s : Str} {schema : Option Str} {cols : List Schema.Field} {f b : PbExpr} (hs : Ext.IsName s)
    (hsrc : c.source s = some .named ∨ c.source s = some .files) (hsch : SchemaOk c schema cols)
    (hf : ExprOk c { c.start false with output := cols } f)
    (hb : ExprOk c { c.start false with output := cols } b) (emit : List Int) :
    ∃ text, printRelation c ⟨.read (some s) schema (some f) (some b) false, emit⟩ = .ok (text, []) ∧
      readText c text = some (.ok (⟨.read (some s) schema (some f) none false, []⟩,
        [.filter .twice, .filter .twice])) := by
  obtain ⟨l1, hl1, -, hr1⟩ := source_line c hs hsrc
  obtain ⟨l2, hl2, -, hr2⟩ := schema_line c hsch
  obtain ⟨j, hj⟩ := expr_item hlib hf
  obtain ⟨i, hi⟩ := expr_item hlib hb
  have hl3 := Lines.one (c := c) (good_filter hj.good) trivial
  have hl4 := Lines.one (c := c) (good_filter hi.good) trivial
  have hall := hl1.append (hl2.append (hl3.append hl4))
  have pass : ∀ first names, ∃ st, readPass first c .read
      (l1.map (·.detail) ++ (l2.map (·.detail) ++ [Detail.filter none j.tree]) ++
        [Detail.filter none i.tree]) names = .ok (st, [.filter .twice]) ∧
      (first = false → st.body = .read (some s) schema (some f) none false ∧ st.emit = []) := by
    intro first names
    have ht := start_tracks ho first .read names
    have e1 := hr1 first (startState first c .read names) none rfl
    have e2 := hr2 first { startState first c .read names with
      body := .read (some s) none none none false } (some s) rfl
    obtain ⟨d, hd⟩ : ∃ d, d = { (startState first c .read names).data with
      output := (startState first c .read names).data.output ++ cols } := ⟨_, rfl⟩
    have ht' : loose first c = false → d = { c.start false with output := cols } := by
      intro hlo
      rw [hd, ht hlo]; rfl
    obtain ⟨x, hx, hxf, -⟩ := hj.value first d ht'
    obtain ⟨y, hy, -, -⟩ := hi.value first d ht'
    have e3 := details_cons (readDetail_first_filter (st := { startState first c .read names with
      body := .read (some s) schema none none false, data := d }) rfl hx) (details_nil _ _ _)
    rw [hd] at e3
    have e4 := details_append (details_append e3 e2) e1
    rw [← hd] at e4
    have e5 := details_snoc (readDetail_second_filter (st := { startState first c .read names with
      body := .read (some s) schema (some x) none false, data := d }) rfl hy) e4
    refine ⟨_, pass_flat_errs ?_ e5 (by simp [Flat, Body.kind]) rfl (by rw [hd]; rfl),
      fun hff => ⟨by rw [hxf hff], rfl⟩⟩
    intro d hd
    refine hall.quiet d ?_
    simpa [List.map_append] using hd
  have hmade := relation_text .read hn hall.good
  obtain ⟨a, p1, -⟩ := pass true []
  obtain ⟨z, p2, p3⟩ := pass false a.names
  refine reads_as hmade ?_ ?_
  rotate_left
  · rw [readTree]
    simp only [readKind]
    simp only [List.map_append, List.map_cons, List.map_nil]
    simp only [List.append_assoc] at p1 p2
    rw [p1]
    simp only [Outcome.bind]
    rw [p2]
    simp only [Outcome.map, p3, List.cons_append, List.nil_append]
  · simp only [printRelation, printBody, Body.names, Body.kind, optLine, hj.printed, hi.printed,
      line_ok]
    rw [hl1.printed, hl2.printed]
    simp only [projectionLine, Bool.false_eq_true, if_false, text_and_none, text_and]
    simp [linesText_append, linesText]

/-- Non-vacuity: there is a source; for the filters see `sample_column_ok`. -/
example : sampleProject.source "table".toList = some .named ∧ SchemaOk sampleProject none [] ∧
    ExprOk sampleProject { sampleProject.start false with output := [] } (ref 0) :=
  ⟨by decide, rfl, sample_column_ok⟩

/-- **C45.**  The source of a read is dropped without an error if its name is not known, or is the
name of a virtual table, of an extension table or of an unknown source. -/
theorem source_ignored (c : RelContext) (hn : Ext.IsName c.name) {s : Str} (hs : Ext.IsName s)
    (hsrc : c.source s = none ∨ c.source s = some .virtual ∨ c.source s = some .extension ∨
      c.source s = some .unknown) (emit : List Int) :
    ∃ text, printRelation c ⟨.read (some s) none none none false, emit⟩ = .ok (text, []) ∧
      readText c text = some (.ok (⟨.read none none none none false, []⟩, [])) := by
  have hl := Lines.one (c := c) (good_source hs) trivial
  have hd : ∀ first st, st.body = .read none none none none false →
      readDetail first c st (.source s) = .ok (st, []) := by
    intro first st hb
    simp only [readDetail, readSource, hb]
    rcases hsrc with h | h | h | h <;> rw [h]
  have hpass : Passes c [Detail.source s] ⟨.read none none none none false, []⟩ :=
    passes_flat (by simp [Flat, Body.kind]) (by simp [notEmit]) fun first names =>
      ⟨_, details_cons (hd first _ rfl) (details_nil _ _ _), rfl, rfl, rfl, fun _ => rfl,
        fun he => start_same he first .read names⟩
  have hmade := relation_text .read hn hl.good
  obtain ⟨a, b, p1, p2, p3, p4, -⟩ := hpass.both
  simp only [Body.kind] at p1 p2 p3 p4
  refine reads_as hmade ?_ ?_
  rotate_left
  · rw [readTree]
    simp only [readKind]
    simp only [List.map_cons, List.map_nil]
    rw [p1]
    simp only [Outcome.bind]
    rw [p2]
    simp only [Outcome.map, p3, p4, List.append_nil]
  · simp only [printRelation, printBody, Body.names, Body.kind, optLine, nameLine, projectionLine,
      Bool.false_eq_true, if_false, text_none_and, text_and]
    simp [linesText]

/-- Non-vacuity. -/
example : (sampleRel ⟨false, [], [], []⟩).source "main".toList = none ∧
    Ext.IsName "main".toList := ⟨by decide, name_main⟩

/-! ## Joins and measures -/

/-- **C45.**  The line for the filter after a join cannot be read. -/
theorem post_join_unreadable :
    ∃ text, printRelation sampleProject ⟨.join 1 none (some (ref 0)), []⟩ = .ok (text, []) ∧
      readText sampleProject text = none := by
  refine ⟨"join relation main {\n  type JOIN_TYPE_INNER;\n  post_join a;\n}\n".toList, ?_, ?_⟩
  · simp only [printRelation, printBody, Body.names, Body.kind, optLine, nameLine, text_none_and]
    rw [ref, printExpr]
    decide +kernel
  · have hl : lex "join relation main {\n  type JOIN_TYPE_INNER;\n  post_join a;\n}\n".toList =
        some [idTok "join", ⟨.relation, "relation".toList⟩, idTok "main", openTok,
          ⟨.type, "type".toList⟩, idTok "JOIN", uTok, ⟨.type, "TYPE".toList⟩, uTok, idTok "INNER",
          semiTok, idTok "post", uTok, idTok "join", idTok "a", semiTok, closeTok] := by
      decide +kernel
    unfold readText parseText
    rw [hl]
    rfl

/-- **C45.**  A measure that is no call of a function and has no name is undefined behaviour. -/
theorem measure_undefined {first : Bool} {c : RelContext} {st : State} {t : ExprTree}
    {ty : Option TypeTree} {e : PbExpr} {errs : List ReadErr} {ds : List MeasureDetail}
    (hv : exprValue first c st.data t = .ok (e, errs))
    (he : ∀ f o as xs u, e ≠ .call f o as xs u) :
    readDetail first c st (.measure (.measure t ty [] :: ds)) = .ub := by
  have h1 : readMeasureType e ty = .ok (none, []) := by
    unfold readMeasureType
    cases e with
    | call f o as xs u => exact absurd rfl (he f o as xs u)
    | _ => cases ty <;> rfl
  have h2 : ∀ out, aggregateOf e out [] = .ub := by
    intro out
    unfold aggregateOf
    cases e with
    | call f o as xs u => exact absurd rfl (he f o as xs u)
    | _ => rfl
  rw [readDetail, readMeasure, readMeasureDetails, hv]
  simp only [Outcome.bind]
  rw [h1]
  simp only [h2, Outcome.map]

/-- A text that does this: the measure is a column. -/
theorem measure_column_undefined :
    readText sampleAggregate
      "aggregate relation main {\n  measure {\n    measure a;\n  }\n}\n".toList = some .ub := by
  have hl : lex "aggregate relation main {\n  measure {\n    measure a;\n  }\n}\n".toList =
      some [idTok "aggregate", ⟨.relation, "relation".toList⟩, idTok "main", openTok,
        ⟨.measure, "measure".toList⟩, openTok, ⟨.measure, "measure".toList⟩, idTok "a", semiTok,
        closeTok, closeTok] := by decide +kernel
  have hp : parseText "aggregate relation main {\n  measure {\n    measure a;\n  }\n}\n".toList =
      some ⟨"aggregate".toList, ⟨"main".toList, none⟩,
        [.measure [.measure (.column none "a".toList) none []]]⟩ := by
    unfold parseText
    rw [hl]
    rfl
  rw [readText, hp, Option.map_some, readTree]
  have hk : Enum.readRelationType "aggregate".toList = some .aggregate := by decide
  simp only [hk]
  rw [readPass, readDetails, measure_undefined (e := ref 0) (errs := [])]
  · rfl
  · simp only [exprValue, value, if_true, first]
    rfl
  · intro f o as xs u h
    cases h

/-- **C45 is false.**  A name without a phase before it is taken for the phase, and the measure
gets no name. -/
theorem measure_name_taken_for_phase (c : RelContext) (k f o : Nat) (as : List PbArg)
    (xs : List PbExpr) (t : PbType) (out : Option PbType) (n : Str) (d : Schema.RelData) :
    (∃ errs, aggregateOf (.call f o as xs t) out [n] =
      .ok (⟨f, [], as, [], out.getD t, (Enum.readPhase n).1, 0, []⟩, errs)) ∧
    pushMeasure c k [n] d = d := ⟨⟨_, rfl⟩, rfl⟩

/-- The identifiers of ` NAMED <name>` are that name only. -/
example : parseIds [⟨.named, "NAMED".toList⟩, idTok "PARTIAL", semiTok] =
    some (["PARTIAL".toList], [semiTok]) := by rfl

end Verif.Rel
