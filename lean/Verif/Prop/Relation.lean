import Verif.Lemmas.RelationRead

/-!
# C45: relations in text plans
-/

namespace Verif.Rel

open Verif Verif.TyPb Verif.Tree Verif.Literal Verif.Lex Verif.Parse Verif.Expr

/-! ## Both passes -/

/-- The relation has no output mapping in the reader: no project and no aggregate. -/
def Flat (b : Body) : Prop := b.kind ≠ .project ∧ b.kind ≠ .aggregate

/-- Both passes go through without an error, and the second gives the relation.  Where the
relation is not itself the one a subquery names, or has no output mapping, both passes know its
fields. -/
structure Passes (c : RelContext) (ds : List Detail) (r : PbRel) : Prop where
  both : ∃ a b, readPass true c r.body.kind ds [] = .ok (a, []) ∧
    readPass false c r.body.kind ds a.names = .ok (b, []) ∧ b.body = r.body ∧ b.emit = r.emit ∧
    (c.inside = false ∨ Flat r.body → c.firstInputs = c.inputs → DataKnown c r →
      a.data = readData c r ∧ b.data = readData c r)

/-- A relation is printed as these lines, which both passes read. -/
structure RelMade (c : RelContext) (r : PbRel) (ls : List (Line Detail)) : Prop where
  good : ∀ l ∈ ls, GoodDetail l
  printed : ∃ a b t, nameLine "  source ".toList r.body.names.1 = .ok (a, []) ∧
    nameLine "  base_schema ".toList r.body.names.2 = .ok (b, []) ∧
    printBody c r = some (.ok (t, [])) ∧ linesText ls = a ++ (b ++ t)
  read : Passes c (ls.map (·.detail)) r
  refs : Asks ls (askedBody r.body) r.body.names.2.toList

theorem RelMade.readsBack {c : RelContext} {r : PbRel} {ls : List (Line Detail)}
    (h : RelMade c r ls) (hn : Ext.IsName c.name) : ReadsBack c r := by
  obtain ⟨a, b, t, h1, h2, h3, h4⟩ := h.printed
  obtain ⟨s, s', p1, p2, p3, p4, -⟩ := h.read.both
  refine ⟨(kindText r.body.kind ++ " relation ".toList ++ c.name ++ " {\n".toList) ++
    (linesText ls ++ "}\n".toList), ?_, ?_⟩
  · rw [printRelation, h3]
    simp only
    rw [h1, h2, text_and, text_and, text_and, text_and, h4]
    simp only [List.append_assoc]
  · rw [readText, relation_text r.body.kind hn h.good, Option.map_some, readTree]
    simp only [readKind]
    rw [p1]
    simp only [Outcome.bind]
    rw [p2]
    simp only [Outcome.map, p3, p4, List.append_nil]

/-! ## Relations without an output mapping -/

theorem pass_flat {first : Bool} {c : RelContext} {k : Enum.RelType} {ds : List Detail}
    {names : List Str} {st : State} (hds : ∀ d ∈ ds, notEmit d)
    (h : readDetails first c (startState first c k names) ds = .ok (st, []))
    (hb : Flat st.body) (he : st.emit = []) (ha : st.data.aggregate = false) :
    readPass first c k ds names = .ok (st, []) := by
  rw [readPass, h]
  simp only [Outcome.bind]
  have hp : addProject first c st = .ok st := by
    unfold addProject
    obtain ⟨b, e, d, n⟩ := st
    cases b <;> first | rfl | exact absurd rfl hb.1
  rw [hp]
  simp only
  split
  · rfl
  · rw [emits_none first c st hds]
    have hf : finish st = .ok (st, []) := by
      obtain ⟨b, e, d, n⟩ := st
      simp only at he ha
      subst he
      unfold finish
      simp only [ha, Schema.applyText, List.isEmpty_nil, if_true, Outcome.map, Bool.false_eq_true,
        if_false, List.map_nil]
      cases b <;> first | rfl | exact absurd rfl hb.2
    simp only [hf, Outcome.map, List.append_nil]

/-- Details that lead, in either pass, from the empty relation to one with this body. -/
def Leads (c : RelContext) (ds : List Detail) (body : Body) : Prop :=
  ∀ first names, ∃ st, readDetails first c (startState first c body.kind names) ds = .ok (st, []) ∧
    st.body.kind = body.kind ∧ st.emit = [] ∧ st.data.aggregate = false ∧
    (first = false → st.body = body) ∧
    (c.firstInputs = c.inputs → st.data = readData c ⟨body, []⟩)

theorem passes_flat {c : RelContext} {ds : List Detail} {body : Body} (hf : Flat body)
    (hds : ∀ d ∈ ds, notEmit d) (h : Leads c ds body) : Passes c ds ⟨body, []⟩ := by
  obtain ⟨a, a1, a2, a3, a4, -, a6⟩ := h true []
  obtain ⟨b, b1, b2, b3, b4, b5, b6⟩ := h false a.names
  have hfa : Flat a.body := by unfold Flat; rw [a2]; exact hf
  have hfb : Flat b.body := by unfold Flat; rw [b2]; exact hf
  exact ⟨a, b, pass_flat hds a1 hfa a3 a4, pass_flat hds b1 hfb b3 b4, b5 rfl, b3,
    fun _ he _ => ⟨a6 he, b6 he⟩⟩

theorem start_same {c : RelContext} (he : c.firstInputs = c.inputs) (first : Bool)
    (k : Enum.RelType) (names : List Str) :
    (startState first c k names).data = c.start (k = .aggregate) := by
  unfold startState RelContext.start
  cases first <;> simp [he]

theorem start_tracks {c : RelContext} (ho : c.inside = false → c.firstInputs = c.inputs)
    (first : Bool) (k : Enum.RelType) (names : List Str) :
    Tracks first c (c.start (k = .aggregate)) (startState first c k names) := by
  intro hl
  unfold startState RelContext.start
  cases first with
  | false => rfl
  | true =>
    have : c.inside = false := by simpa [loose] using hl
    simp [ho this]

variable {c : RelContext}

theorem made_filter (hlib : c.expr.lib.Numerals)
    (hi : c.inside = false → c.firstInputs = c.inputs) {f : Option PbExpr}
    (h : OptOk c (c.start false) f) : ∃ ls, RelMade c ⟨.filter f, []⟩ ls := by
  obtain ⟨ls, hl, hq, hr⟩ := filter_lines hlib h
  refine ⟨ls, hl.good, ⟨[], [], linesText ls, rfl, rfl, ?_, rfl⟩, passes_flat (by simp [Flat, Body.kind])
    hl.quiet fun first names => ?_, hq⟩
  · rw [printBody]
    exact congrArg some hl.printed
  · obtain ⟨x, hx, hxf⟩ := hr first (startState first c .filter names)
      (start_tracks hi first .filter names) (.inr rfl)
    exact ⟨_, hx, rfl, rfl, rfl, fun hf => by rw [hxf hf]; rfl,
      fun he => start_same he first .filter names⟩

theorem made_read (hlib : c.expr.lib.Numerals)
    (hi : c.inside = false → c.firstInputs = c.inputs) {s : Str} {schema : Option Str}
    {f : Option PbExpr} (hs : Ext.IsName s)
    (hsrc : c.source s = some .named ∨ c.source s = some .files) {cols : List Schema.Field}
    (hsch : SchemaOk c schema cols) (h : OptOk c { c.start false with output := cols } f) :
    ∃ ls, RelMade c ⟨.read (some s) schema f none false, []⟩ ls := by
  obtain ⟨l1, hl1, hq1, hr1⟩ := source_line c hs hsrc
  obtain ⟨l2, hl2, hq2, hr2⟩ := schema_line c hsch
  obtain ⟨l3, hl3, hq3, hr3⟩ := filter_lines hlib h
  have hall := hl1.append (hl2.append hl3)
  refine ⟨l1 ++ (l2 ++ l3), hall.good, ⟨linesText l1, linesText l2, linesText l3, hl1.printed,
    hl2.printed, ?_, by simp only [linesText_append]⟩, passes_flat (by simp [Flat, Body.kind])
    hall.quiet fun first names => ?_, by
      have := hq1.append (hq2.append hq3)
      simpa [askedBody, askedOpt, Body.names] using this⟩
  · rw [printBody]
    simp only
    rw [hl3.printed]
    simp [optLine, projectionLine, Text.none, text_and]
  · have ht := start_tracks hi first .read names
    have e1 := hr1 first (startState first c .read names) none rfl
    have e2 := hr2 first { startState first c .read names with
      body := .read (some s) none none none false } (some s) rfl
    obtain ⟨x, e3, hxf⟩ := hr3 first { startState first c .read names with
      body := .read (some s) schema none none false
      data := { (startState first c .read names).data with
        output := (startState first c .read names).data.output ++ cols } }
      (fun hlo => by
        show { (startState first c .read names).data with
          output := (startState first c .read names).data.output ++ cols } = _
        rw [ht hlo]; rfl) (.inl ⟨_, _, rfl⟩)
    rw [List.map_append, List.map_append]
    refine ⟨_, details_append (details_append e3 e2) e1, rfl, rfl, rfl,
      fun hf => by rw [hxf hf]; rfl, fun he => ?_⟩
    show { (startState first c .read names).data with
      output := (startState first c .read names).data.output ++ cols } = _
    rw [start_same he first .read names]
    unfold SchemaOk at hsch
    cases schema with
    | none => simp only at hsch; subst hsch; rfl
    | some n => simp [readData, hsch.2, RelContext.start]

theorem made_fetch (c : RelContext) {n : Int} (h : Int64 n) : ∃ ls, RelMade c ⟨.fetch 0 n, []⟩ ls := by
  obtain ⟨ls, hl, hq, hr⟩ := count_line c h
  refine ⟨ls, hl.good, ⟨[], [], linesText ls, rfl, rfl, ?_, rfl⟩, passes_flat (by simp [Flat, Body.kind])
    hl.quiet fun first names => ?_, hq⟩
  · rw [printBody]
    exact congrArg some hl.printed
  · exact ⟨_, hr first (startState first c .fetch names) rfl, rfl, rfl, rfl, fun _ => rfl,
      fun he => start_same he first .fetch names⟩

theorem made_sort (hlib : c.expr.lib.Numerals)
    (hi : c.inside = false → c.firstInputs = c.inputs) {ss : List PbSort}
    (h : ∀ s ∈ ss, SortOk c (c.start false) s) : ∃ ls, RelMade c ⟨.sort ss, []⟩ ls := by
  obtain ⟨ls, hp, hl, hq, hr⟩ := sort_lines hlib h
  refine ⟨ls, hl.good, ⟨[], [], linesText ls, rfl, rfl, ?_, rfl⟩, passes_flat (by simp [Flat, Body.kind])
    hl.quiet fun first names => ?_, hq⟩
  · rw [printBody]
    simp only
    rw [hp]
    rfl
  · obtain ⟨xs, hx, hxf⟩ := hr first (startState first c .sort names) []
      (start_tracks hi first .sort names) rfl
    exact ⟨_, hx, rfl, rfl, rfl, fun hf => by rw [hxf hf]; rfl,
      fun he => start_same he first .sort names⟩

theorem made_join (hlib : c.expr.lib.Numerals)
    (hi : c.inside = false → c.firstInputs = c.inputs) {t : Int} {f : Option PbExpr}
    (ht : 1 ≤ t ∧ t ≤ 7) (h : OptOk c (c.start false) f) :
    ∃ ls, RelMade c ⟨.join t f none, []⟩ ls := by
  obtain ⟨ls, hl, hq, hr⟩ := join_lines hlib ht h
  refine ⟨ls, hl.good, ⟨[], [], linesText ls, rfl, rfl, ?_, rfl⟩, passes_flat (by simp [Flat, Body.kind])
    hl.quiet fun first names => ?_, by simpa [askedBody, askedOpt, Body.names] using hq⟩
  · rw [printBody]
    exact congrArg some hl.printed
  · obtain ⟨x, hx, hxf⟩ := hr first (startState first c .join names)
      (start_tracks hi first .join names) rfl
    exact ⟨_, hx, rfl, rfl, rfl, fun hf => by rw [hxf hf],
      fun he => start_same he first .join names⟩

theorem made_cross (c : RelContext) : ∃ ls, RelMade c ⟨.cross, []⟩ ls :=
  ⟨[], by simp, ⟨[], [], [], rfl, rfl, rfl, rfl⟩, passes_flat (by simp [Flat, Body.kind]) (by simp)
    fun first names => ⟨_, rfl, rfl, rfl, rfl, fun _ => rfl,
      fun he => start_same he first .cross names⟩, Asks.nil⟩

/-! ## Aggregates and projects -/

theorem pass_mapped {first : Bool} {c : RelContext} {k : Enum.RelType} {ds es : List Detail}
    {is : List Int} {names : List Str} {st : State} {d : Schema.RelData} {le : List (Line Detail)}
    (hds : ∀ d ∈ ds, notEmit d) (hel : EmitLines c d is le) (hes : le.map (·.detail) = es)
    (hok : ∀ i ∈ is, EmitOk c d i)
    (h : readDetails first c (startState first c k names) ds = .ok (st, []))
    {st' : State} (hp : addProject first c st = .ok st') (hb : st'.body = st.body)
    (hn : st'.names = st.names) (he : st'.emit = [])
    (hd : loose first c = false → st'.data = d ∧ d.output = []) :
    ∃ fin, readPass first c k (ds ++ es) names = .ok (fin, []) ∧ fin.names = st.names ∧
      (first = false → fin.emit = is ∧ fin.body = match st.body with
        | .aggregate [] ms => .aggregate [[]] ms
        | b => b) ∧ (loose first c = false → fin.data = mapped d is) := by
  subst hes
  rw [readPass, details_append (hel.skipped first st) h]
  simp only [Outcome.bind]
  rw [hp]
  simp only
  cases hl : loose first c with
  | true =>
    have hl' : (first && c.inside) = true := hl
    rw [if_pos hl']
    refine ⟨st', rfl, hn, fun hf => ?_, by simp⟩
    rw [hf] at hl'
    simp at hl'
  | false =>
    have hl' : (first && c.inside) = false := hl
    obtain ⟨h1, h2⟩ := hd hl
    rw [hl', if_neg (by simp), emits_skip first c st' _ ds hds, hel.read first st' h1]
    simp only
    have hfin := finish_ok c { st' with emit := st'.emit ++ is } (by rw [← h2, ← h1])
      (fun i hi => by
        rw [he, List.nil_append] at hi
        rw [h1]
        exact hok i hi)
    rw [hfin]
    refine ⟨_, rfl, hn, fun _ => ⟨by rw [he]; rfl, ?_⟩, fun _ => by simp only [h1, he, List.nil_append]⟩
    simp only [hb]
    rfl

theorem afterGroups_output (es : List PbExpr) : ∀ d : Schema.RelData,
    (afterGroups d es).output = d.output := by
  induction es with
  | nil => intro d; rfl
  | cons e es ih =>
    intro d
    rw [afterGroups, ih]
    unfold afterGroup
    split <;> rfl

theorem afterMeasures_output (c : RelContext) (ms : List PbMeasure) :
    ∀ (d : Schema.RelData) (k : Nat), (afterMeasures c d k ms).output = d.output := by
  induction ms with
  | nil => intro d k; rfl
  | cons m ms ih =>
    intro d k
    rw [afterMeasures, ih]
    unfold afterMeasure
    split <;> rfl

theorem made_aggregate (hlib : c.expr.lib.Numerals)
    (hi : c.inside = false → c.firstInputs = c.inputs) {g : List PbExpr} {ms : List PbMeasure}
    {emit : List Int} (hg : GroupsOk c (c.start true) g)
    (hm : MeasuresOk c (afterGroups (c.start true) g) 0 ms)
    (he : ∀ i ∈ emit, EmitOk c (afterMeasures c (afterGroups (c.start true) g) 0 ms) i) :
    ∃ ls, RelMade c ⟨.aggregate [g] ms, emit⟩ ls := by
  obtain ⟨l1, hl1, hq1, hr1⟩ := group_lines hlib hg
  obtain ⟨l2, hl2, hq2, hr2⟩ := measures_lines hlib hm
  obtain ⟨l3, hl3⟩ := emit_lines he
  have hall := hl1.append hl2
  have pass : ∀ first names, ∃ fin, readPass first c .aggregate
      ((l1 ++ l2).map (·.detail) ++ (spaced l3).map (·.detail)) names = .ok (fin, []) ∧
      (first = false → fin.emit = emit ∧ fin.body = .aggregate [g] ms) ∧
      (loose first c = false → fin.data = readData c ⟨.aggregate [g] ms, emit⟩) := by
    intro first names
    obtain ⟨xs, data, e1, hd1, hx1⟩ := hr1 first (startState first c .aggregate names) []
      (start_tracks hi first .aggregate names) rfl
    obtain ⟨ys, data', e2, hd2, hx2⟩ := hr2 first { startState first c .aggregate names with
      body := .aggregate (grouped ([] ++ xs)) [], data := data } _ [] hd1 rfl rfl
    have e3 := details_append e2 e1
    rw [← List.map_append] at e3
    obtain ⟨fin, hf, -, hfin, hdat⟩ := pass_mapped hall.quiet hl3 (spaced_detail l3).symm he e3 rfl rfl rfl rfl
      (fun hlo => ⟨hd2 hlo, by rw [afterMeasures_output, afterGroups_output]; rfl⟩)
    refine ⟨fin, hf, fun hfirst => ?_, fun hlo => by
      rw [hdat hlo, readData]; simp only [List.flatten_cons, List.flatten_nil, List.append_nil]⟩
    obtain ⟨h1, h2⟩ := hfin hfirst
    refine ⟨h1, ?_⟩
    rw [h2, hx1 hfirst, hx2 hfirst]
    cases g <;> rfl
  refine ⟨(l1 ++ l2) ++ spaced l3, ?_, ⟨[], [], linesText ((l1 ++ l2) ++ spaced l3), rfl, rfl, ?_, rfl⟩, ?_, by
    have := (hq1.append hq2).append (spaced_asks hl3.refs)
    simpa [askedBody, Body.names] using this⟩
  · intro l hl
    exact (List.mem_append.mp hl).elim (hall.good l) (spaced_good hl3.good l)
  · rw [printBody]
    simp only [printGroupings]
    rw [hl1.printed, hl2.printed, common_printed hl3]
    simp [Text.none, text_and, linesText_append]
  · rw [List.map_append]
    obtain ⟨a, ha, -, hda⟩ := pass true []
    obtain ⟨b, hb, hb', hdb⟩ := pass false a.names
    exact ⟨a, b, ha, hb, (hb' rfl).2, (hb' rfl).1,
      fun h _ _ => ⟨hda (by
        rcases h with h | h
        · simp [loose, h]
        · exact absurd rfl h.2), hdb (by simp [loose])⟩⟩

theorem made_project (hlib : c.expr.lib.Numerals)
    (hi : c.inside = false → c.firstInputs = c.inputs) {es : List PbExpr} {emit : List Int}
    (hno : c.inside = false → c.outer = [] ∨ ∀ e ∈ es, isOuter e = false)
    (hp : ProjectsOk c (c.start false) 0 es)
    (he : emit = [] ∨ ProjectRefs c es ∧
      ∀ i ∈ emit, EmitOk c { c.start false with generated := projectFields c 0 es } i) :
    ∃ ls, RelMade c ⟨.project es, emit⟩ ls := by
  obtain ⟨l1, hl1, hq1, hr1⟩ := project_lines hlib hp
  have hread : ∀ e ∈ es, ∃ d, Readable (c.at d) e := by
    have : ∀ (k : Nat) (es : List PbExpr), ProjectsOk c (c.start false) k es →
        ∀ e ∈ es, ∃ d, Readable (c.at d) e := by
      intro k es
      induction es generalizing k with
      | nil => simp
      | cons a as ih =>
        intro h e hm
        rw [ProjectsOk] at h
        rcases List.mem_cons.mp hm with rfl | hm
        · exact ⟨_, h.1.1.1⟩
        · exact ih _ h.2 e hm
    exact this 0 es hp
  have finalize : ∀ (l3 : List (Line Detail)),
      Asks l3 [] → (∀ l ∈ spaced l3, GoodDetail l) → printCommon c emit = .ok (linesText (spaced l3), []) →
      (∃ a, readPass true c .project (l1.map (·.detail) ++ (spaced l3).map (·.detail)) [] = .ok (a, []) ∧
        ∃ b, readPass false c .project (l1.map (·.detail) ++ (spaced l3).map (·.detail)) a.names =
          .ok (b, []) ∧ (b.emit = emit ∧ b.body = .project es) ∧
          (c.inside = false → ProjectRefs c es → a.data = readData c ⟨.project es, emit⟩ ∧
            b.data = readData c ⟨.project es, emit⟩)) →
      ∃ ls, RelMade c ⟨.project es, emit⟩ ls := by
    intro l3 hq3 hg hc ⟨a, ha, b, hb, ⟨hb1, hb2⟩, hdata⟩
    refine ⟨l1 ++ spaced l3, ?_, ⟨[], [], linesText (l1 ++ spaced l3), rfl, rfl, ?_, rfl⟩, ?_, by
      have := hq1.append (spaced_asks hq3)
      simpa [askedBody, Body.names] using this⟩
    · intro l hl
      exact (List.mem_append.mp hl).elim (hl1.good l) (hg l)
    · rw [printBody]
      simp only
      rw [hl1.printed, hc, text_and, linesText_append]
    · rw [List.map_append]
      exact ⟨a, b, ha, hb, hb2, hb1, fun h _ hk => hdata (h.elim id fun h => absurd rfl h.1) (hk es rfl)⟩
  have he : (emit = [] ∧ ¬ ProjectRefs c es) ∨ ProjectRefs c es ∧
      ∀ i ∈ emit, EmitOk c { c.start false with generated := projectFields c 0 es } i := by
    by_cases hr : ProjectRefs c es
    · rcases he with rfl | he
      · exact .inr ⟨hr, by simp⟩
      · exact .inr he
    · exact .inl ⟨he.elim id fun h => absurd h.1 hr, hr⟩
  rcases he with ⟨rfl, hnr⟩ | ⟨hrefs, hemit⟩
  · refine finalize [] Asks.nil (by simp [spaced]) rfl ?_
    have pass : ∀ first names, ∃ fin, readPass first c .project
        (l1.map (·.detail) ++ (spaced []).map (·.detail)) names = .ok (fin, []) ∧
        (first = false → fin.emit = [] ∧ fin.body = .project es) := by
      intro first names
      obtain ⟨xs, nms, e1, -, -, hx, -⟩ := hr1 first (startState first c .project names) []
        (start_tracks hi first .project names) rfl rfl
      obtain ⟨d', hd', ha'⟩ := addExpressions_ok first c nms ([] ++ xs)
        (startState first c .project names).data 0
      have hap : addProject first c { startState first c .project names with
          body := .project ([] ++ xs), names := nms } =
          .ok { startState first c .project names with
            body := .project ([] ++ xs), names := nms, data := d' } := by
        simp only [addProject]
        rw [hd']
        rfl
      rw [readPass]
      simp only [spaced, List.map_nil, List.append_nil]
      rw [e1]
      simp only [Outcome.bind]
      rw [hap]
      simp only
      split
      · rename_i hl
        refine ⟨_, rfl, fun hfirst => ?_⟩
        rw [hfirst] at hl
        simp at hl
      · rw [emits_none first c _ hl1.quiet]
        have ha'' : d'.aggregate = false := by rw [ha']; rfl
        have hfin : finish { startState first c .project names with
            body := .project ([] ++ xs), names := nms, data := d' } =
            .ok ({ startState first c .project names with
              body := .project ([] ++ xs), names := nms, data := d' }, []) := by
          unfold finish
          simp only [ha'']
          rfl
        simp only [hfin]
        exact ⟨_, rfl, fun hfirst => ⟨rfl, by rw [hx hfirst]; rfl⟩⟩
    obtain ⟨a, ha, -⟩ := pass true []
    obtain ⟨b, hb, hb'⟩ := pass false a.names
    exact ⟨a, ha, b, hb, hb' rfl, fun _ h => absurd h hnr⟩
  · obtain ⟨l3, hl3⟩ := emit_lines hemit
    refine finalize l3 hl3.refs (spaced_good hl3.good) (common_printed hl3) ?_
    have hrange : ∀ e ∈ es, ∀ n, fieldOf e = some n →
        0 ≤ n ∧ n < 2147483648 ∧ n < c.inputs.length := by
      intro e hm n hn
      obtain ⟨d, hd⟩ := hread e hm
      obtain ⟨h0, h1⟩ := readable_field hd hn
      exact ⟨h0, h1, ((hrefs e hm).2 n hn).2⟩
    have pass : ∀ first names, (first = false → Named c es.length names) →
        (first = true → names = []) →
        ∃ fin, readPass first c .project
          (l1.map (·.detail) ++ (spaced l3).map (·.detail)) names = .ok (fin, []) ∧
          Named c es.length fin.names ∧
          (first = false → fin.emit = emit ∧ fin.body = .project es) ∧
          (loose first c = false → fin.data = readData c ⟨.project es, emit⟩) := by
      intro first names hN hnil
      obtain ⟨xs, nms, e1, hn1, hn2, hx, hsame⟩ := hr1 first (startState first c .project names) []
        (start_tracks hi first .project names) rfl rfl
      have hnms : Named c es.length nms := by
        cases first with
        | true =>
          have := hn1 rfl (by
            have h0 : names = [] := hnil rfl
            subst h0
            exact ⟨rfl, by simp⟩)
          rwa [Nat.zero_add] at this
        | false =>
          rw [hn2 rfl]
          exact hN rfl
      obtain ⟨st', hap, hb, hn, hem, hdata⟩ : ∃ st', addProject first c
          { startState first c .project names with body := .project ([] ++ xs), names := nms } =
          .ok st' ∧ st'.body = .project ([] ++ xs) ∧ st'.names = nms ∧ st'.emit = [] ∧
          (loose first c = false →
            st'.data = { c.start false with generated := projectFields c 0 es }) := by
        cases hlo : loose first c with
        | true =>
          obtain ⟨d', hd', ha'⟩ := addExpressions_ok first c nms ([] ++ xs)
            (startState first c .project names).data 0
          refine ⟨{ startState first c .project names with
            body := .project ([] ++ xs), names := nms, data := d' }, ?_, rfl, rfl, rfl, by simp⟩
          simp only [addProject]
          rw [hd']
          rfl
        | false =>
          have hd0 := start_tracks hi first .project names hlo
          refine ⟨{ startState first c .project names with
            body := .project ([] ++ xs), names := nms
            data := { c.start false with generated := projectFields c 0 es } }, ?_, rfl, rfl, rfl,
            fun _ => rfl⟩
          simp only [addProject]
          rw [hd0, addExpressions_exact first c hnms ([] ++ xs) es _ 0
            (hsame hlo (fun e hm => (hrefs e hm).1) hno) rfl rfl (by omega) hrange]
          rfl
      obtain ⟨fin, hf, hfn, hfin, hdat⟩ := pass_mapped hl1.quiet hl3 (spaced_detail l3).symm hemit e1 hap hb hn hem
        (fun hlo => ⟨hdata hlo, rfl⟩)
      refine ⟨fin, hf, by rw [hfn]; exact hnms, fun hfirst => ?_, hdat⟩
      obtain ⟨h1, h2⟩ := hfin hfirst
      refine ⟨h1, ?_⟩
      rw [h2, hx hfirst]
      rfl
    obtain ⟨a, ha, han, -, hda⟩ := pass true [] (by simp) (fun _ => rfl)
    obtain ⟨b, hb, -, hb', hdb⟩ := pass false a.names (fun _ => han) (by simp)
    exact ⟨a, ha, b, hb, hb' rfl, fun h _ => ⟨hda (by simp [loose, h]), hdb (by simp [loose])⟩⟩

/-! ## C45 -/

/-- A relation that is `RelReadable` is printed as lines that both passes read. -/
theorem relation_made (c : RelContext) (hlib : c.expr.lib.Numerals) (r : PbRel)
    (h : RelReadable c r) : ∃ ls, RelMade c r ls := by
  have hin : c.inside = false → c.firstInputs = c.inputs := fun hi => (h.outside hi).2
  have hb := h.body
  obtain ⟨body, emit⟩ := r
  cases body with
  | read s schema f b p =>
    cases s with
    | none => simp [BodyOk] at hb
    | some s =>
      cases b with
      | some _ => simp [BodyOk] at hb
      | none =>
        cases p with
        | true => simp [BodyOk] at hb
        | false =>
          obtain ⟨he, hs, hsrc, cols, hsch, hf⟩ := hb
          simp only at he; subst he
          exact made_read hlib hin hs hsrc hsch hf
  | filter f =>
    obtain ⟨he, hf⟩ := hb
    simp only at he; subst he
    exact made_filter hlib hin hf
  | fetch o n =>
    by_cases h0 : o = 0
    · subst h0
      obtain ⟨he, h1, h2⟩ := hb
      simp only at he; subst he
      exact made_fetch c ⟨h1, by omega⟩
    · exfalso
      unfold BodyOk at hb
      split at hb <;> simp_all
  | aggregate gs ms =>
    match gs, hb with
    | [], hb => exact hb.elim
    | [g], hb => exact made_aggregate hlib hin hb.1 hb.2.1 hb.2.2
    | _ :: _ :: _, hb => exact hb.elim
  | sort ss =>
    obtain ⟨he, hf⟩ := hb
    simp only at he; subst he
    exact made_sort hlib hin hf
  | project es => exact made_project hlib hin (fun hi => (h.outside hi).1.imp_right fun h => h es rfl) hb.1 hb.2
  | join t e p =>
    cases p with
    | some _ => simp [BodyOk] at hb
    | none =>
      obtain ⟨he, h1, h2, hf⟩ := hb
      simp only at he; subst he
      exact made_join hlib hin ⟨h1, h2⟩ hf
  | cross =>
    have he : emit = [] := hb
    subst he
    exact made_cross c
  | other => simp [BodyOk] at hb

/-- **C45.**  A relation that is `RelReadable` is printed without an error, and the text is read
by both passes, without an error, as the same relation with the same output mapping. -/
theorem relation_roundtrip_partial (c : RelContext) (hlib : c.expr.lib.Numerals) (r : PbRel)
    (h : RelReadable c r) : ReadsBack c r := by
  obtain ⟨ls, hl⟩ := relation_made c hlib r h
  exact hl.readsBack h.name

/-! Non-vacuity: an aggregate, a project and, inside a subquery, a filter. -/

/-- The columns `a` and `schema.b`. -/
def sampleInputs : List Schema.Field :=
  [sampleColumn "a" none, sampleColumn "b" (some "schema")]

/-- A relation over these columns which is not in a subquery; `here` are its fields in the
printer's table. -/
def sampleRel (here : Schema.RelData) : RelContext where
  expr := { sample with scopes := [here] }
  name := "main".toList
  alternative _ := none
  measureName k := if k = 0 then some "total".toList else none
  inside := false
  inputs := sampleInputs
  firstInputs := sampleInputs
  outer := []
  source s := if s = "table".toList then some .named else none
  schema s := if s = "schema".toList then some sampleInputs else none
  fresh k := "e".toList ++ natText k

theorem name_main : Ext.IsName "main".toList :=
  sample_name (ts := [idTok "main"]) (name_of (by decide +kernel))

theorem name_total : Ext.IsName "total".toList :=
  sample_name (ts := [idTok "total"]) (name_of (by decide +kernel))

theorem column_a : IsColumn "a".toList :=
  .inl ⟨[idTok "a"], by decide +kernel, by decide, by decide⟩

theorem column_b : IsColumn "schema.b".toList :=
  .inr ⟨"schema".toList, "b".toList, by decide,
    sample_name (ts := [⟨.schema, "schema".toList⟩]) (name_of (by decide +kernel)),
    sample_name (ts := [idTok "b"]) (name_of (by decide +kernel))⟩

theorem column_total : IsColumn "total".toList :=
  .inl ⟨[idTok "total"], by decide +kernel, by decide, by decide⟩

def ref (n : Int) : PbExpr := .field (.field n false) .root

theorem type_i32 : TypeOk (.scalar .i32 .required) := ⟨by decide, trivial, by decide⟩

/-- Grouped by `a`; the measure is `add(schema.b)`, with the name `total` and a filter on it; the
output is `total` and `a`. -/
def sampleAggregate : RelContext :=
  sampleRel ⟨true, sampleInputs, [sampleColumn "a" none,
    ⟨.measure "main".toList 0, "total".toList, [], none⟩], []⟩

def sampleMeasure : PbMeasure :=
  ⟨some ⟨1, [], [.value (ref 1)], [], .scalar .i32 .required, 3, 2, []⟩, some (ref 3)⟩

theorem sampleAggregate_ok :
    RelReadable sampleAggregate ⟨.aggregate [[ref 0]] [sampleMeasure], [1, 0]⟩ where
  name := name_main
  outside := fun _ => ⟨.inl rfl, rfl⟩
  body := by
    refine ⟨⟨⟨⟨?_, trivial⟩, rfl, ?_, ?_⟩, trivial⟩, ⟨⟨⟨_, rfl, ?_⟩, ?_, ?_⟩, trivial⟩, ?_⟩
    · exact ⟨by decide, by decide, .inl rfl, "a".toList, by decide, column_a, by decide⟩
    · intro seg base h
      simp only [ref, PbExpr.field.injEq] at h
      exact h.2.symm
    · intro n h
      simp only [fieldOf, ref, Option.some.injEq] at h
      subst h
      decide
    · have hb : FieldOk (sampleAggregate.at (afterGroups (sampleAggregate.start true) [ref 0])) 1
          .root := ⟨by decide, by decide, .inl rfl, "schema.b".toList, by decide, column_b, by decide⟩
      refine ⟨sample_add, rfl, ?_, rfl, type_i32, by decide, by decide, rfl⟩
      simp only [ReadableArgs, ReadableArg, ref, Readable]
      refine ⟨⟨hb, fun s hs => ?_⟩, trivial⟩
      have : s = "schema.b".toList := by
        have h1 : lastName (sampleAggregate.at (afterGroups (sampleAggregate.start true) [ref 0]))
          (.field (.field 1 false) .root) = some "schema.b".toList := by decide
        exact Option.some.inj (hs.symm.trans h1)
      subst this
      exact not_enum_of_last (by decide)
    · intro n h
      have : sampleAggregate.measureName 0 = some "total".toList := rfl
      rw [this] at h
      rw [← Option.some.inj h]
      exact name_total
    · intro x h
      simp only [sampleMeasure, Option.some.injEq] at h
      subst h
      exact ⟨⟨by decide, by decide, .inl rfl, "total".toList, by decide, column_total, by decide⟩,
        trivial⟩
    · intro i hi
      simp only [List.mem_cons, List.not_mem_nil, or_false] at hi
      rcases hi with rfl | rfl
      · exact ⟨by decide, by decide, "total".toList, by decide, column_total, by decide⟩
      · exact ⟨by decide, by decide, "a".toList, by decide, column_a, by decide⟩

/-- Non-vacuity of C45: an aggregate. -/
example : ReadsBack sampleAggregate ⟨.aggregate [[ref 0]] [sampleMeasure], [1, 0]⟩ :=
  relation_roundtrip_partial _ sampleLib_numerals _ sampleAggregate_ok

/-- A project with a column and with a computed expression that has a name; the output is the
computed column and `a`. -/
def sampleProject : RelContext :=
  sampleRel ⟨false, sampleInputs, [sampleColumn "b" (some "schema"),
    ⟨.computed "main".toList 1, "total".toList, "total".toList, none⟩], []⟩

def sampleSum : PbExpr := .call 1 0 [.value (ref 0)] [] (.scalar .i32 .required)

theorem sampleProject_ok : RelReadable sampleProject ⟨.project [ref 1, sampleSum], [3, 0]⟩ where
  name := name_main
  outside := fun _ => ⟨.inl rfl, rfl⟩
  body := by
    have hb : FieldOk (sampleProject.at (sampleProject.start false)) 1 .root :=
      ⟨by decide, by decide, .inl rfl, "schema.b".toList, by decide, column_b, by decide⟩
    have ha : FieldOk (sampleProject.at (sampleProject.start false)) 0 .root :=
      ⟨by decide, by decide, .inl rfl, "a".toList, by decide, column_a, by decide⟩
    refine ⟨⟨⟨⟨hb, trivial⟩, rfl, ?_⟩, ⟨⟨?_, by simp [sampleSum, Plain]⟩, rfl, ?_⟩, trivial⟩,
      .inr ⟨?_, ?_⟩⟩
    · intro n h
      have : aliasOf sampleProject 0 = none := by decide
      rw [this] at h
      cases h
    · simp only [sampleSum, ReadableArgs, ReadableArg, ref, Readable]
      refine ⟨sample_add, by simp, ⟨⟨ha, fun s hs => ?_⟩, trivial⟩, type_i32⟩
      have : s = "a".toList := by
        have h1 : lastName (sampleProject.at (sampleProject.start false))
          (.field (.field 0 false) .root) = some "a".toList := by decide
        exact Option.some.inj (hs.symm.trans h1)
      subst this
      exact not_enum_of_last (by decide)
    · intro n h
      have : aliasOf sampleProject 1 = some "total".toList := by decide
      rw [this] at h
      rw [← Option.some.inj h]
      exact name_total
    · intro e he
      simp only [List.mem_cons, List.not_mem_nil, or_false] at he
      rcases he with rfl | rfl
      · refine ⟨rfl, fun n hn => ?_⟩
        simp only [fieldOf, ref, Option.some.injEq] at hn
        subst hn
        decide
      · refine ⟨rfl, fun n hn => ?_⟩
        simp [fieldOf, sampleSum] at hn
    · intro i hi
      simp only [List.mem_cons, List.not_mem_nil, or_false] at hi
      rcases hi with rfl | rfl
      · exact ⟨by decide, by decide, "total".toList, by decide, column_total, by decide⟩
      · exact ⟨by decide, by decide, "a".toList, by decide, column_a, by decide⟩

/-- Non-vacuity of C45: a project. -/
example : ReadsBack sampleProject ⟨.project [ref 1, sampleSum], [3, 0]⟩ :=
  relation_roundtrip_partial _ sampleLib_numerals _ sampleProject_ok

/-- A filter in a subquery: the first pass does not know the fields, and the condition also refers
to the relation around the subquery. -/
def sampleInside : RelContext :=
  { sampleRel ⟨false, [], [], []⟩ with
    expr := sample
    inside := true
    inputs := [sampleColumn "a" none, sampleColumn "b" (some "schema"),
      sampleColumn "size_enum" none, sampleColumn "null_i32" none]
    firstInputs := []
    outer := [⟨false, [sampleColumn "x" none, sampleColumn "o" none], [], []⟩] }

theorem sampleInside_ok : RelReadable sampleInside ⟨.filter (some sampleExpr), []⟩ where
  name := name_main
  outside := fun h => absurd h (by decide)
  body := by
    refine ⟨rfl, fun x hx => ?_⟩
    obtain rfl := Option.some.inj hx
    exact ⟨sample_readable, by simp [sampleExpr, Plain]⟩

/-- Non-vacuity of C45: a filter inside a subquery. -/
example : ReadsBack sampleInside ⟨.filter (some sampleExpr), []⟩ :=
  relation_roundtrip_partial _ sampleLib_numerals _ sampleInside_ok

/-- The same filter where another relation stands between it and the subquery: both passes know
the fields, and something is around it. -/
def sampleBelow : RelContext :=
  { sampleInside with inside := false, firstInputs := sampleInside.inputs }

theorem sampleBelow_ok : RelReadable sampleBelow ⟨.filter (some sampleExpr), []⟩ where
  name := name_main
  outside := fun _ => ⟨.inr (fun _ h => nomatch h), rfl⟩
  body := by
    refine ⟨rfl, fun x hx => ?_⟩
    obtain rfl := Option.some.inj hx
    exact ⟨sample_readable, by simp [sampleExpr, Plain]⟩

/-- Non-vacuity of C45: a filter below the relation of a subquery. -/
example : ReadsBack sampleBelow ⟨.filter (some sampleExpr), []⟩ :=
  relation_roundtrip_partial _ sampleLib_numerals _ sampleBelow_ok

end Verif.Rel
