import Verif.Lemmas.UnusedTable

/-! # The plan of a text with one more definition -/

namespace Verif.Pipe

open Verif

/-- No relation. -/
def NoRel (e : Option Entry) : Prop := e = none ∨ e = some .other

/-- Two graphs that differ in names of other things only. -/
structure Near (D : List Str) (t t' : Table) : Prop where
  order : t.order = t'.order
  away : ∀ n, n ∉ D → t.get n = t'.get n
  near : ∀ n ∈ D, NoRel (t.get n) ∧ NoRel (t'.get n)

variable {D : List Str} {t t' : Table}

theorem Near.data (h : Near D t t') : t.data = t'.data := by
  funext n
  unfold Table.data
  by_cases hn : n ∈ D
  · rcases h.near n hn with ⟨h1 | h1, h2 | h2⟩ <;> rw [h1, h2]
  · rw [h.away n hn]

theorem Near.kind (h : Near D t t') : t.kind = t'.kind := by
  funext n
  unfold Table.kind
  by_cases hn : n ∈ D
  · rcases h.near n hn with ⟨h1 | h1, h2 | h2⟩ <;> rw [h1, h2]
  · rw [h.away n hn]

theorem Near.isRel (h : Near D t t') : t.isRel = t'.isRel := by
  funext n
  unfold Table.isRel
  by_cases hn : n ∈ D
  · rcases h.near n hn with ⟨h1 | h1, h2 | h2⟩ <;> rw [h1, h2]
  · rw [h.away n hn]

theorem Near.touch (h : Near D t t') {n : Str} (hn : n ∉ D) : Near D (touch t n) (touch t' n) := by
  unfold Pipe.touch
  rw [h.away n hn]
  split
  · unfold Table.define
    refine ⟨by simp [h.order], fun m hm => ?_, fun m hm => ?_⟩
    · simp only [h.away n hn, h.away m hm]
    · have : m ≠ n := fun e => hn (e ▸ hm)
      simp only [if_neg this]
      exact h.near m hm
  · exact h

theorem Near.set (h : Near D t t') {n : Str} (hn : n ∉ D) (k : Option RelKind) (d : Data) :
    Near D (t.set n k d) (t'.set n k d) := by
  unfold Table.set
  refine ⟨h.order, fun m hm => ?_, fun m hm => ?_⟩
  · simp only [h.away m hm]
  · have : m ≠ n := fun e => hn (e ▸ hm)
    simp only [if_neg this]
    exact h.near m hm

/-- The same outcome, up to other things in the graph. -/
def Nears (D : List Str) : Outcome State → Outcome State → Prop
  | .ok s, .ok s' => Near D s.table s'.table ∧ s.errors = s'.errors
  | .throw e, .throw e' => e = e'
  | .ub, .ub => True
  | _, _ => False

theorem Nears.bind {o o' : Outcome State} {f f' : State → Outcome State} (h : Nears D o o')
    (hf : ∀ s s', Near D s.table s'.table → s.errors = s'.errors → Nears D (f s) (f' s')) :
    Nears D (o.bind f) (o'.bind f') := by
  cases o <;> cases o' <;> first | exact h.elim | skip
  · exact hf _ _ h.1 h.2
  · exact h
  · trivial

theorem Near.rightmost (h : Near D t t') (ps : List Ref) : rightmost t ps = rightmost t' ps := by
  cases ps with
  | nil => rfl
  | cons p ps => unfold Pipe.rightmost; simp only [h.isRel, h.data]

theorem Near.leftOf (h : Near D t t') (l : Option Ref) : leftOf t l = leftOf t' l := by
  cases l with
  | none => rfl
  | some p => unfold Pipe.leftOf; simp only [h.isRel]

theorem connect_near {ps : List Ref} {r : Ref} {left : Option Ref} {s s' : State}
    (h : Near D s.table s'.table) (he : s.errors = s'.errors) (hn : r.name ∉ D) :
    Nears D (connect ps r left s) (connect ps r left s') := by
  unfold connect
  rw [h.away r.name hn]
  split
  · trivial
  · exact ⟨h, he⟩
  · split
    · exact ⟨h, by simp [he]⟩
    · rw [h.rightmost]
      cases Pipe.rightmost s'.table ps with
      | throw e => rfl
      | ub => trivial
      | ok right =>
        simp only [Outcome.bind_ok]
        split
        · exact ⟨h, by simp [he]⟩
        · rw [h.leftOf]
          cases Pipe.leftOf s'.table left with
          | throw e => rfl
          | ub => trivial
          | ok left => exact ⟨h.set hn _ _, he⟩

theorem visit_near : ∀ {rs ps : List Ref} {s s' : State}, Near D s.table s'.table →
    s.errors = s'.errors → (∀ r ∈ rs, r.name ∉ D) → Nears D (visit ps rs s) (visit ps rs s')
  | [], _, _, _, h, he, _ => ⟨h, he⟩
  | r :: rs, ps, s, s', h, he, hr => by
    unfold visit
    refine Nears.bind (visit_near (h.touch (hr r (by simp))) he fun q hq => hr q (by simp [hq])) ?_
    intro a a' ha he
    exact connect_near ha he (hr r (by simp))

theorem visitAll_near : ∀ {ps : List (List Ref)} {s s' : State}, Near D s.table s'.table →
    s.errors = s'.errors → (∀ p ∈ ps, ∀ r ∈ p, r.name ∉ D) →
      Nears D (visitAll ps s) (visitAll ps s')
  | [], _, _, h, he, _ => ⟨h, he⟩
  | p :: ps, s, s', h, he, hr => by
    unfold visitAll
    refine Nears.bind (visit_near h he (hr p (by simp))) ?_
    intro a a' ha he
    exact visitAll_near ha he fun q hq => hr q (by simp [hq])

theorem Near.build (h : Near D t t') : ∀ f : Nat, build t f = build t' f
  | 0 => rfl
  | f + 1 => by
    funext n
    unfold Pipe.build
    rw [h.kind, h.data, h.build f]

theorem Near.isSubquery (h : Near D t t') : isSubquery t = isSubquery t' := by
  funext n
  unfold Pipe.isSubquery
  rw [h.order, h.data]

theorem Near.binaryPlan (h : Near D t t') (fuel : Nat) : binaryPlan t fuel = binaryPlan t' fuel := by
  have : planRel t fuel = planRel t' fuel := by
    funext n
    unfold planRel
    rw [h.isSubquery, h.kind, h.data, h.build]
  unfold Pipe.binaryPlan
  rw [this, h.order]

theorem Near.namedRels (h : Near D t t') : namedRels t = namedRels t' := by
  have : hasNames t = hasNames t' := by
    funext n
    unfold hasNames
    rw [h.isSubquery, h.data]
  unfold Pipe.namedRels
  rw [this, h.order]

end Verif.Pipe

namespace Verif.Whole

open Verif Verif.Sec Verif.Tree Verif.Expr

mutual
theorem refs_named : ∀ (e : ExprTree) (n : Str), n ∈ subqueryRefs e → n ∈ namesIn e
  | .call id args _ _, n, h => by
    simp only [subqueryRefs] at h
    simp [namesIn, refs_namedL args n h]
  | .const _, n, h => by cases h
  | .column _ _, n, h => by cases h
  | .cast e _ _, n, h => by
    simp only [subqueryRefs] at h
    simp [namesIn, refs_named e n h]
  | .scalarSubquery _ ref, n, h => by
    simp only [subqueryRefs, List.mem_singleton] at h
    simp [namesIn, h]
  | .inSubquery es _ ref, n, h => by
    simp only [subqueryRefs, List.mem_cons] at h
    rcases h with h | h
    · simp [namesIn, h]
    · simp [namesIn, refs_namedL es n h]
  | .setPredicate _ _ ref, n, h => by
    simp only [subqueryRefs, List.mem_singleton] at h
    simp [namesIn, h]
  | .setComparison e _ _ _ ref, n, h => by
    simp only [subqueryRefs, List.mem_cons] at h
    rcases h with h | h
    · simp [namesIn, h]
    · simp [namesIn, refs_named e n h]
theorem refs_namedL : ∀ (es : List ExprTree) (n : Str), n ∈ subqueryRefsL es → n ∈ namesInL es
  | [], n, h => by cases h
  | e :: es, n, h => by
    simp only [subqueryRefsL, List.mem_append] at h
    rcases h with h | h
    · simp [namesInL, refs_named e n h]
    · simp [namesInL, refs_namedL es n h]
end

theorem measureRefs_named {m : Rel.MeasureDetail} {n : Str} (h : n ∈ Rel.measureRefs m) :
    n ∈ measureNames m := by
  cases m with
  | measure e ty ids => exact refs_named e n h
  | filter e => exact refs_named e n h
  | invocation id => cases h
  | sort e b => exact refs_named e n h

theorem detailRefs_named {d : Rel.Detail} {n : Str} (h : n ∈ Rel.detailRefs d) :
    n ∈ detailNames d := by
  cases d with
  | filter w e => exact refs_named e n h
  | expression e a => exact refs_named e n h
  | grouping e => exact refs_named e n h
  | sort e b => exact refs_named e n h
  | measure ds =>
    simp only [Rel.detailRefs, List.mem_flatMap] at h
    obtain ⟨m, hm, h⟩ := h
    exact List.mem_flatMap.mpr ⟨m, hm, measureRefs_named h⟩
  | _ => cases h

theorem refsOf_named {t : Rel.RelTree} {n : Str} (h : n ∈ refsOf t) :
    n ∈ t.details.flatMap detailNames := by
  unfold refsOf at h
  obtain ⟨d, hd, h⟩ := List.mem_flatMap.mp h
  exact List.mem_flatMap.mpr ⟨d, hd, detailRefs_named h⟩

/-! ## Two tables -/

/-- The table and the one with symbols in it that are not used. -/
structure Extra (D : List Str) (k : Nat) (x : List Symbol) (st : Sec.State) : Prop where
  place : ∀ s ∈ st.symbols, s.loc ≠ k
  own : ∀ s ∈ x, s.loc = k ∧ isTop s.info = false
  names : ∀ n, n ∈ x.map (·.name) → n ∈ D
  tops : ∀ s ∈ st.symbols, isTop s.info = true → s.name ∉ D

variable {D : List Str} {k m : Nat} {x : List Symbol} {st : Sec.State} {g g' : Pipe.Table}

theorem Extra.lookup (h : Extra D k x st) {n : Str} (hn : n ∉ D) :
    Sec.lookup (ins m x st.symbols) n = Sec.lookup st.symbols n :=
  lookup_ins (fun hm => hn (h.names n hm)) m _

theorem Extra.columnsAt (h : Extra D k x st) {loc : Nat} (hl : loc ≠ k) :
    Sec.columnsAt (ins m x st.symbols) loc = Sec.columnsAt st.symbols loc := by
  unfold Sec.columnsAt
  refine filterMap_ins (fun s hs => ?_) m _
  obtain ⟨h1, -⟩ := h.own s hs
  split
  · rw [if_neg (by rw [h1]; exact hl.symm)]
  · rfl

theorem Extra.tablesAt (h : Extra D k x st) {loc : Nat} (hl : loc ≠ k) :
    Sec.tablesAt (ins m x st.symbols) loc = Sec.tablesAt st.symbols loc := by
  unfold Sec.tablesAt
  refine filterMap_ins (fun s hs => ?_) m _
  obtain ⟨h1, -⟩ := h.own s hs
  split
  · rw [if_neg (by rw [h1]; exact hl.symm)]
  · rfl

theorem Extra.filesAt (h : Extra D k x st) {loc : Nat} (hl : loc ≠ k) :
    Sec.filesAt (ins m x st.symbols) loc = Sec.filesAt st.symbols loc := by
  unfold Sec.filesAt
  refine filterMap_ins (fun s hs => ?_) m _
  obtain ⟨h1, -⟩ := h.own s hs
  split
  · rw [if_neg (by rw [h1]; exact hl.symm)]
  · rfl

theorem Extra.schemaAt (h : Extra D k x st) {loc : Nat} (hl : loc ≠ k) :
    Sec.schemaAt (ins m x st.symbols) loc = Sec.schemaAt st.symbols loc := by
  unfold Sec.schemaAt
  refine findSome_ins (fun s hs => ?_) m _
  obtain ⟨h1, -⟩ := h.own s hs
  split
  · rw [if_neg (by rw [h1]; exact hl.symm)]
  · rfl

theorem lookup_known {l : List Symbol} {n : Str} {s : Symbol} (h : Sec.lookup l n = some s) :
    s ∈ l ∧ s.name = n := by
  unfold Sec.lookup at h
  exact ⟨List.mem_of_find?_eq_some h, by simpa using List.find?_some h⟩

theorem Extra.schemaOf (h : Extra D k x st) {n : Str} (hn : n ∉ D) :
    Sec.schemaOf (ins m x st.symbols) n = Sec.schemaOf st.symbols n := by
  unfold Sec.schemaOf
  rw [h.lookup hn]
  cases hl : Sec.lookup st.symbols n with
  | none => rfl
  | some s => simp only [Option.map_some]; rw [h.columnsAt (h.place s (lookup_known hl).1)]

theorem Extra.columnFields (h : Extra D k x st) {n : Str} (hn : n ∉ D) :
    Sec.columnFields (ins m x st.symbols) n = Sec.columnFields st.symbols n := by
  unfold Sec.columnFields
  rw [h.lookup hn]
  cases hl : Sec.lookup st.symbols n with
  | none => rfl
  | some s =>
    have := h.place s (lookup_known hl).1
    simp only [Option.map_some]
    rw [h.columnsAt this, h.schemaAt this]

theorem Extra.sourceOf (h : Extra D k x st) {n : Str} (hn : n ∉ D) :
    Sec.sourceOf (ins m x st.symbols) n = Sec.sourceOf st.symbols n := by
  unfold Sec.sourceOf
  rw [h.lookup hn]
  cases hl : Sec.lookup st.symbols n with
  | none => rfl
  | some s =>
    have := h.place s (lookup_known hl).1
    simp only
    rw [h.filesAt this, h.tablesAt this]

theorem top_of_relation {i : Info} (h : isRelation i = true) : isTop i = true := by
  cases i <;> first | rfl | cases h

theorem noRel_entry {subs : List Str} {o : Option Symbol}
    (h : ∀ s, o = some s → isTop s.info = false) :
    Pipe.NoRel (o.map fun s => entryOf subs s.info) := by
  cases o with
  | none => exact .inl rfl
  | some s =>
    have h := h s rfl
    right
    obtain ⟨n, l, i⟩ := s
    cases i <;> first | rfl | cases h

theorem Extra.graph (h : Extra D k x st) (ts : List Rel.RelTree) :
    Pipe.Near D (graphOf st.symbols ts) (graphOf (ins m x st.symbols) ts) := by
  unfold graphOf
  refine ⟨?_, fun n hn => ?_, fun n hn => ⟨noRel_entry fun s hs => ?_, noRel_entry fun s hs => ?_⟩⟩
  · simp only
    rw [filter_ins]
    intro s hs
    cases hi : isRelation s.info with
    | false => rfl
    | true => exact absurd (h.own s hs).2 (by rw [top_of_relation hi]; decide)
  · simp only [h.lookup hn]
  · obtain ⟨h1, h2⟩ := lookup_known hs
    cases ht : isTop s.info with
    | false => rfl
    | true => exact absurd hn (h2 ▸ h.tops s h1 ht)
  · obtain ⟨h1, h2⟩ := lookup_known hs
    rcases mem_ins h1 with h1 | h1
    · exact (h.own s h1).2
    · cases ht : isTop s.info with
      | false => rfl
      | true => exact absurd hn (h2 ▸ h.tops s h1 ht)

theorem near_parentIn (h : Pipe.Near D g g') : parentIn g = parentIn g' := by
  funext n
  unfold parentIn
  rw [h.order, h.data]

theorem near_parentOf (h : Pipe.Near D g g') : ∀ fuel : Nat, parentOf g fuel = parentOf g' fuel
  | 0 => rfl
  | fuel + 1 => by
    funext n
    unfold parentOf
    rw [near_parentIn h, h.data, near_parentOf h fuel]

theorem near_outersOf (h : Pipe.Near D g g') : ∀ fuel : Nat, outersOf g fuel = outersOf g' fuel
  | 0 => rfl
  | fuel + 1 => by
    funext n
    unfold outersOf
    rw [h.order, near_parentOf h, near_outersOf h fuel]

theorem Extra.context (h : Pipe.Near D g g') (lib : Literal.Lib) (done : Relations)
    (fresh : List Str) (n : Str) :
    readerContext lib (st.ins m x) g' done fresh n =
      Rel.asking (anchorOf (st.ins m x)) (relationNamed (ins m x st.symbols) g')
        (Sec.sourceSymbol (ins m x st.symbols)) (Sec.columnFields (ins m x st.symbols))
        (readerContext lib st g done fresh n) := by
  unfold readerContext Rel.asking Expr.asking inputsOf
  simp only
  rw [h.isSubquery, h.order, near_outersOf h, h.data]
  rfl

theorem Extra.says (h : Extra D k x st) (hg : Pipe.Near D g g') {lib : Literal.Lib}
    {done : Relations} {fresh : List Str} {n : Str} {ns : List Str} (hn : ∀ i ∈ ns, i ∉ D) :
    Rel.SaysAll (anchorOf (st.ins m x)) (relationNamed (ins m x st.symbols) g')
      (Sec.sourceSymbol (ins m x st.symbols)) (Sec.columnFields (ins m x st.symbols))
      (readerContext lib st g done fresh n) ns := by
  refine ⟨fun i hi => ⟨?_, ?_⟩, fun i hi => ?_, fun i hi => ?_⟩
  · show anchorOf (st.ins m x) i = anchorOf st i
    unfold anchorOf
    rw [show (st.ins m x).symbols = ins m x st.symbols from rfl, h.lookup (hn i hi)]
    rfl
  · show relationNamed (ins m x st.symbols) g' i = relationNamed st.symbols g i
    unfold relationNamed
    rw [h.lookup (hn i hi), hg.away i (hn i hi)]
  · show Sec.sourceSymbol (ins m x st.symbols) i = Sec.sourceSymbol st.symbols i
    unfold Sec.sourceSymbol
    rw [h.lookup (hn i hi)]
  · exact h.columnFields (hn i hi)

/-- None of these names is in the details of the relations. -/
def AwayFrom (D : List Str) (ts : List Rel.RelTree) : Prop :=
  ∀ t ∈ ts, ∀ n ∈ t.details.flatMap detailNames, n ∉ D

theorem Extra.readRelation (h : Extra D k x st) (hg : Pipe.Near D g g') {lib : Literal.Lib}
    {first : Bool} {done : Relations} {fresh : List Str} {t : Rel.RelTree}
    (ht : ∀ n ∈ t.details.flatMap detailNames, n ∉ D) :
    readRelation lib (st.ins m x) g' first done fresh t = readRelation lib st g first done fresh t := by
  unfold Whole.readRelation
  split
  · rfl
  · rw [Extra.context hg, Rel.readPass_asking (h.says hg ht)]

theorem Extra.readRelations (h : Extra D k x st) (hg : Pipe.Near D g g') {lib : Literal.Lib}
    {first : Bool} : ∀ {ts : List Rel.RelTree} {u : Counters} {done : Relations}, AwayFrom D ts →
    readRelations lib (st.ins m x) g' first u done ts = readRelations lib st g first u done ts
  | [], _, _, _ => rfl
  | t :: ts, u, done, ht => by
    unfold Whole.readRelations
    rw [h.readRelation hg (ht t (by simp))]
    congr 1
    funext r
    exact h.readRelations hg fun q hq => ht q (by simp [hq])

theorem Extra.readPasses (h : Extra D k x st) (hg : Pipe.Near D g g') {lib : Literal.Lib}
    {ts : List Rel.RelTree} (ht : AwayFrom D ts) :
    readPasses lib (st.ins m x) g' ts = readPasses lib st g ts := by
  unfold Whole.readPasses
  rw [h.readRelations hg ht]
  congr 1
  funext r
  exact h.readRelations hg ht

/-- The names in the relations that have been read. -/
def Clean (D : List Str) (done : Relations) : Prop :=
  ∀ e ∈ done, (∀ id, Rel.schemaIn e.2.rel.body = some id → id ∉ D) ∧
    ∀ id, Rel.sourceIn e.2.rel.body = some id → id ∉ D

theorem readRelations_clean {lib : Literal.Lib} {first : Bool} :
    ∀ {ts : List Rel.RelTree} {u : Counters} {done done' : Relations}, AwayFrom D ts →
    Clean D done → readRelations lib st g first u done ts = .ok done' → Clean D done'
  | [], _, _, _, _, hd, h => by cases h; exact hd
  | t :: ts, u, done, done', hb, hd, h => by
    unfold readRelations at h
    obtain ⟨r, h1, h2⟩ := Outcome.of_bind h
    refine readRelations_clean (fun q hq => hb q (by simp [hq])) ?_ h2
    intro e he
    rcases List.mem_cons.mp he with rfl | he
    · unfold readRelation at h1
      split at h1
      · cases h1
      · obtain ⟨a, h3, h1⟩ := Outcome.of_bind h1
        split at h1
        · cases h1
          exact ⟨fun id hid => hb t (by simp) id
              (List.mem_flatMap.mpr ⟨_, Rel.readPass_schema h3 hid, by simp [detailNames]⟩),
            fun id hid => hb t (by simp) id
              (List.mem_flatMap.mpr ⟨_, Rel.readPass_source h3 hid, by simp [detailNames]⟩)⟩
        · cases h1
    · exact hd e he

theorem readPasses_clean {lib : Literal.Lib} {ts : List Rel.RelTree}
    {done : Relations} (hb : AwayFrom D ts) (h : readPasses lib st g ts = .ok done) :
    Clean D done := by
  unfold readPasses at h
  obtain ⟨a, h1, h2⟩ := Outcome.of_bind h
  exact readRelations_clean hb (readRelations_clean hb (fun e he => by cases he) h1) h2

theorem Clean.find {done : Relations} (h : Clean D done) {n : Str} {d : Done}
    (hf : done.find n = some d) : (∀ id, Rel.schemaIn d.rel.body = some id → id ∉ D) ∧
      ∀ id, Rel.sourceIn d.rel.body = some id → id ∉ D := by
  unfold Relations.find at hf
  cases he : List.find? (fun e => decide (e.1 = n)) done with
  | none => rw [he] at hf; cases hf
  | some e =>
    rw [he] at hf
    injection hf with hf
    subst hf
    exact h e (List.mem_of_find?_eq_some he)

theorem Extra.ownOf (h : Extra D k x st) {r : Rel.PbRel}
    (h1 : ∀ id, Rel.schemaIn r.body = some id → id ∉ D)
    (h2 : ∀ id, Rel.sourceIn r.body = some id → id ∉ D) :
    ownOf (ins m x st.symbols) r = ownOf st.symbols r := by
  unfold Whole.ownOf
  split <;> rename_i hb
  · rename_i s sc f b p
    have e1 : sc.bind (Sec.schemaOf (ins m x st.symbols)) = sc.bind (Sec.schemaOf st.symbols) := by
      cases sc with
      | none => rfl
      | some id => exact h.schemaOf (h1 id (by rw [hb]; rfl))
    rw [e1]
    cases s with
    | none => rfl
    | some n => simp only; rw [h.sourceOf (h2 n (by rw [hb]; rfl))]
  · rfl

mutual
theorem Extra.attach (h : Extra D k x st) {done : Relations} (hd : Clean D done) :
    ∀ r : Pipe.Rel, attach (ins m x st.symbols) done r = attach st.symbols done r
  | .node q n ins' subs => by
    have ho : Whole.ownOf (ins m x st.symbols) (((done.find n).map (·.rel)).getD ⟨.other, []⟩) =
        Whole.ownOf st.symbols (((done.find n).map (·.rel)).getD ⟨.other, []⟩) := by
      cases hf : done.find n with
      | none => exact h.ownOf (fun id hid => by cases hid) fun id hid => by cases hid
      | some d => exact h.ownOf (hd.find hf).1 (hd.find hf).2
    unfold Whole.attach
    rw [ho, Extra.attachL h hd ins', Extra.attachL h hd subs]
theorem Extra.attachL (h : Extra D k x st) {done : Relations} (hd : Clean D done) :
    ∀ rs : List Pipe.Rel, attachL (ins m x st.symbols) done rs = attachL st.symbols done rs
  | [] => rfl
  | r :: rs => by
    unfold Whole.attachL
    rw [Extra.attach h hd r, Extra.attachL h hd rs]
end

theorem Extra.roots (h : Extra D k x st) :
    Sec.rootNamesOf (ins m x st.symbols) = Sec.rootNamesOf st.symbols := by
  unfold Sec.rootNamesOf
  refine findSome_ins (fun s hs => ?_) m _
  have := (h.own s hs).2
  unfold Sec.rootOf
  split
  · rename_i hi; rw [hi] at this; cases this
  · rfl

theorem Extra.refsKnown (h : Extra D k x st) : ∀ {ds : List PlanDetail} {seen : List Str},
    AwayFrom D (ds.filterMap relationOf) →
      refsKnown (ins m x st.symbols) seen ds = refsKnown st.symbols seen ds
  | [], _, _ => rfl
  | d :: ds, seen, ha => by
    cases d with
    | relation t =>
      rw [show (PlanDetail.relation t :: ds).filterMap relationOf = t :: ds.filterMap relationOf from rfl]
        at ha
      unfold Whole.refsKnown
      rw [h.refsKnown fun q hq => ha q (by simp [hq])]
      congr 1
      have hall : ∀ l : List Str, (∀ n ∈ l, n ∉ D) →
          (l.all fun n => (Sec.lookup (ins m x st.symbols) n).isSome || seen.contains n) =
            l.all fun n => (Sec.lookup st.symbols n).isSome || seen.contains n := by
        intro l
        induction l with
        | nil => intro _; rfl
        | cons n l ih =>
          intro hl
          simp only [List.all_cons]
          rw [h.lookup (hl n (by simp)), ih fun i hi => hl i (by simp [hi])]
      exact hall _ fun n hn => ha t (by simp) n (refsOf_named hn)
    | pipelines ps => exact h.refsKnown (ds := ds) ha
    | schema a b => exact h.refsKnown (ds := ds) ha
    | source a => exact h.refsKnown (ds := ds) ha
    | space a => exact h.refsKnown (ds := ds) ha
    | root a => exact h.refsKnown (ds := ds) ha

theorem refsKnown_insert {l : List Symbol} {d : PlanDetail} (hd : isData d = true)
    {b : List PlanDetail} : ∀ {a : List PlanDetail} {seen : List Str},
      refsKnown l seen (a ++ d :: b) = refsKnown l seen (a ++ b)
  | [], seen => by cases d <;> first | rfl | cases hd
  | e :: a, seen => by
    cases e with
    | relation t =>
      show (_ && refsKnown l seen (a ++ d :: b)) = (_ && refsKnown l seen (a ++ b))
      rw [refsKnown_insert hd]
    | pipelines ps => exact refsKnown_insert hd (a := a)
    | schema x y => exact refsKnown_insert hd (a := a)
    | source x => exact refsKnown_insert hd (a := a)
    | space x => exact refsKnown_insert hd (a := a)
    | root x => exact refsKnown_insert hd (a := a)

/-- Symbols that are not used do not change the plan. -/
theorem Extra.fromState (h : Extra D k x st) {lib : Literal.Lib} {fuel : Nat}
    {a b : List PlanDetail} {d : PlanDetail} (hd : isData d = true)
    (ha : AwayFrom D ((a ++ b).filterMap relationOf))
    (hp : ∀ ps ∈ (a ++ b).filterMap pipelinesOf, ∀ p ∈ ps, ∀ r ∈ p, r.name ∉ D) :
    fromState lib fuel (a ++ d :: b) (st.ins m x) = fromState lib fuel (a ++ b) st := by
  have hr : (a ++ d :: b).filterMap relationOf = (a ++ b).filterMap relationOf := by
    have : relationOf d = none := by cases d <;> first | rfl | (exfalso; revert hd; simp [isData])
    rw [List.filterMap_append, List.filterMap_append, List.filterMap_cons_none this]
  have hq : (a ++ d :: b).filterMap pipelinesOf = (a ++ b).filterMap pipelinesOf := by
    have : pipelinesOf d = none := by cases d <;> first | rfl | (exfalso; revert hd; simp [isData])
    rw [List.filterMap_append, List.filterMap_append, List.filterMap_cons_none this]
  have hk : ∀ seen, Whole.refsKnown (ins m x st.symbols) seen (a ++ d :: b) =
      Whole.refsKnown st.symbols seen (a ++ b) := fun seen => by
    rw [refsKnown_insert hd, h.refsKnown ha]
  unfold Whole.fromState
  rw [hr, hq]
  show (if st.errs.isEmpty then _ else _) = _
  split
  · have hv := Pipe.visitAll_near (ps := ((a ++ b).filterMap pipelinesOf).flatten)
      (s := ⟨graphOf st.symbols ((a ++ b).filterMap relationOf), []⟩)
      (s' := ⟨graphOf (ins m x st.symbols) ((a ++ b).filterMap relationOf), []⟩)
      (h.graph (m := m) ((a ++ b).filterMap relationOf)) rfl (by
        intro p hpm
        obtain ⟨ps, h1, h2⟩ := List.mem_flatten.mp hpm
        exact hp ps h1 p h2)
    show ((Pipe.visitAll _ ⟨graphOf (ins m x st.symbols) _, []⟩).bind _) = _
    revert hv
    generalize Pipe.visitAll _ (Pipe.State.mk (graphOf st.symbols _) []) = o
    generalize Pipe.visitAll _ (Pipe.State.mk (graphOf (ins m x st.symbols) _) []) = o'
    intro hv
    cases o <;> cases o' <;> first | exact hv.elim | skip
    · rename_i s s'
      obtain ⟨hg, he⟩ := hv
      simp only [Outcome.bind_ok]
      rw [show (st.ins m x).symbols = ins m x st.symbols from rfl, hk, he, h.readPasses hg ha,
        ← hg.binaryPlan, ← hg.namedRels, h.roots]
      split
      · cases hdn : Whole.readPasses lib st s.table ((a ++ b).filterMap relationOf) with
        | ok done =>
          simp only [Outcome.bind_ok]
          congr 1
          funext rs
          rw [h.attachL (readPasses_clean ha hdn)]
          rfl
        | throw e => rfl
        | ub => rfl
      · rfl
    · cases hv; rfl
    · rfl
  · rfl

/-! ## Locations -/

/-- Room for one more. -/
def skip (k n : Nat) : Nat := if n < k then n else n + 1

theorem skip_inj {k a b : Nat} (h : skip k a = skip k b) : a = b := by
  unfold skip at h
  split at h <;> split at h <;> omega

theorem skip_ne (k n : Nat) : skip k n ≠ k := by
  unfold skip
  split <;> omega

theorem number_skip {k : Nat} : ∀ {b : List PlanDetail} {n : Nat}, k ≤ n →
    (number n b).map (moved (skip k)) = number (n + 1) b
  | [], _, _ => rfl
  | d :: b, n, h => by
    simp only [number, List.map_cons]
    rw [number_skip (by omega)]
    congr 1
    unfold moved skip
    simp only
    rw [if_neg (by omega)]

theorem number_stay {k : Nat} : ∀ {a : List PlanDetail} {n : Nat}, n + a.length ≤ k →
    (number n a).map (moved (skip k)) = number n a
  | [], _, _ => rfl
  | d :: a, n, h => by
    simp only [List.length_cons] at h
    simp only [number, List.map_cons]
    rw [number_stay (by omega)]
    congr 1
    unfold moved skip
    simp only
    rw [if_pos (by omega)]

theorem filesOf_eq (d : PlanDetail) : filesOf d = fileNames d := by
  cases d with
  | source t => cases t <;> rfl
  | _ => rfl

theorem number_detail : ∀ {ds : List PlanDetail} {n : Nat} {p : Nat × PlanDetail},
    p ∈ number n ds → p.2 ∈ ds
  | [], _, _, h => by cases h
  | d :: ds, n, p, h => by
    rcases List.mem_cons.mp h with rfl | h
    · simp
    · exact List.mem_cons_of_mem _ (number_detail h)

theorem fromDetails_unused {lib : Literal.Lib} {fuel : Nat} {a b : List PlanDetail} {d : PlanDetail}
    (h : Unused a d b) : fromDetails lib fuel (a ++ d :: b) = fromDetails lib fuel (a ++ b) := by
  -- the definition by itself
  obtain ⟨st0, h0, he0⟩ := h.readable
  have hd := h.data
  have hr0 : visitDefinition 0 {} d = .ok st0 := by
    unfold Sec.visitPlan at h0
    obtain ⟨q, h1, h2⟩ := Outcome.of_map h0
    have : visitDefinition 0 {} d = .ok q := by
      unfold visitDefinitions at h1
      obtain ⟨q', h3, h4⟩ := Outcome.of_bind h1
      cases h4
      exact h3
    rw [this]
    congr 1
    rw [← h2]
    cases d <;> first | rfl | cases hd
  have hr : visitDefinition a.length {} d = .ok (st0.move fun _ => a.length) := by
    have := visitDefinition_move (fun _ => a.length) 0 {} d
    rw [hr0] at this
    exact this
  have hnames := visitDefinition_names hr
  simp only [List.map_nil, List.nil_append] at hnames
  have hown := visitDefinition_own hr
  -- the table
  have hnum : number 0 (a ++ d :: b) = number 0 a ++ (a.length, d) :: number (a.length + 1) b := by
    rw [number_append]; simp [number]
  have hmov : number 0 a ++ number (a.length + 1) b = (number 0 (a ++ b)).map (moved (skip a.length)) := by
    rw [number_append, List.map_append, number_stay (by omega), Nat.zero_add,
      number_skip (Nat.le_refl _)]
  have hside : ∀ n ∈ namesGiven d, ∀ e ∈ a ++ b, n ∉ namesUsed e := h.unused
  obtain ⟨m, hplan⟩ := planAt_ins (l1 := number 0 a) (l2 := number (a.length + 1) b) hr he0 hd
    (fun n hn p hp => h.filesBefore n (by rw [filesOf_eq]; exact hn) p.2 (number_detail hp))
    (fun p hp n hn hx => by
      rw [hnames] at hx
      exact h.filesAfter n hx p.2 (number_detail hp) (by rw [filesOf_eq]; exact hn))
    (fun p hp t ht hx => by
      rw [hnames] at hx
      refine hside _ hx p.2 ?_ (by rw [ht]; simp [namesUsed])
      rcases List.mem_append.mp hp with hp | hp
      · exact List.mem_append_left _ (number_detail hp)
      · exact List.mem_append_right _ (number_detail hp))
    (fun hx => by rw [hnames] at hx; exact (h.root _ hx).1 rfl)
    (fun hx => by rw [hnames] at hx; exact (h.root _ hx).2 rfl)
  rw [fromDetails_eq, fromDetails_eq, ← planAt_number, ← planAt_number, hnum, hplan, hmov, planAt_move]
  cases hs : planAt (number 0 (a ++ b)) with
  | throw e => rfl
  | ub => rfl
  | ok st =>
    show fromState lib fuel (a ++ d :: b) ((st.move (skip a.length)).ins m _) =
      fromState lib fuel (a ++ b) st
    have hrel : AwayFrom (namesGiven d) ((a ++ b).filterMap relationOf) := by
      intro t ht n hn hx
      obtain ⟨e, he, het⟩ := List.mem_filterMap.mp ht
      cases e with
      | relation t' =>
        cases het
        exact hside n hx _ he (by simp only [namesUsed]; exact List.mem_cons_of_mem _ hn)
      | _ => cases het
    have hbase : Matching (basesOf (a ++ b)) st (st.move (skip a.length)) :=
      matching_move skip_inj _ st
    have hfound : ∀ n, (Sec.lookup st.symbols n).isSome =
        (Sec.lookup (st.move (skip a.length)).symbols n).isSome := hbase.found
    have hknown : ∀ (ds : List PlanDetail) (seen : List Str), refsKnown st.symbols seen ds =
        refsKnown (st.move (skip a.length)).symbols seen ds := by
      intro ds
      induction ds with
      | nil => intro _; rfl
      | cons e ds ih =>
        intro seen
        cases e with
        | relation t => unfold refsKnown; simp only [ih, hfound]
        | pipelines ps => exact ih _
        | schema x y => exact ih _
        | source x => exact ih _
        | space x => exact ih _
        | root x => exact ih _
    rw [hbase.fromState (lib := lib) (fuel := fuel) (ds := a ++ b) (ds' := a ++ b) rfl rfl ?_
      (hknown _ _)]
    · have htops := planAt_tops
        (ns := rootName :: rootNamesName :: ((a ++ b).filterMap relationOf).map (·.ref.id))
        (by simp) (by simp) (by
          intro p hp t ht
          have : t ∈ (a ++ b).filterMap relationOf :=
            List.mem_filterMap.mpr ⟨p.2, number_detail hp, by rw [ht]; rfl⟩
          simp only [List.mem_cons, List.mem_map]
          exact .inr (.inr ⟨t, this, rfl⟩)) hs
      refine Extra.fromState (D := namesGiven d) (k := a.length)
        ⟨?_, ?_, ?_, ?_⟩ hd hrel ?_
      · intro s hsm
        obtain ⟨q, -, rfl⟩ := List.mem_map.mp hsm
        exact skip_ne _ _
      · intro s hsm
        exact (hown s hsm).2
      · intro n hn
        rwa [hnames] at hn
      · intro s hsm ht hx
        obtain ⟨q, hq, rfl⟩ := List.mem_map.mp hsm
        have := htops q hq ht
        simp only [List.mem_cons, List.mem_map] at this
        rcases this with e | e | ⟨t, ht, e⟩
        · exact (h.root _ hx).1 e
        · exact (h.root _ hx).2 e
        · obtain ⟨p, hp, hpt⟩ := List.mem_filterMap.mp ht
          cases p with
          | relation t' =>
            cases hpt
            exact hside _ hx _ hp (by simp only [namesUsed, List.mem_cons]; exact .inl e.symm)
          | _ => cases hpt
      · intro ps hps p hp r hr hx
        obtain ⟨e, he, hep⟩ := List.mem_filterMap.mp hps
        cases e with
        | pipelines ps' =>
          cases hep
          refine hside _ hx _ he ?_
          simp only [namesUsed]
          exact List.mem_map.mpr ⟨r, List.mem_flatten.mpr ⟨p, hp, hr⟩, rfl⟩
        | _ => cases hep
    · intro t ht id hid
      exact List.mem_flatMap.mpr ⟨t, ht, List.mem_filterMap.mpr ⟨_, hid, rfl⟩⟩

end Verif.Whole
