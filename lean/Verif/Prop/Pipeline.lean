import Verif.Lemmas.Pipeline

/-!
# C41: the pipelines section
-/

namespace Verif.Pipe

open Verif

/-- The section is read, and how many errors there are. -/
def readErrors (ps : List (List Ref)) (t : Table) : Outcome (List Err) :=
  (visitAll ps ⟨t, []⟩).map (·.errors)

/-- C41: pipelines of relations (defined or not) are always read to the end; there is no
error exactly if no relation comes twice in one pipeline, and none that stands inside a
pipeline comes again in a later one. -/
theorem pipelines_accepted_iff (ps : List (List Str)) (t : Table) (hf : Fresh t)
    (ho : ∀ p ∈ ps, ∀ n ∈ p, ¬ IsOther t n) :
    ∃ s, visitAll (ps.map refs) ⟨t, []⟩ = .ok s ∧ (s.errors = [] ↔ Accepted ps) := by
  obtain ⟨s, e, -, -, h1, h2⟩ := visitAll_plain ps ⟨t, []⟩ ho
  refine ⟨s, e, ?_⟩
  have hfine : FineAll ps t.data ↔ Accepted ps :=
    ⟨fun h => ⟨h.nodup, h.apart⟩, fun h => ⟨h.nodup, fun _ _ x _ => (hf x).2.1, h.apart⟩⟩
  constructor
  · intro he
    by_cases h : FineAll ps t.data
    · exact hfine.mp h
    · obtain ⟨e, es, hx⟩ := h2 h
      rw [he] at hx
      simp at hx
  · intro h
    exact (h1 (hfine.mpr h)).1

/-- Three pipelines that meet in a join and end in the root. -/
def twoSided : List (List Str) :=
  [["a".toList, "b".toList, "j".toList], ["c".toList, "j".toList], ["j".toList, "root".toList]]

example : Accepted twoSided ∧ Fresh Table.empty ∧
    ∀ p ∈ twoSided, ∀ n ∈ p, ¬ IsOther Table.empty n := by
  refine ⟨?_, fun _ => ⟨rfl, rfl, rfl⟩, fun p _ n _ h => by simp [IsOther, Table.empty] at h⟩
  obtain ⟨s, h1, h2⟩ := pipelines_accepted_iff twoSided Table.empty (fun _ => ⟨rfl, rfl, rfl⟩)
    (fun p _ n _ h => by simp [IsOther, Table.empty] at h)
  apply h2.mp
  have : readErrors (twoSided.map refs) Table.empty = .ok [] := by decide
  unfold readErrors at this
  rw [h1] at this
  simpa using this

/-- C41: what an accepted section means.  The relation before `x` inside a pipeline becomes
its only continuation; the relations before `x` at the end of pipelines become its inputs, in
the order of the pipelines; and a relation counts as the start of a pipeline unless it feeds
another one.  The relations keep their kinds and subqueries. -/
theorem pipelines_graph (ps : List (List Str)) (t : Table) (hf : Fresh t)
    (ho : ∀ p ∈ ps, ∀ n ∈ p, ¬ IsOther t n) (ha : Accepted ps) :
    ∃ s, visitAll (ps.map refs) ⟨t, []⟩ = .ok s ∧ s.errors = [] ∧
      (∀ x l, (s.table.data x).cont = some l ↔ ∃ p ∈ ps, ∃ a r b, p = a ++ l :: x :: r :: b) ∧
      (∀ x, (s.table.data x).news = ps.filterMap (feeder x)) ∧
      (∀ x, (s.table.data x).start = none ↔ ¬ ∃ p ∈ ps, ∃ r, Feeds p x r) ∧
      (∀ x, (s.table.data x).subs = (t.data x).subs) ∧
      (∀ x, t.isRel x = true → s.table.isRel x = true ∧ s.table.kind x = t.kind x) ∧
      (∀ p ∈ ps, ∀ x ∈ p, s.table.isRel x = true) := by
  obtain ⟨s, e, st, hr, h1, -⟩ := visitAll_plain ps ⟨t, []⟩ ho
  have hfine : FineAll ps t.data := ⟨ha.nodup, fun _ _ x _ => (hf x).2.1, ha.apart⟩
  obtain ⟨he, hd⟩ := h1 hfine
  refine ⟨s, e, he, ?_, ?_, ?_, ?_, ?_, hr⟩
  · intro x l
    rw [hd]
    show (afterAll ps t.data x).cont = some l ↔ _
    rw [afterAll_cont ps _ x l hfine, (hf x).2.1]
    simp
  · intro x
    rw [hd]
    show (afterAll ps t.data x).news = _
    rw [afterAll_news ps _ x ha.nodup, (hf x).2.2]
    simp
  · intro x
    rw [hd]
    have := afterAll_start ps t.data x ha.nodup
    rw [(hf x).1] at this
    simp only [Option.isSome_none, Bool.false_eq_true, false_or] at this
    rw [← this]
    show (afterAll ps t.data x).start = none ↔ _
    simp
  · intro x
    unfold Table.data
    cases hx : t.get x with
    | none =>
      rcases st.new x hx with h | ⟨d', h, hs⟩
      · rw [h]
      · rw [h]; exact hs
    | some en =>
      cases en with
      | rel k d =>
        obtain ⟨d', h, hs, -⟩ := st.kinds x k d hx
        rw [h]; exact hs
      | other =>
        rw [(st.others x).mpr hx]
  · intro x hx
    obtain ⟨k, d, h⟩ := isRel_iff.mp hx
    obtain ⟨d', h', -⟩ := st.kinds x k d h
    refine ⟨isRel_iff.mpr ⟨k, d', h'⟩, ?_⟩
    unfold Table.kind
    rw [h, h']

/-- C41: in an accepted section the inputs of a relation are exactly the relations written in
front of it. -/
theorem pipelines_inputs (ps : List (List Str)) (t : Table) (hf : Fresh t)
    (ho : ∀ p ∈ ps, ∀ n ∈ p, ¬ IsOther t n) (ha : Accepted ps) :
    ∃ s, visitAll (ps.map refs) ⟨t, []⟩ = .ok s ∧
      ∀ x l, Input s.table x l ↔ ∃ p ∈ ps, Feeds p l x := by
  obtain ⟨s, e, -, hc, hn, -⟩ := pipelines_graph ps t hf ho ha
  refine ⟨s, e, fun x l => ?_⟩
  unfold Input
  rw [hc, hn]
  simp only [List.mem_filterMap, feeder_some]
  constructor
  · rintro (⟨p, hp, a, r, b, rfl⟩ | ⟨p, hp, a, rfl⟩)
    · exact ⟨_, hp, a, r :: b, rfl⟩
    · exact ⟨_, hp, a, [], rfl⟩
  · rintro ⟨p, hp, a, b, rfl⟩
    cases b with
    | nil => exact .inr ⟨_, hp, a, rfl⟩
    | cons r b => exact .inl ⟨_, hp, a, r, b, rfl⟩

/-- C41, in part: the graph has a cycle exactly if the accepted section has one; and each
relation has at most one consumer if it stands in front of at most one other.  Missing: that a
section with a cycle or with a relation in front of two others is refused (it is not, see
`cycle_accepted` and `two_consumers_accepted`). -/
theorem pipelines_forest_partial (ps : List (List Str)) (t : Table) (hf : Fresh t)
    (ho : ∀ p ∈ ps, ∀ n ∈ p, ¬ IsOther t n) (ha : Accepted ps) :
    ∃ s, visitAll (ps.map refs) ⟨t, []⟩ = .ok s ∧
      (∀ x y, Reaches s.table x y ↔ Upstream ps x y) ∧
      ((∀ l x y, (∃ p ∈ ps, Feeds p l x) → (∃ p ∈ ps, Feeds p l y) → x = y) →
        ∀ l x y, Input s.table x l → Input s.table y l → x = y) := by
  obtain ⟨s, e, h⟩ := pipelines_inputs ps t hf ho ha
  refine ⟨s, e, ?_, ?_⟩
  · intro x y
    constructor
    · intro hr
      induction hr with
      | one hi => exact .one ((h _ _).mp hi)
      | more hi _ ih => exact .more ((h _ _).mp hi) ih
    · intro hr
      induction hr with
      | one hi => exact .one ((h _ _).mpr hi)
      | more hi _ ih => exact .more ((h _ _).mpr hi) ih
  · intro hu l x y hx hy
    exact hu l x y ((h _ _).mp hx) ((h _ _).mp hy)

/-! ## What is not refused -/

/-- C41 does not hold: for all pairs of names, `a -> b; b -> a;` is accepted, and each of the two
relations is an input of the other. -/
theorem cycle_accepted (a b : Str) (hab : a ≠ b) (t : Table) (hf : Fresh t)
    (ha : ¬ IsOther t a) (hb : ¬ IsOther t b) :
    ∃ s, visitAll ([[a, b], [b, a]].map refs) ⟨t, []⟩ = .ok s ∧ s.errors = [] ∧
      Reaches s.table a a := by
  have hacc : Accepted [[a, b], [b, a]] := by
    refine ⟨?_, ?_⟩
    · intro p hp
      simp only [List.mem_cons, List.not_mem_nil, or_false] at hp
      rcases hp with rfl | rfl
      · simp [hab]
      · simp [Ne.symm hab]
    · rw [List.pairwise_cons]
      refine ⟨?_, by simp⟩
      rintro q - x ⟨u, l, r, v, h⟩
      have := congrArg List.length h
      simp at this
      omega
  have ho : ∀ p ∈ [[a, b], [b, a]], ∀ n ∈ p, ¬ IsOther t n := by
    intro p hp n hn
    simp only [List.mem_cons, List.not_mem_nil, or_false] at hp
    rcases hp with rfl | rfl <;>
    · simp only [List.mem_cons, List.not_mem_nil, or_false] at hn
      rcases hn with rfl | rfl <;> assumption
  obtain ⟨s, e, h0, hc, hn, -⟩ := pipelines_graph _ t hf ho hacc
  refine ⟨s, e, h0, ?_⟩
  have h1 : Input s.table a b := by
    right
    rw [hn]
    simp [feeder, Ne.symm hab]
  have h2 : Input s.table b a := by
    right
    rw [hn]
    simp [feeder, List.filterMap_cons]
  exact .more h1 (.one h2)

example : (∃ s, visitAll ([["a".toList, "b".toList], ["b".toList, "a".toList]].map refs)
    ⟨Table.empty, []⟩ = .ok s ∧ s.errors = [] ∧ Reaches s.table "a".toList "a".toList) :=
  cycle_accepted _ _ (by decide) Table.empty (fun _ => ⟨rfl, rfl, rfl⟩)
    (by simp [IsOther, Table.empty]) (by simp [IsOther, Table.empty])

/-- C41 does not hold: a relation may feed two others, if it starts the pipelines. -/
theorem two_consumers_accepted (a b c : Str) (hab : a ≠ b) (hac : a ≠ c) (hbc : b ≠ c) (t : Table)
    (hf : Fresh t) (ha : ¬ IsOther t a) (hb : ¬ IsOther t b) (hc : ¬ IsOther t c) :
    ∃ s, visitAll ([[a, b], [a, c]].map refs) ⟨t, []⟩ = .ok s ∧ s.errors = [] ∧
      Input s.table b a ∧ Input s.table c a := by
  have hacc : Accepted [[a, b], [a, c]] := by
    refine ⟨?_, ?_⟩
    · intro p hp
      simp only [List.mem_cons, List.not_mem_nil, or_false] at hp
      rcases hp with rfl | rfl
      · simp [hab]
      · simp [hac]
    · rw [List.pairwise_cons]
      refine ⟨?_, by simp⟩
      rintro q - x ⟨u, l, r, v, h⟩
      have := congrArg List.length h
      simp at this
      omega
  have ho : ∀ p ∈ [[a, b], [a, c]], ∀ n ∈ p, ¬ IsOther t n := by
    intro p hp n hn
    simp only [List.mem_cons, List.not_mem_nil, or_false] at hp
    rcases hp with rfl | rfl <;>
    · simp only [List.mem_cons, List.not_mem_nil, or_false] at hn
      rcases hn with rfl | rfl <;> assumption
  obtain ⟨s, e, h0, -, hn, -⟩ := pipelines_graph _ t hf ho hacc
  refine ⟨s, e, h0, .inr ?_, .inr ?_⟩
  · rw [hn]
    simp [feeder, List.filterMap_cons]
  · rw [hn]
    simp [feeder, hbc]

/-- C41 does not hold: whether a relation with two consumers is refused depends on the order of
the pipelines. -/
theorem order_matters :
    readErrors (([["b", "d"], ["a", "b", "c"]].map (·.map String.toList)).map refs) Table.empty =
      .ok [] ∧
    readErrors (([["a", "b", "c"], ["b", "d"]].map (·.map String.toList)).map refs) Table.empty =
      .ok [.used "b".toList] := by
  decide

/-- C41 does not hold: references with a schema are not compared with the names, so that a
relation that feeds itself is accepted. -/
theorem loop_with_schema_accepted (a w : Str) (hw : w ≠ a) (t : Table) (hf : Fresh t)
    (ha : ¬ IsOther t a) :
    ∃ s, visitAll [[⟨a, w⟩, ⟨a, w⟩]] ⟨t, []⟩ = .ok s ∧ s.errors = [] ∧ Input s.table a a := by
  have hr : (touch t a).isRel a = true := isRel_touch ha
  have hr2 : (touch (touch t a) a).isRel a = true :=
    isRel_touch (fun h => by rw [isRel_iff] at hr; obtain ⟨k, d, e⟩ := hr; rw [IsOther] at h; rw [h] at e; simp at e)
  obtain ⟨k, d, hd⟩ := isRel_iff.mp hr2
  have hdata : d = t.data a := by
    have : (touch (touch t a) a).data a = d := by simp [Table.data, hd]
    rw [← this, data_touch, data_touch]
  have hc : d.cont = none := by rw [hdata]; exact (hf a).2.1
  have hs : d.start = none := by rw [hdata]; exact (hf a).1
  have hn : d.news = [] := by rw [hdata]; exact (hf a).2.2
  have hct : containsText [⟨a, w⟩] a = false := by simp [containsText, hw]
  refine ⟨⟨((touch (touch t a) a).set a k { d with start := some a }).set a k
      { d with start := some a, news := [a] }, []⟩, ?_, rfl, ?_⟩
  · have hisr : ∀ x, ((touch (touch t a) a).set a k x).isRel a = true := by
      intro x; simp [Table.isRel, Table.set]
    simp only [visitAll, visit, Outcome.bind_ok, connect, hd, List.head?_nil, List.head?_cons,
      hc, Option.isSome_none, Bool.false_eq_true, if_false, rightmost, hr2, if_true, hct, leftOf]
    have hda : (touch (touch t a) a).data a = d := by simp [Table.data, hd]
    simp [hda, hs, link, Table.set, Table.isRel, hc, hn, containsText]
  · right
    simp [Table.data, Table.set]

example : (∃ s, visitAll [[⟨"a".toList, "a(schemas)".toList⟩, ⟨"a".toList, "a(schemas)".toList⟩]]
    ⟨Table.empty, []⟩ = .ok s ∧ s.errors = [] ∧ Input s.table "a".toList "a".toList) :=
  loop_with_schema_accepted _ _ (by decide) Table.empty (fun _ => ⟨rfl, rfl, rfl⟩)
    (by simp [IsOther, Table.empty])

/-- C41 does not hold: if the name of something else (a schema, say) stands in front of a relation,
a null pointer is dereferenced. -/
theorem other_name_undefined (a b : Str) (hab : a ≠ b) (t : Table) (hf : Fresh t)
    (ha : IsOther t a) (hb : ¬ IsOther t b) : visitAll ([[a, b]].map refs) ⟨t, []⟩ = .ub := by
  have hr : (touch t b).isRel b = true := isRel_touch hb
  have hga : (touch (touch t b) a).get a = some .other := by
    rw [get_touch, get_touch]
    simp [hab, show t.get a = some .other from ha]
  have hgb : (touch (touch t b) a).get b = (touch t b).get b := by
    rw [get_touch]; simp [Ne.symm hab]
  obtain ⟨k, d, hd⟩ := isRel_iff.mp hr
  have hc : d.cont = none := by
    have : (touch t b).data b = d := by simp [Table.data, hd]
    rw [← this, data_touch]
    exact (hf b).2.1
  simp [visitAll, refs, visit, connect, hga, hgb, hd, hc, rightmost, containsText, leftOf,
    Table.isRel]

/-- A table with a schema. -/
def withSchema : Table := ⟨[], fun n => if n = "s".toList then some .other else none⟩

example : visitAll ([["s".toList, "b".toList]].map refs) ⟨withSchema, []⟩ = .ub :=
  other_name_undefined _ _ (by decide) withSchema
    (fun n => by
      unfold Table.data withSchema
      by_cases h : n = "s".toList <;> simp [h] <;> exact ⟨rfl, rfl, rfl⟩)
    (by simp [IsOther, withSchema]) (by simp [IsOther, withSchema])

end Verif.Pipe
