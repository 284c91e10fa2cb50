import Verif.Lemmas.Schema

/-!
# C43 and C38: output mappings and names of fields
-/

namespace Verif.Schema

open Verif

/-! ## C43 -/

/-- C43, reading a text plan: for every schema and every list of field numbers, what is
selected is exactly the fields with those numbers in the unmapped output, in order; the numbers
out of range are exactly the ones reported, and nothing out of range is read. -/
theorem emit_selects_text (d : RelData) (is : List Int) (hd : Unmapped d) (hne : is ≠ [])
    (hi : ∀ i ∈ is, IsInt32 i) (hl : (unmapped d).length < 2 ^ 31) :
    applyText d is = .ok ({ d with output := is.filterMap (at? (unmapped d)) },
      is.filter fun i => !decide (InRange (unmapped d) i)) :=
  applyText_eq hd hne hi hl

/-- C43, reading a binary plan: the same. -/
theorem emit_selects_binary (d : RelData) (is : List Int) (hd : Unmapped d) (hne : is ≠ [])
    (hi : ∀ i ∈ is, IsInt32 i) (hl : (unmapped d).length < 2 ^ 31) :
    applyBinary d is = .ok ({ d with output := is.filterMap (at? (unmapped d)) },
      is.filter fun i => !decide (InRange (unmapped d) i)) := by
  rw [applyBinary_eq_text hd, applyText_eq hd hne hi hl]

/-- C43: when all numbers are in range and there is at least one, no error is reported and
later relations see exactly the selected fields.  Without the two conditions this is false: see
`emit_nothing_gives_all` and `emit_out_of_range_gives_all`. -/
theorem emit_exposes_partial (d : RelData) (is : List Int) (hd : Unmapped d) (hne : is ≠ [])
    (hr : ∀ i ∈ is, InRange (unmapped d) i) (hl : (unmapped d).length < 2 ^ 31) :
    ∃ d', applyText d is = .ok (d', []) ∧ applyBinary d is = .ok (d', []) ∧
      is.mapM (at? (unmapped d)) = some (exposed d') := by
  have hi : ∀ i ∈ is, IsInt32 i := fun i h => by
    have := hr i h
    unfold InRange at this
    unfold IsInt32
    omega
  have hnil : (is.filter fun i => !decide (InRange (unmapped d) i)) = [] := by
    rw [List.filter_eq_nil_iff]
    intro i h
    simp [hr i h]
  obtain ⟨r, hm⟩ := mapM_some_of (f := at? (unmapped d)) (l := is) (fun i h => by
    rw [Option.isSome_iff_ne_none]
    intro hn
    exact at?_eq_none.mp hn (hr i h))
  refine ⟨{ d with output := is.filterMap (at? (unmapped d)) }, ?_, ?_, ?_⟩
  · rw [emit_selects_text d is hd hne hi hl, hnil]
  · rw [emit_selects_binary d is hd hne hi hl, hnil]
  · rw [filterMap_of_mapM hm, hm]
    have : r ≠ [] := by
      intro h0
      subst h0
      cases is with
      | nil => exact hne rfl
      | cons i is =>
        obtain ⟨b, hb, _⟩ := mapM_mem hm i (by simp)
        simp at hb
    simp [exposed, this]

/-- A column of a read. -/
def col (rel : String) (k : Nat) (name schema : String) : Field :=
  ⟨.column rel.toList k, name.toList, [], some schema.toList⟩

/-- A computed field, as the converter makes it. -/
def comp (rel : String) (k : Nat) (name : String) : Field :=
  ⟨.computed rel.toList k, name.toList, name.toList, none⟩

/-- A project of two columns and one computed field. -/
def sampleProject : RelData :=
  ⟨false, [col "read" 0 "a" "schema", col "read" 1 "b" "schema"],
    [comp "project" 0 "intermediate", col "read" 0 "a" "schema"], []⟩

example : Unmapped sampleProject ∧ [2, 1] ≠ ([] : List Int) ∧
    (∀ i ∈ ([2, 1] : List Int), InRange (unmapped sampleProject) i) ∧
    (unmapped sampleProject).length < 2 ^ 31 ∧
    applyText sampleProject [2, 1] = .ok ({ sampleProject with
      output := [comp "project" 0 "intermediate", col "read" 1 "b" "schema"] }, []) := by
  decide +kernel

/-- C43 fails for an output mapping without fields: it is dropped, and all fields are passed
on. -/
theorem emit_nothing_gives_all (d : RelData) (hd : Unmapped d) (h : d.generated ≠ []) :
    applyText d [] = .ok (d, []) ∧ exposed d = unmapped d ∧ unmapped d ≠ [] := by
  refine ⟨rfl, ?_, ?_⟩
  · unfold exposed unmapped
    unfold Unmapped at hd
    by_cases ha : d.aggregate
    · simp only [ha, if_true] at hd ⊢
      rw [hd]
      simp [h]
    · simp only [ha] at hd ⊢
      simp [show d.output = [] by simpa using hd]
  · unfold unmapped
    split
    · exact h
    · simp [h]

example : Unmapped sampleProject ∧ sampleProject.generated ≠ [] := by decide

/-- C43 fails when no number is in range: all input fields and generated fields are passed on.
(An error was reported.) -/
theorem emit_out_of_range_gives_all (d : RelData) (is : List Int) (hd : Unmapped d)
    (hne : is ≠ []) (hi : ∀ i ∈ is, IsInt32 i) (hl : (unmapped d).length < 2 ^ 31)
    (hr : ∀ i ∈ is, ¬ InRange (unmapped d) i) :
    ∃ d', applyText d is = .ok (d', is) ∧ exposed d' = d.fields ++ d.generated := by
  have hf : is.filterMap (at? (unmapped d)) = [] := by
    rw [List.filterMap_eq_nil_iff]
    exact fun i h => at?_eq_none.mpr (hr i h)
  refine ⟨{ d with output := [] }, ?_, by simp [exposed]⟩
  rw [emit_selects_text d is hd hne hi hl, hf]
  congr 2
  rw [List.filter_eq_self]
  intro i h
  simp [hr i h]

example : (∀ i ∈ ([-1, 4] : List Int), IsInt32 i) ∧
    ∀ i ∈ ([-1, 4] : List Int), ¬ InRange (unmapped sampleProject) i := by
  refine ⟨?_, by decide⟩
  intro i h
  simp at h
  unfold IsInt32
  omega

/-! ## C38 -/

/-- C38: for every nesting of relations, a name is looked up in the innermost relation that
knows it, there first among the generated fields and then among the fields of the inputs, and
in each the last one wins. -/
theorem find_innermost (scopes : List RelData) (emit : Bool) (n : Str) (k i : Nat)
    (h : find emit scopes n = some (k, i)) :
    (∃ d, scopes[k]? = some d ∧ findHere emit d n = some i) ∧
      ∀ j, j < k → ∀ e, scopes[j]? = some e →
        (∀ g ∈ e.generated, refers n g = false) ∧ ∀ f ∈ e.fields, ¬ Called f n := by
  induction scopes generalizing k with
  | nil => simp [find] at h
  | cons d outer ih =>
    rw [find] at h
    cases hh : findHere emit d n with
    | some x =>
      rw [hh] at h
      simp only [Option.some.injEq, Prod.mk.injEq] at h
      obtain ⟨rfl, rfl⟩ := h
      exact ⟨⟨d, rfl, hh⟩, fun j hj => absurd hj (by omega)⟩
    | none =>
      rw [hh] at h
      simp only [Option.map_eq_some_iff] at h
      obtain ⟨⟨k', i'⟩, h1, h2⟩ := h
      simp only [Prod.mk.injEq] at h2
      obtain ⟨rfl, rfl⟩ := h2
      obtain ⟨h3, h4⟩ := ih k' h1
      refine ⟨by simpa using h3, ?_⟩
      intro j hj e he
      cases j with
      | zero =>
        simp only [List.getElem?_cons_zero, Option.some.injEq] at he
        subst he
        obtain ⟨h5, h6⟩ := findHere_none.mp hh
        refine ⟨h5, fun f hf hc => ?_⟩
        have := h6 f hf
        rw [refersFull_iff.mpr hc] at this
        simp at this
      | succ j => exact h4 j (by omega) e (by simpa using he)

theorem find_last (scopes : List RelData) (emit : Bool) (n : Str) (k i : Nat) (d : RelData)
    (h : find emit scopes n = some (k, i)) (hd : scopes[k]? = some d)
    (hl : (d.fields ++ d.generated).length < 2 ^ 31) :
    (∃ j f, d.generated[j]? = some f ∧ refers n f = true ∧
      i = (if d.aggregate && emit then 0 else d.fields.length) + j ∧
      ∀ k g, j < k → d.generated[k]? = some g → refers n g = false) ∨
    ((∀ g ∈ d.generated, refers n g = false) ∧
      ∃ j f, d.fields[j]? = some f ∧ Called f n ∧
        (∀ k g, j < k → d.fields[k]? = some g → ¬ Called g n) ∧
        ((d.aggregate && emit) = false → i = j)) := by
  obtain ⟨⟨d', hd', hf⟩, _⟩ := find_innermost scopes emit n k i h
  rw [hd] at hd'
  simp only [Option.some.injEq] at hd'
  subst hd'
  rcases findHere_some hf hl with h1 | ⟨h1, j, f, h2, h3, h4, h5⟩
  · exact .inl h1
  · refine .inr ⟨h1, j, f, h2, refersFull_iff.mp h3, fun k g hk hg hc => ?_, h5⟩
    have := h4 k g hk hg
    rw [refersFull_iff.mpr hc] at this
    simp at this

example : find false [sampleProject] "schema.a".toList = some (0, 0) ∧
    find false [sampleProject] "a".toList = some (0, 3) ∧
    find false [⟨false, [], [], []⟩, sampleProject] "b".toList = some (1, 1) := by decide

theorem findHere_unique {d : RelData} {i : Nat} {f : Field}
    (hf : (d.fields ++ d.generated)[i]? = some f)
    (hu : ∀ j g, (d.fields ++ d.generated)[j]? = some g → Called g (nameOf f) → j = i)
    (hp : Plain f ∨ i < d.fields.length) (hl : (d.fields ++ d.generated).length < 2 ^ 31) :
    findHere false d (nameOf f) = some i := by
  cases hh : findHere false d (nameOf f) with
  | none =>
    exfalso
    obtain ⟨h1, h2⟩ := findHere_none.mp hh
    by_cases hlt : i < d.fields.length
    · rw [List.getElem?_append_left hlt] at hf
      have := h2 f (List.mem_of_getElem? hf)
      rw [refersFull_iff.mpr (called_nameOf f)] at this
      simp at this
    · rw [List.getElem?_append_right (by omega)] at hf
      have hpf : Plain f := hp.resolve_right hlt
      have := h1 f (List.mem_of_getElem? hf)
      rw [refers_nameOf hpf] at this
      simp at this
  | some x =>
    congr 1
    rcases findHere_some hh hl with ⟨j, g, h1, h2, h3, _⟩ | ⟨_, j, g, h2, h3, _, h5⟩
    · simp only [Bool.and_false, Bool.false_eq_true, if_false] at h3
      rw [h3]
      refine hu _ g ?_ (refers_called h2)
      rw [List.getElem?_append_right (by omega)]
      simpa using h1
    · have hlt : j < d.fields.length := (List.getElem?_eq_some_iff.mp h2).1
      rw [h5 (by simp)]
      refine hu _ g ?_ (refersFull_iff.mp h3)
      rw [List.getElem?_append_left hlt]
      exact h2

/-- C38: for every nesting of relations, the name printed for field `i` of the relation `k`
steps out is resolved to `k` steps out and field `i` again, provided no other field of that
relation and no field of the relations in between goes by that name.  Without the condition on
names this is false: see the theorems below. -/
theorem reference_roundtrip_partial (scopes : List RelData) (k i : Nat) (d : RelData) (f : Field)
    (hd : scopes[k]? = some d) (hf : (d.fields ++ d.generated)[i]? = some f)
    (hl : (d.fields ++ d.generated).length < 2 ^ 31)
    (hu : ∀ j g, (d.fields ++ d.generated)[j]? = some g → Called g (nameOf f) → j = i)
    (hp : Plain f ∨ i < d.fields.length)
    (hb : ∀ j, j < k → ∀ e, scopes[j]? = some e →
      ∀ g ∈ e.fields ++ e.generated, ¬ Called g (nameOf f)) :
    lookup scopes k i = some (nameOf f) ∧ find false scopes (nameOf f) = some (k, i) := by
  induction scopes generalizing k with
  | nil => simp at hd
  | cons e outer ih =>
    cases k with
    | zero =>
      simp only [List.getElem?_cons_zero, Option.some.injEq] at hd
      subst hd
      refine ⟨by rw [lookup, hf]; rfl, ?_⟩
      rw [find, findHere_unique hf hu hp hl]
    | succ k =>
      have hn : findHere false e (nameOf f) = none := by
        rw [findHere_none]
        have h0 := hb 0 (by omega) e rfl
        constructor
        · intro g hg
          cases hr : refers (nameOf f) g with
          | false => rfl
          | true => exact absurd (refers_called hr) (h0 g (by simp [hg]))
        · intro g hg
          cases hr : refersFull (nameOf f) g with
          | false => rfl
          | true => exact absurd (refersFull_iff.mp hr) (h0 g (by simp [hg]))
      obtain ⟨h1, h2⟩ := ih k (by simpa using hd) (fun j hj e' he' =>
        hb (j + 1) (by omega) e' (by simpa using he'))
      refine ⟨by rw [lookup, h1], ?_⟩
      rw [find, hn, h2]
      rfl

/-- The relation of a subquery with a column, and the relation around it. -/
def innerScope : RelData := ⟨false, [col "read2" 0 "c" "schema2"], [], []⟩

example : [innerScope, sampleProject][1]? = some sampleProject ∧
    (sampleProject.fields ++ sampleProject.generated)[1]? = some (col "read" 1 "b" "schema") ∧
    find false [innerScope, sampleProject] "schema.b".toList = some (1, 1) := by decide

example : ∀ j g, (sampleProject.fields ++ sampleProject.generated)[j]? = some g →
    Called g (nameOf (col "read" 1 "b" "schema")) → j = 1 := by
  intro j g h hc
  match j with
  | 0 => simp [sampleProject] at h; subst h; revert hc; decide
  | 1 => rfl
  | 2 => simp [sampleProject] at h; subst h; revert hc; decide
  | 3 => simp [sampleProject] at h; subst h; revert hc; decide
  | n + 4 => simp [sampleProject] at h

/-- C38 fails when a field of the subquery has the same name as the outer one: the reference
is resolved inside. -/
theorem outer_reference_captured (scopes : List RelData) (d : RelData) (k i : Nat) (n : Str)
    (g : Field) (hg : g ∈ d.fields) (hc : Called g n) :
    find false (d :: scopes) n ≠ some (k + 1, i) := by
  intro h
  have := ((find_innermost (d :: scopes) false n (k + 1) i h).2 0 (by omega) d rfl).2 g hg
  exact this hc

example : lookup [⟨false, [comp "p" 0 "x"], [], []⟩, ⟨false, [comp "q" 0 "x"], [], []⟩] 1 0
      = some "x".toList ∧
    find false [⟨false, [comp "p" 0 "x"], [], []⟩, ⟨false, [comp "q" 0 "x"], [], []⟩]
      "x".toList = some (0, 0) := by decide

/-- C38 and C43 fail for every aggregate that emits a grouped column of a schema, whose name
is printed as `schema.column`: that name is not found among the groupings, and the number made from it is never one of the
aggregate's fields, so the text is refused. -/
theorem emit_of_grouped_column_lost (d : RelData) (i : Nat) (f : Field) (ha : d.aggregate = true)
    (hf : d.generated[i]? = some f) (hin : f ∈ d.fields)
    (hc : ∀ g ∈ d.generated, refers (nameOf f) g = false)
    (hl : d.fields.length < 2 ^ 30) (hl' : d.generated.length < 2 ^ 30) :
    lookupEmit d i = some (nameOf f) ∧
      ∃ j, find true [d] (nameOf f) = some (0, j) ∧ ¬ InRange d.generated j := by
  refine ⟨by simp [lookupEmit, ha, hf], ?_⟩
  have hg : findBack (refers (nameOf f)) d.generated = none := findBack_none.mpr hc
  cases hb : findBack (refersFull (nameOf f)) d.fields with
  | none =>
    have := findBack_none.mp hb f hin
    rw [refersFull_iff.mpr (called_nameOf f)] at this
    simp at this
  | some p =>
    obtain ⟨hp, _⟩ := findBack_some hb
    refine ⟨mask (0 - p - 1), ?_, ?_⟩
    · simp [find, findHere, hg, hb, ha]
    · unfold InRange mask
      omega

/-- An aggregate that groups by column `a` of a schema. -/
def sampleAggregate : RelData :=
  ⟨true, [col "read" 0 "a" "schema", col "read" 1 "b" "schema"],
    [col "read" 0 "a" "schema", ⟨.measure "aggregate".toList 0, "measurename".toList, [], none⟩],
    []⟩

example : (∀ g ∈ sampleAggregate.generated,
      refers (nameOf (col "read" 0 "a" "schema")) g = false) ∧
    ¬ Plain (col "read" 0 "a" "schema") ∧
    find true [sampleAggregate] "schema.a".toList = some (0, 2147483646) := by decide

/-- Grouping by the same column twice, written without its schema, reads past the end of the
input fields. -/
theorem group_twice_undefined (fs : List Field) (n : Str) (i : Nat) (f : Field)
    (hl : fs.length < 2 ^ 30) (hi : findHere false ⟨true, fs, [], []⟩ n = some i)
    (hf : fs[i]? = some f) (hn : f.name = n) (rest : List TItem) :
    groupText ⟨true, fs, [], []⟩ (.col n none :: .col n none :: rest) = .ub := by
  have h1 : readItem ⟨true, fs, [], []⟩ (.col n none) = some (.ref i) := by
    simp [readItem, readRef, find, hi]
  have hil : i < fs.length := (List.getElem?_eq_some_iff.mp hf).1
  have hv : vecAt fs (asSize i) = .ok f := by
    rw [asSize_nonneg (by omega) (by omega)]
    simp [vecAt, hf]
  have h2 : findHere false ⟨true, fs, [f], []⟩ n = some fs.length := by
    have : findBack (refers n) [f] = some 0 := by
      simp [findBack, refers, hn]
    simp only [findHere, this, Bool.and_false]
    simp
    rw [mask_small (by omega) (by omega)]
    omega
  have h3 : readItem ⟨true, fs, [f], []⟩ (.col n none) = some (.ref fs.length) := by
    simp [readItem, readRef, find, h2]
  rw [groupText, h1]
  simp only [hv, Outcome.bind_ok, List.nil_append]
  rw [groupText, h3]
  have hv2 : vecAt fs (asSize (fs.length : Int)) = .ub := by
    rw [asSize_nonneg (by omega) (by omega)]
    simp [vecAt]
  simp [hv2]

example : groupText ⟨true, [col "read" 0 "a" "schema"], [], []⟩
    [.col "a".toList none, .col "a".toList none] = .ub := by decide

/-- A measure over a grouped field that is printed without a schema gets a number past the
input fields, so the plan made from the text is another one. -/
theorem measure_of_grouped_field_moves (fs gs : List Field) (f : Field) (hf : f ∈ gs)
    (hp : Plain f) (hl : (fs ++ gs).length < 2 ^ 31) :
    ∃ j : Nat, readRef ⟨true, fs, gs, []⟩ (nameOf f) = some (j : Int) ∧ fs.length ≤ j := by
  cases hh : findHere false ⟨true, fs, gs, []⟩ (nameOf f) with
  | none =>
    have := (findHere_none.mp hh).1 f hf
    rw [refers_nameOf hp] at this
    simp at this
  | some x =>
    refine ⟨x, by simp [readRef, find, hh], ?_⟩
    rcases findHere_some hh hl with ⟨j, g, h1, h2, h3, _⟩ | ⟨h1, _⟩
    · simp at h3; omega
    · have := h1 f hf
      rw [refers_nameOf hp] at this
      simp at this

example : readRef ⟨true, [comp "project" 0 "intermediate"], [comp "project" 0 "intermediate"], []⟩
    "intermediate".toList = some 1 := by decide

/-- In a text plan, a `read` has no fields its own filter could refer to: no name is found. -/
theorem read_filter_refused (ν : Naming) (rel s : Str) (cols : List Str) (n : Str) :
    ∃ d o, localText ν rel (.read s cols) [] = .ok (some (d, o)) ∧ readRef d n = none := by
  refine ⟨_, _, rfl, ?_⟩
  simp [readRef, find, findHere, findBack]

end Verif.Schema
