import Verif.Spec.Schema

/-!
# Lemmas about output mappings and names of fields
-/

namespace Verif.Schema

open Verif

/-! ## Numbers -/

theorem asSize_nonneg {i : Int} (h0 : 0 ≤ i) (h1 : i < 2 ^ 63) : asSize i = i.toNat := by
  unfold asSize; omega

theorem asSize_neg {i : Int} (h0 : i < 0) (h1 : -2 ^ 31 ≤ i) : 2 ^ 63 ≤ asSize i := by
  unfold asSize; omega

theorem mask_small {n : Int} (h0 : 0 ≤ n) (h1 : n < 2 ^ 31) : mask n = n.toNat := by
  unfold mask; omega

theorem at?_eq_none {α} {l : List α} {i : Int} : at? l i = none ↔ ¬ InRange l i := by
  unfold at? InRange
  split
  · simp; omega
  · simp; omega

theorem at?_some_inRange {α} {l : List α} {i : Int} {f : α} (h : at? l i = some f) :
    InRange l i := by
  by_cases hr : InRange l i
  · exact hr
  · rw [at?_eq_none.mpr hr] at h; simp at h

theorem at?_mem {α} {l : List α} {i : Int} {f : α} (h : at? l i = some f) : f ∈ l := by
  unfold at? at h
  split at h
  · simp at h
  · exact List.mem_of_getElem? h

theorem at?_nat {α} (l : List α) (n : Nat) : at? l (n : Int) = l[n]? := by
  unfold at?; simp; omega

theorem at?_append_left {α} {l m : List α} {i : Int} {f : α} (h : at? l i = some f) :
    at? (l ++ m) i = some f := by
  obtain ⟨h0, h1⟩ := at?_some_inRange h
  unfold at? at *
  split at h
  · simp at h
  · rename_i hn
    simp only [hn, if_false]
    rw [List.getElem?_append_left (by omega)]; exact h

/-- `operator[]` behind its test. -/
theorem vecAt_asSize {l : List Field} {i : Int} {f : Field} (h : at? l i = some f)
    (hl : l.length < 2 ^ 31) : asSize i < l.length ∧ vecAt l (asSize i) = .ok f := by
  obtain ⟨h0, h1⟩ := at?_some_inRange h
  have : asSize i = i.toNat := asSize_nonneg h0 (by omega)
  rw [this]
  refine ⟨by omega, ?_⟩
  unfold at? at h
  split at h
  · simp at h
  · unfold vecAt; rw [h]

theorem asSize_big {l : List Field} {i : Int} (h : at? l i = none) (hi : IsInt32 i)
    (hl : l.length < 2 ^ 31) : l.length ≤ asSize i := by
  have hr := at?_eq_none.mp h
  unfold IsInt32 at hi
  unfold InRange at hr
  rcases Int.lt_or_le i 0 with hn | hn
  · have := asSize_neg hn hi.1; omega
  · rw [asSize_nonneg hn (by omega)]; omega

/-! ## Output mappings -/

/-- What one step of the loop over a mapping should do. -/
def pickSpec (l : List Field) (i : Int) (r : Picked) : Outcome Picked :=
  match at? l i with
  | some f => .ok (r.1 ++ [f], r.2)
  | none => .ok (r.1, r.2 ++ [i])

theorem pickGenerated_eq {old : List Field} {i : Int} (r : Picked) (hi : IsInt32 i)
    (hl : old.length < 2 ^ 31) : pickGenerated old i r = pickSpec old i r := by
  unfold pickGenerated pickSpec
  cases h : at? old i with
  | some f =>
    obtain ⟨h1, h2⟩ := vecAt_asSize h hl
    simp [h1, h2]
  | none =>
    have := asSize_big h hi hl
    rw [if_neg (by omega)]

theorem pickAny_eq {fs gs : List Field} {i : Int} (r : Picked) (hi : IsInt32 i)
    (hl : (fs ++ gs).length < 2 ^ 31) : pickAny fs gs i r = pickSpec (fs ++ gs) i r := by
  have hl' := hl
  rw [List.length_append] at hl'
  unfold pickAny pickSpec
  cases h : at? (fs ++ gs) i with
  | some f =>
    obtain ⟨h1, h2⟩ := vecAt_asSize h hl
    rw [List.length_append] at h1
    unfold vecAt at h2
    split at h2
    · rename_i g hg
      simp only [Outcome.ok.injEq] at h2
      subst h2
      by_cases hlt : asSize i < fs.length
      · rw [if_pos hlt]
        rw [List.getElem?_append_left hlt] at hg
        simp [vecAt, hg]
      · rw [if_neg hlt, if_pos h1]
        rw [List.getElem?_append_right (by omega)] at hg
        simp [vecAt, hg]
    · simp at h2
  | none =>
    have := asSize_big h hi hl
    rw [List.length_append] at this
    rw [if_neg (by omega), if_neg (by omega)]

theorem pickAll_eq {l : List Field} {step : Int → Picked → Outcome Picked}
    (is : List Int) (r : Picked)
    (hs : ∀ i ∈ is, ∀ r, step i r = pickSpec l i r) :
    pickAll step is r =
      .ok (r.1 ++ is.filterMap (at? l), r.2 ++ is.filter fun i => !decide (InRange l i)) := by
  induction is generalizing r with
  | nil => simp [pickAll]
  | cons i is ih =>
    rw [pickAll, hs i (by simp)]
    unfold pickSpec
    cases h : at? l i with
    | some f =>
      have hr := at?_some_inRange h
      simp only [Outcome.bind_ok]
      rw [ih _ (fun j hj => hs j (by simp [hj]))]
      simp [h, hr]
    | none =>
      have hr := at?_eq_none.mp h
      simp only [Outcome.bind_ok]
      rw [ih _ (fun j hj => hs j (by simp [hj]))]
      simp [h, hr]

theorem applyText_eq {d : RelData} {is : List Int} (hd : Unmapped d) (hne : is ≠ [])
    (hi : ∀ i ∈ is, IsInt32 i) (hl : (unmapped d).length < 2 ^ 31) :
    applyText d is = .ok ({ d with output := is.filterMap (at? (unmapped d)) },
      is.filter fun i => !decide (InRange (unmapped d) i)) := by
  unfold applyText
  rw [if_neg (by simpa using hne)]
  unfold Unmapped at hd
  by_cases ha : d.aggregate
  · simp only [ha, if_true] at hd
    simp only [ha, if_true]
    have hu : unmapped d = d.generated := by simp [unmapped, ha]
    rw [hu] at hl ⊢
    rw [hd, pickAll_eq _ _ (fun i h r => pickGenerated_eq r (hi i h) hl)]
    simp
  · simp only [ha, if_false] at hd
    simp only [ha, if_false]
    have hu : unmapped d = d.fields ++ d.generated := by simp [unmapped, ha]
    rw [hu] at hl ⊢
    rw [pickAll_eq _ _ (fun i h r => pickAny_eq r (hi i h) hl)]
    have : d.output = [] := by simpa using hd
    simp [this]

theorem applyBinary_eq_text {d : RelData} {is : List Int} (hd : Unmapped d) :
    applyBinary d is = applyText d is := by
  unfold applyBinary applyText
  split
  · rfl
  · split
    · rename_i ha
      unfold Unmapped at hd
      rw [if_pos ha] at hd
      rw [hd]
    · rfl

/-- The fields selected by numbers that are all in range. -/
theorem filterMap_of_mapM {α β} {f : α → Option β} {l : List α} {r : List β}
    (h : l.mapM f = some r) : l.filterMap f = r := by
  induction l generalizing r with
  | nil => simp at h; simp [← h]
  | cons a l ih =>
    rw [List.mapM_cons] at h
    cases ha : f a with
    | none => rw [ha] at h; simp at h
    | some b =>
      rw [ha] at h
      cases hm : l.mapM f with
      | none => rw [hm] at h; simp at h
      | some bs =>
        rw [hm] at h
        simp at h
        simp [ha, ih hm, h]

theorem mapM_some_of {α β} {f : α → Option β} {l : List α} (h : ∀ a ∈ l, (f a).isSome) :
    ∃ r, l.mapM f = some r := by
  induction l with
  | nil => exact ⟨[], by simp⟩
  | cons a l ih =>
    obtain ⟨r, hr⟩ := ih (fun b hb => h b (by simp [hb]))
    have ha := h a (by simp)
    obtain ⟨b, hb⟩ := Option.isSome_iff_exists.mp ha
    exact ⟨b :: r, by rw [List.mapM_cons, hb, hr]; rfl⟩

theorem mapM_mem {α β} {f : α → Option β} {l : List α} {r : List β} (h : l.mapM f = some r) :
    ∀ a ∈ l, ∃ b ∈ r, f a = some b := by
  induction l generalizing r with
  | nil => simp
  | cons a l ih =>
    rw [List.mapM_cons] at h
    cases ha : f a with
    | none => rw [ha] at h; simp at h
    | some b =>
      rw [ha] at h
      cases hm : l.mapM f with
      | none => rw [hm] at h; simp at h
      | some bs =>
        rw [hm] at h
        simp at h
        subst h
        intro x hx
        rcases List.mem_cons.mp hx with rfl | hx
        · exact ⟨b, by simp, ha⟩
        · obtain ⟨c, hc, he⟩ := ih hm x hx
          exact ⟨c, by simp [hc], he⟩

theorem mapM_cons_some {α β} {f : α → Option β} {a : α} {l : List α} {r : List β} :
    (a :: l).mapM f = some r ↔ ∃ b bs, f a = some b ∧ l.mapM f = some bs ∧ r = b :: bs := by
  rw [List.mapM_cons]
  cases ha : f a with
  | none => simp
  | some b =>
    cases hm : l.mapM f with
    | none => simp
    | some bs => simp [eq_comm]

/-! ## Searching from the back -/

theorem findBack_none {p : Field → Bool} {l : List Field} :
    findBack p l = none ↔ ∀ f ∈ l, p f = false := by
  unfold findBack
  rw [List.findIdx?_eq_none_iff]
  simp

theorem findBack_some {p : Field → Bool} {l : List Field} {k : Nat}
    (h : findBack p l = some k) :
    k < l.length ∧ ∃ f, l[l.length - 1 - k]? = some f ∧ p f = true ∧
      ∀ j, l.length - 1 - k < j → ∀ g, l[j]? = some g → p g = false := by
  unfold findBack at h
  rw [List.findIdx?_eq_some_iff_getElem] at h
  obtain ⟨hk, hp, hlt⟩ := h
  rw [List.length_reverse] at hk
  refine ⟨hk, l.reverse[k]'(by simpa using hk), ?_, hp, ?_⟩
  · rw [List.getElem_reverse, List.getElem?_eq_getElem]
  · intro j hj g hg
    obtain ⟨hjl, rfl⟩ := List.getElem?_eq_some_iff.mp hg
    have := hlt (l.length - 1 - j) (by omega)
    rw [List.getElem_reverse] at this
    have he : l.length - 1 - (l.length - 1 - j) = j := by omega
    simp only [he] at this
    simpa using this

/-- The last match among the generated fields wins, then the last one among the input
fields. -/
theorem findHere_some {d : RelData} {emit : Bool} {n : Str} {i : Nat}
    (h : findHere emit d n = some i) (hl : (d.fields ++ d.generated).length < 2 ^ 31) :
    (∃ j f, d.generated[j]? = some f ∧ refers n f = true ∧
      i = (if d.aggregate && emit then 0 else d.fields.length) + j ∧
      ∀ k g, j < k → d.generated[k]? = some g → refers n g = false) ∨
    ((∀ g ∈ d.generated, refers n g = false) ∧
      ∃ j f, d.fields[j]? = some f ∧ refersFull n f = true ∧
        (∀ k g, j < k → d.fields[k]? = some g → refersFull n g = false) ∧
        ((d.aggregate && emit) = false → i = j)) := by
  rw [List.length_append] at hl
  unfold findHere at h
  simp only at h
  cases hg : findBack (refers n) d.generated with
  | some p =>
    left
    rw [hg] at h
    simp only [Option.some.injEq] at h
    obtain ⟨hp, f, hf, hr, hlast⟩ := findBack_some hg
    refine ⟨d.generated.length - 1 - p, f, hf, hr, ?_, fun k g hk hg => hlast k hk g hg⟩
    rw [← h]
    split
    · rw [mask_small] <;> omega
    · rw [mask_small] <;> omega
  | none =>
    right
    rw [hg] at h
    simp only at h
    refine ⟨findBack_none.mp hg, ?_⟩
    cases hf : findBack (refersFull n) d.fields with
    | none => rw [hf] at h; simp at h
    | some p =>
      rw [hf] at h
      simp only [Option.some.injEq] at h
      obtain ⟨hp, f, hfe, hr, hlast⟩ := findBack_some hf
      refine ⟨d.fields.length - 1 - p, f, hfe, hr, fun k g hk hg => hlast k hk g hg, ?_⟩
      intro hae
      rw [← h, hae]
      simp only [Bool.false_eq_true, if_false]
      rw [mask_small] <;> omega

theorem findHere_none {d : RelData} {emit : Bool} {n : Str} :
    findHere emit d n = none ↔
      (∀ g ∈ d.generated, refers n g = false) ∧ (∀ f ∈ d.fields, refersFull n f = false) := by
  unfold findHere
  simp only
  cases hg : findBack (refers n) d.generated with
  | some p =>
    simp only [reduceCtorEq, false_iff]
    intro h
    rw [findBack_none.mpr h.1] at hg
    simp at hg
  | none =>
    simp only
    have h1 := findBack_none.mp hg
    cases hf : findBack (refersFull n) d.fields with
    | some p =>
      simp only [reduceCtorEq, false_iff]
      intro h
      rw [findBack_none.mpr h.2] at hf
      simp at hf
    | none => simp only [true_iff]; exact ⟨h1, findBack_none.mp hf⟩

theorem refersFull_iff {n : Str} {f : Field} : refersFull n f = true ↔ Called f n := by
  unfold refersFull refers Called
  simp only [Bool.or_eq_true, Bool.and_eq_true, Bool.not_eq_true', beq_iff_eq,
    List.isEmpty_eq_false_iff, or_assoc]

theorem refers_called {n : Str} {f : Field} (h : refers n f = true) : Called f n :=
  refersFull_iff.mp (by unfold refersFull; rw [h]; rfl)

theorem called_nameOf (f : Field) : Called f (nameOf f) := by
  unfold Called nameOf
  by_cases h : f.alias = []
  · simp only [h, List.isEmpty_nil, if_true]
    right; right
    rfl
  · left
    exact ⟨h, by simp [h]⟩

/-- A field printed as a single identifier is found under that name in both searches. -/
theorem refers_nameOf {f : Field} (h : Plain f) : refers (nameOf f) f = true := by
  unfold refers nameOf
  rcases h with h | h
  · simp [h]
  · by_cases ha : f.alias = []
    · simp [ha, h]
    · simp [ha]

end Verif.Schema
