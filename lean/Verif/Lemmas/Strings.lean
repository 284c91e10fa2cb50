import Verif.Model.StringUtils

/-! Helper lemmas on strings, numerals and trimming. -/

namespace Verif

/-! ## Numerals -/

theorem natText_ne_nil (n : Nat) : natText n ≠ [] := Nat.toDigits_ne_nil

theorem isDigit_iff (c : Char) : isDigit c = true ↔ 48 ≤ c.toNat ∧ c.toNat ≤ 57 := by
  simp [isDigit]

theorem isDigit_eq_core (c : Char) : isDigit c = c.isDigit := by
  simp only [isDigit, Char.isDigit, Char.toNat, UInt32.le_iff_toNat_le, ge_iff_le]
  rfl

theorem natText_digits (n : Nat) : ∀ c ∈ natText n, isDigit c = true := by
  intro c hc
  rw [isDigit_eq_core]
  exact Nat.isDigit_of_mem_toDigits (by decide) (by decide) hc

theorem digitsVal_natText (n : Nat) : digitsVal (natText n) = n := by
  have := Nat.ofDigitChars_toDigits (b := 10) (n := n) (by decide) (by decide)
  rw [Nat.ofDigitChars_eq_foldl] at this
  exact this

theorem natText_inj {m n : Nat} (h : natText m = natText n) : m = n := by
  rw [← digitsVal_natText m, h, digitsVal_natText]

theorem isNonNegativeInteger_natText (n : Nat) :
    NumberUtils.isNonNegativeInteger (natText n) = true := by
  simp only [NumberUtils.isNonNegativeInteger, Bool.and_eq_true, List.all_eq_true,
    Bool.not_eq_true', List.isEmpty_eq_false_iff]
  exact ⟨natText_ne_nil n, natText_digits n⟩

/-! ## Case folding -/

theorem toLower_eq_self {c : Char} (h : ¬ (65 ≤ c.toNat ∧ c.toNat ≤ 90)) : toLower c = c := by
  simp [toLower]; intro h1 h2; exact absurd ⟨h1, h2⟩ h

theorem toLower_toNat (c : Char) :
    (toLower c).toNat = if 65 ≤ c.toNat ∧ c.toNat ≤ 90 then c.toNat + 32 else c.toNat := by
  by_cases h : 65 ≤ c.toNat ∧ c.toNat ≤ 90
  · rw [if_pos h]
    simp only [toLower, Bool.and_eq_true, decide_eq_true_eq, h, and_self, if_true]
    have hv : (c.toNat + 32).isValidChar := by
      left; omega
    rw [Char.ofNat, dif_pos hv]; rfl
  · rw [if_neg h, toLower_eq_self h]

theorem char_ext_nat {c d : Char} (h : c.toNat = d.toNat) : c = d := Char.toNat_inj.mp h

/-- A character that is not a lower-case letter is only the lower case of itself (or of
nothing else). -/
theorem toLower_eq_iff {c d : Char} (hd : ¬ (65 ≤ d.toNat ∧ d.toNat ≤ 90))
    (hl : ¬ (97 ≤ d.toNat ∧ d.toNat ≤ 122)) : toLower c = d ↔ c = d := by
  constructor
  · intro h
    have := congrArg Char.toNat h
    rw [toLower_toNat] at this
    split at this
    · omega
    · exact char_ext_nat this
  · rintro rfl; exact toLower_eq_self hd

theorem toLower_idem (c : Char) : toLower (toLower c) = toLower c := by
  apply toLower_eq_self
  rw [toLower_toNat]; split <;> omega

/-! ## Searching -/

theorem findFirst_eq_none {c : Char} {s : Str} : findFirst c s = none ↔ c ∉ s := by
  induction s with
  | nil => simp [findFirst]
  | cons d ds ih =>
    simp only [findFirst]
    split
    · rename_i h; subst h; simp
    · rename_i h
      simp [ih, Ne.symm h]

theorem findFirst_append {c : Char} {a b : Str} (h : c ∉ a) :
    findFirst c (a ++ c :: b) = some a.length := by
  induction a with
  | nil => simp [findFirst]
  | cons d ds ih =>
    simp only [List.mem_cons, not_or] at h
    simp [findFirst, Ne.symm h.1, ih h.2]

theorem findFirst_some {c : Char} {s : Str} {i : Nat} (h : findFirst c s = some i) :
    ∃ a b, s = a ++ c :: b ∧ c ∉ a ∧ a.length = i := by
  induction s generalizing i with
  | nil => simp [findFirst] at h
  | cons d ds ih =>
    simp only [findFirst] at h
    split at h
    · rename_i hd; subst hd
      exact ⟨[], ds, rfl, by simp, by simpa using h⟩
    · rename_i hd
      cases hf : findFirst c ds with
      | none => simp [hf] at h
      | some j =>
        obtain ⟨a, b, rfl, hna, hl⟩ := ih hf
        simp [hf] at h
        exact ⟨d :: a, b, rfl, by simp [Ne.symm hd, hna], by simp [hl, h]⟩

theorem findLast_eq_none {c : Char} {s : Str} : findLast c s = none ↔ c ∉ s := by
  induction s with
  | nil => simp [findLast]
  | cons d ds ih =>
    simp only [findLast]
    cases h : findLast c ds with
    | none =>
      have := ih.mp h
      by_cases hd : d = c
      · subst hd; simp
      · simp [hd, this, Ne.symm hd]
    | some j =>
      have : c ∈ ds := by
        apply Classical.byContradiction; intro hn; rw [ih.mpr hn] at h; cases h
      simp [this]

theorem findLast_append {c : Char} {a b : Str} (h : c ∉ b) :
    findLast c (a ++ c :: b) = some a.length := by
  induction a with
  | nil => simp [findLast, findLast_eq_none.mpr h]
  | cons d ds ih => simp [findLast, ih]

theorem findLast_some {c : Char} {s : Str} {i : Nat} (h : findLast c s = some i) :
    ∃ a b, s = a ++ c :: b ∧ c ∉ b ∧ a.length = i := by
  induction s generalizing i with
  | nil => simp [findLast] at h
  | cons d ds ih =>
    simp only [findLast] at h
    cases hf : findLast c ds with
    | none =>
      rw [hf] at h
      simp only at h
      split at h
      · rename_i hd; subst hd
        exact ⟨[], ds, rfl, findLast_eq_none.mp hf, by simpa using h⟩
      · cases h
    | some j =>
      obtain ⟨a, b, rfl, hna, hl⟩ := ih hf
      rw [hf] at h
      simp at h
      exact ⟨d :: a, b, rfl, hna, by simp [hl, h]⟩

/-- Case folding does not move a character that is not a letter. -/
theorem findFirst_map_toLower {c : Char} (hd : ¬ (65 ≤ c.toNat ∧ c.toNat ≤ 90))
    (hl : ¬ (97 ≤ c.toNat ∧ c.toNat ≤ 122)) (s : Str) :
    findFirst c (s.map toLower) = findFirst c s := by
  induction s with
  | nil => rfl
  | cons d ds ih => simp only [List.map_cons, findFirst, toLower_eq_iff hd hl, ih]

theorem findLast_map_toLower {c : Char} (hd : ¬ (65 ≤ c.toNat ∧ c.toNat ≤ 90))
    (hl : ¬ (97 ≤ c.toNat ∧ c.toNat ≤ 122)) (s : Str) :
    findLast c (s.map toLower) = findLast c s := by
  induction s with
  | nil => rfl
  | cons d ds ih => simp only [List.map_cons, findLast, toLower_eq_iff hd hl, ih]

/-! ## Trimming -/

namespace StringUtils

theorem ltrim_eq_dropWhile (s : Str) : ltrim s = s.dropWhile isSpace := by
  induction s with
  | nil => rfl
  | cons c cs ih => simp only [ltrim, List.dropWhile_cons]; split <;> simp_all

theorem rtrim_eq (s : Str) : rtrim s = (s.reverse.dropWhile isSpace).reverse := by
  induction s with
  | nil => rfl
  | cons c cs ih =>
    simp only [rtrim, List.reverse_cons, ih]
    rw [List.dropWhile_append]
    split
    · rename_i h
      have h' : List.dropWhile isSpace cs.reverse = [] := by simpa using h
      simp only [h', List.isEmpty_nil, if_true, List.dropWhile_cons, List.dropWhile_nil]
      split <;> simp
    · rename_i d ds h
      have h' : List.dropWhile isSpace cs.reverse = (d :: ds).reverse := by
        rw [← h]; simp
      rw [h']; simp

theorem trim_eq (s : Str) :
    trim s = ((s.dropWhile isSpace).reverse.dropWhile isSpace).reverse := by
  rw [trim, rtrim_eq, ltrim_eq_dropWhile]

theorem ltrim_length_le (s : Str) : (ltrim s).length ≤ s.length := by
  rw [ltrim_eq_dropWhile]; exact (List.dropWhile_sublist _).length_le

theorem rtrim_length_le (s : Str) : (rtrim s).length ≤ s.length := by
  rw [rtrim_eq]; simpa using (List.dropWhile_sublist (p := isSpace) (l := s.reverse)).length_le

theorem trim_length_le (s : Str) : (trim s).length ≤ s.length :=
  Nat.le_trans (rtrim_length_le _) (ltrim_length_le _)

/-- A string whose first and last characters are not blank is not changed. -/
theorem trim_eq_self {s : Str} (h1 : ∀ c, s.head? = some c → isSpace c = false)
    (h2 : ∀ c, s.getLast? = some c → isSpace c = false) : trim s = s := by
  rw [trim_eq]
  have e1 : s.dropWhile isSpace = s := by
    cases s with
    | nil => rfl
    | cons c cs => simp [h1 c rfl]
  rw [e1]
  have e2 : s.reverse.dropWhile isSpace = s.reverse := by
    cases hs : s.reverse with
    | nil => rfl
    | cons c cs =>
      have : s.getLast? = some c := by
        rw [List.getLast?_eq_head?_reverse, hs]; rfl
      simp [h2 c this]
  rw [e2]; simp

theorem trim_head {s : Str} {c : Char} (h : (trim s).head? = some c) : isSpace c = false := by
  have key : ∀ t : Str, (∀ c, t.head? = some c → isSpace c = false) →
      ∀ c, (rtrim t).head? = some c → isSpace c = false := by
    intro t ht c hc
    cases t with
    | nil => simp [rtrim] at hc
    | cons d ds =>
      have hd := ht d rfl
      simp only [rtrim] at hc
      split at hc
      · simp [hd] at hc; subst hc; exact hd
      · simp at hc; subst hc; exact hd
  refine key (ltrim s) ?_ c h
  intro c hc
  rw [ltrim_eq_dropWhile] at hc
  have := List.head?_dropWhile_not isSpace s
  rw [hc] at this
  simpa using this

theorem trim_last {s : Str} {c : Char} (h : (trim s).getLast? = some c) : isSpace c = false := by
  rw [trim_eq, List.getLast?_reverse] at h
  have := List.head?_dropWhile_not isSpace (s.dropWhile isSpace).reverse
  rw [h] at this
  simpa using this

theorem trim_idem (s : Str) : trim (trim s) = trim s :=
  trim_eq_self (fun _ h => trim_head h) (fun _ h => trim_last h)

theorem isSpace_toLower (c : Char) : isSpace (toLower c) = isSpace c := by
  have h : ∀ d : Char, ¬ (65 ≤ d.toNat ∧ d.toNat ≤ 90) → ¬ (97 ≤ d.toNat ∧ d.toNat ≤ 122) →
      decide (toLower c = d) = decide (c = d) := by
    intro d h1 h2; simp [toLower_eq_iff h1 h2]
  simp only [isSpace]
  rw [h ' ' (by decide) (by decide), h '\n' (by decide) (by decide), h '\r' (by decide) (by decide),
    h '\t' (by decide) (by decide), h '\x0c' (by decide) (by decide), h '\x0b' (by decide) (by decide)]

theorem dropWhile_map_toLower (s : Str) :
    (s.map toLower).dropWhile isSpace = (s.dropWhile isSpace).map toLower := by
  induction s with
  | nil => rfl
  | cons c cs ih =>
    simp only [List.map_cons, List.dropWhile_cons, isSpace_toLower]
    split <;> simp [ih]

theorem trim_map_toLower (s : Str) : trim (s.map toLower) = (trim s).map toLower := by
  simp only [trim_eq, dropWhile_map_toLower, ← List.map_reverse]

theorem isSpace_digit {c : Char} (hc : isDigit c = true) : isSpace c = false := by
  rw [isDigit_iff] at hc
  unfold isSpace
  simp only [Bool.or_eq_false_iff, decide_eq_false_iff_not]
  refine ⟨⟨⟨⟨⟨?_, ?_⟩, ?_⟩, ?_⟩, ?_⟩, ?_⟩ <;> (rintro rfl; revert hc; decide)

/-- The text is the trimmed text between two runs of blanks. -/
theorem trim_decomp (s : Str) :
    ∃ pre post, s = pre ++ trim s ++ post ∧ (∀ c ∈ pre, isSpace c = true) ∧
      (∀ c ∈ post, isSpace c = true) := by
  refine ⟨s.takeWhile isSpace, ((s.dropWhile isSpace).reverse.takeWhile isSpace).reverse, ?_, ?_, ?_⟩
  · rw [trim_eq, List.append_assoc, ← List.reverse_append, List.takeWhile_append_dropWhile,
      List.reverse_reverse, List.takeWhile_append_dropWhile]
  · intro c hc; exact List.all_takeWhile (p := isSpace) (l := s) |> List.all_eq_true.mp |> (· c hc)
  · intro c hc
    rw [List.mem_reverse] at hc
    exact List.all_takeWhile (p := isSpace) |> List.all_eq_true.mp |> (· c hc)

theorem dropWhile_append_blank {pre t : Str} (h : ∀ c ∈ pre, isSpace c = true) :
    (pre ++ t).dropWhile isSpace = t.dropWhile isSpace := by
  induction pre with
  | nil => rfl
  | cons c cs ih =>
    simp only [List.cons_append, List.dropWhile_cons, h c (by simp), if_true]
    exact ih (fun d hd => h d (by simp [hd]))

theorem dropWhile_head {t : Str} (h : ∀ c, t.head? = some c → isSpace c = false) :
    t.dropWhile isSpace = t := by
  cases t with
  | nil => rfl
  | cons c cs => simp [List.dropWhile_cons, h c rfl]

/-- Blanks around a text that has none at its ends are what `trim` removes. -/
theorem trim_append {pre t post : Str} (h1 : ∀ c ∈ pre, isSpace c = true)
    (h2 : ∀ c ∈ post, isSpace c = true) (hh : ∀ c, t.head? = some c → isSpace c = false)
    (hl : ∀ c, t.getLast? = some c → isSpace c = false) : trim (pre ++ t ++ post) = t := by
  rw [trim_eq, List.append_assoc, dropWhile_append_blank h1]
  cases t with
  | nil =>
    have : ([] ++ post : Str).dropWhile isSpace = [] := by
      rw [List.nil_append, ← List.append_nil post, dropWhile_append_blank h2]; rfl
    rw [this]; rfl
  | cons c cs =>
    rw [dropWhile_head (t := c :: cs ++ post) (by simpa using hh c rfl), List.reverse_append,
      dropWhile_append_blank (by simpa using h2), dropWhile_head, List.reverse_reverse]
    intro d hd
    rw [List.head?_reverse] at hd
    exact hl d hd

end StringUtils

end Verif
