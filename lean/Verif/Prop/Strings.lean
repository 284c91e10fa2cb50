import Verif.Model.StringManipulation
import Verif.Spec.Strings
import Verif.Lemmas.Strings
import Verif.Lemmas.Decimal

/-! # Properties of the string helpers (C19, C20) -/

namespace Verif.StringSpec

open Verif

theorem isSpace_iff (c : Char) : StringUtils.isSpace c = true ↔ c ∈ blanks := by
  simp [StringUtils.isSpace, blanks, or_assoc]

theorem isDigit_mem (c : Char) : isDigit c = true ↔ c ∈ "0123456789".toList := by
  constructor
  · intro h
    rw [isDigit_iff] at h
    have key : ∀ m : Fin 10, Char.ofNat (48 + m.val) ∈ "0123456789".toList := by decide
    have := key ⟨c.toNat - 48, by omega⟩
    rw [show 48 + (c.toNat - 48) = c.toNat by omega, Char.ofNat_toNat] at this
    exact this
  · intro h
    have key : ∀ d ∈ "0123456789".toList, isDigit d = true := by decide
    exact key c h

/-- **C19, trimming.**  `trim s` is the one text left when the blanks at both ends of `s`
are removed. -/
theorem trim_iff (s t : Str) : StringUtils.trim s = t ↔ IsTrim s t := by
  constructor
  · rintro rfl
    refine ⟨?_, ?_, ?_⟩
    · obtain ⟨pre, post, e, h1, h2⟩ := StringUtils.trim_decomp s
      exact ⟨pre, post, e, fun c hc => (isSpace_iff c).mp (h1 c hc),
        fun c hc => (isSpace_iff c).mp (h2 c hc)⟩
    · intro c hc hb
      rw [← isSpace_iff, StringUtils.trim_head hc] at hb
      exact absurd hb (by decide)
    · intro c hc hb
      rw [← isSpace_iff, StringUtils.trim_last hc] at hb
      exact absurd hb (by decide)
  · rintro ⟨⟨pre, post, rfl, h1, h2⟩, hh, hl⟩
    apply StringUtils.trim_append
    · intro c hc; exact (isSpace_iff c).mpr (h1 c hc)
    · intro c hc; exact (isSpace_iff c).mpr (h2 c hc)
    · intro c hc; rw [← Bool.not_eq_true, isSpace_iff]; exact hh c hc
    · intro c hc; rw [← Bool.not_eq_true, isSpace_iff]; exact hl c hc

/-- **C19, trimming twice.** -/
theorem trim_idempotent (s : Str) : StringUtils.trim (StringUtils.trim s) = StringUtils.trim s :=
  StringUtils.trim_idem s

/-- Non-vacuity: inner blanks stay. -/
example : StringUtils.trim " \t a b\n ".toList = "a b".toList := by decide

theorem isNonNegativeInteger_iff (s : Str) :
    NumberUtils.isNonNegativeInteger s = true ↔ IsDigits s := by
  unfold NumberUtils.isNonNegativeInteger IsDigits
  rw [Bool.and_eq_true, List.all_eq_true]
  refine and_congr ?_ ?_
  · cases s <;> simp
  · exact forall_congr' fun c => imp_congr_right fun _ => isDigit_mem c

/-- **C19, integers.**  Exactly the digit strings with an optional minus. -/
theorem isInteger_iff (s : Str) :
    NumberUtils.isInteger s = true ↔ IsDigits s ∨ ∃ ds, s = '-' :: ds ∧ IsDigits ds := by
  unfold NumberUtils.isInteger
  rw [Bool.or_eq_true, isNonNegativeInteger_iff]
  refine or_congr Iff.rfl ?_
  unfold NumberUtils.isNegativeInteger
  split
  · rename_i rest
    rw [isNonNegativeInteger_iff]
    constructor
    · intro h; exact ⟨rest, rfl, h⟩
    · rintro ⟨ds, e, h⟩; simp at e; rw [e]; exact h
  · rename_i hne
    constructor
    · intro h; exact absurd h (by decide)
    · rintro ⟨ds, e, h⟩; exact absurd e (hne ds)

/-- Non-vacuity. -/
example : NumberUtils.isInteger "-042".toList = true ∧ NumberUtils.isInteger "-".toList = false ∧
    NumberUtils.isInteger "+4".toList = false := by decide

/-! ## C20 -/

open StringManipulation in
/-- **C20, the part that holds** (`_partial`: equal strings are refused): `startsWith` is the
test for a proper prefix. -/
theorem startsWith_iff_partial (h n : Str) : startsWith h n = true ↔ n <+: h ∧ n ≠ h := by
  unfold startsWith
  rw [Bool.and_eq_true, decide_eq_true_iff, beq_iff_eq]
  constructor
  · rintro ⟨hl, e⟩
    refine ⟨⟨h.drop n.length, ?_⟩, ?_⟩
    · have := List.take_append_drop n.length h
      rw [e] at this; exact this
    · rintro rfl; omega
  · rintro ⟨⟨t, rfl⟩, hne⟩
    refine ⟨?_, by simp⟩
    cases t with
    | nil => simp at hne
    | cons c cs => simp

open StringManipulation in
/-- **C20, the part that holds** (`_partial`: equal strings are refused): `endsWith` is the
test for a proper suffix. -/
theorem endsWith_iff_partial (h n : Str) : endsWith h n = true ↔ n <:+ h ∧ n ≠ h := by
  unfold endsWith
  rw [Bool.and_eq_true, decide_eq_true_iff, beq_iff_eq]
  constructor
  · rintro ⟨hl, e⟩
    rw [List.take_of_length_le (by simp; omega)] at e
    refine ⟨⟨h.take (h.length - n.length), ?_⟩, ?_⟩
    · have := List.take_append_drop (h.length - n.length) h
      rw [e] at this; exact this
    · rintro rfl; omega
  · rintro ⟨⟨t, rfl⟩, hne⟩
    refine ⟨?_, by simp⟩
    cases t with
    | nil => simp at hne
    | cons c cs => simp; omega

/-- **C20 is false for equal strings**: no string starts or ends with itself. -/
theorem startsWith_self (s : Str) :
    StringManipulation.startsWith s s = false ∧ StringManipulation.endsWith s s = false := by
  constructor <;> simp [StringManipulation.startsWith, StringManipulation.endsWith]

/-- Non-vacuity of C20. -/
example : StringManipulation.startsWith "\\\"a".toList "\\".toList = true ∧
    StringManipulation.endsWith "x_enum".toList "_enum".toList = true ∧
    StringManipulation.endsWith "_enum".toList "_enum".toList = false := by decide

end Verif.StringSpec

namespace Verif.Decimal

open Verif StringSpec

/-- **C17, the accepted texts.**  `fromString` yields a value exactly for blanks, an optional
plus, digits below 2^128, blanks; everything else gives the invalid literal. -/
theorem fromString_accepts_iff (s : Str) (p sc : Int) (v : Nat) :
    (fromString s p sc = ⟨leBytes 16 v, p, sc⟩ ∧ v < 2 ^ 128 ∧ simpleAtoiU128 s = some v) ↔
      ∃ ds, (IsTrim s ds ∨ IsTrim s ('+' :: ds)) ∧ IsDigits ds ∧ digitsVal ds = v ∧ v < 2 ^ 128 := by
  have hplus : ∀ ds : Str, IsDigits ('+' :: ds) → False := by
    rintro ds ⟨_, h⟩; exact absurd (h '+' (by simp)) (by decide)
  have hminus : ∀ ds : Str, IsDigits ('-' :: ds) → False := by
    rintro ds ⟨_, h⟩; exact absurd (h '-' (by simp)) (by decide)
  have key : simpleAtoiU128 s = some v ↔ ∃ ds, (IsTrim s ds ∨ IsTrim s ('+' :: ds)) ∧ IsDigits ds ∧
      digitsVal ds = v ∧ v < 2 ^ 128 := by
    simp only [← trim_iff]
    unfold simpleAtoiU128
    dsimp only
    have num : ∀ ds : Str, (if (NumberUtils.isNonNegativeInteger ds &&
        decide (digitsVal ds < 2 ^ 128)) = true then some (digitsVal ds) else none) = some v ↔
        IsDigits ds ∧ digitsVal ds = v ∧ v < 2 ^ 128 := by
      intro ds
      rw [← isNonNegativeInteger_iff]
      split
      · rename_i h
        rw [Bool.and_eq_true, decide_eq_true_iff] at h
        constructor
        · intro e; injection e with e; exact ⟨h.1, e, e ▸ h.2⟩
        · rintro ⟨_, e, _⟩; rw [e]
      · rename_i h
        rw [Bool.and_eq_true, decide_eq_true_iff] at h
        constructor
        · intro e; exact absurd e (by simp)
        · rintro ⟨a, e, b⟩; exact absurd ⟨a, e ▸ b⟩ h
    split
    · rename_i t e
      constructor
      · intro h; exact absurd h (by simp)
      · rintro ⟨ds, h, hd, _⟩
        rcases h with h | h
        · rw [h] at e; rw [e] at hd; exact (hminus _ hd).elim
        · rw [h] at e; simp at e
    · rename_i ds e
      rw [num]
      constructor
      · intro h; exact ⟨ds, Or.inr e, h⟩
      · rintro ⟨es, h, hd⟩
        rcases h with h | h
        · rw [e] at h; rw [← h] at hd; exact (hplus _ hd.1).elim
        · rw [e] at h; injection h with _ h; rw [h]; exact hd
    · rename_i h1 h2
      rw [num]
      constructor
      · intro h; exact ⟨_, Or.inl rfl, h⟩
      · rintro ⟨es, h, hd⟩
        rcases h with h | h
        · rw [h]; exact hd
        · exact absurd h (h2 es)
  rw [← key]
  constructor
  · rintro ⟨_, _, h⟩; exact h
  · intro h
    refine ⟨by unfold fromString; rw [h]; rfl, ?_, h⟩
    obtain ⟨_, _, _, _, hv⟩ := key.mp h
    exact hv

/-- **C17, everything else is the invalid literal.** -/
theorem fromString_rejects (s : Str) (p sc : Int)
    (h : ¬ ∃ ds, (IsTrim s ds ∨ IsTrim s ('+' :: ds)) ∧ IsDigits ds ∧ digitsVal ds < 2 ^ 128) :
    fromString s p sc = ⟨[], 0, 0⟩ := by
  unfold fromString
  cases e : simpleAtoiU128 s with
  | none => rfl
  | some v =>
    exfalso
    apply h
    have hv : v < 2 ^ 128 := by
      unfold simpleAtoiU128 at e
      dsimp only at e
      have num : ∀ ds : Str, (if (NumberUtils.isNonNegativeInteger ds &&
          decide (digitsVal ds < 2 ^ 128)) = true then some (digitsVal ds) else none) = some v →
          v < 2 ^ 128 := by
        intro ds h
        split at h
        · rename_i h2
          rw [Bool.and_eq_true, decide_eq_true_iff] at h2
          injection h with h; exact h ▸ h2.2
        · exact absurd h (by simp)
      split at e
      · exact absurd e (by simp)
      · exact num _ e
      · exact num _ e
    obtain ⟨ds, h1, h2, h3, h4⟩ := (fromString_accepts_iff s p sc v).mp
      ⟨by unfold fromString; rw [e]; rfl, hv, e⟩
    exact ⟨ds, h1, h2, h3 ▸ h4⟩

/-- Non-vacuity: a text with a stray sign or letter is refused, blanks and plus are not. -/
example : fromString "1e3".toList 10 2 = ⟨[], 0, 0⟩ ∧ fromString "+-1".toList 10 2 = ⟨[], 0, 0⟩ ∧
    (fromString " +12".toList 10 2).isValid = true := by decide +kernel

end Verif.Decimal
