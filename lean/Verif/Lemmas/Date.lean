import Verif.Model.Date
import Verif.Lemmas.Strings

/-! # Lemmas on dates -/

namespace Verif.Date

open Verif

/-- The year and the day in the year (from March 1st) of a day in an era. -/
theorem yoe_bounds (doe : Int) (h0 : 0 ≤ doe) (h1 : doe < 146097) :
    ∃ yoe, (doe - doe / 1460 + doe / 36524 - doe / 146096) / 365 = yoe ∧ 0 ≤ yoe ∧ yoe < 400 ∧
      0 ≤ doe - (365 * yoe + yoe / 4 - yoe / 100) ∧
      doe - (365 * yoe + yoe / 4 - yoe / 100) ≤ 365 ∧
      (doe - (365 * yoe + yoe / 4 - yoe / 100) = 365 →
        (yoe + 1) % 4 = 0 ∧ ((yoe + 1) % 100 ≠ 0 ∨ (yoe + 1) % 400 = 0)) := by
  refine ⟨_, rfl, ?_⟩
  obtain ⟨q, hq⟩ : ∃ q, q = doe / 1460 := ⟨_, rfl⟩
  obtain ⟨r, hr⟩ : ∃ r, r = doe - 1460 * q := ⟨_, rfl⟩
  obtain ⟨c, hc⟩ : ∃ c, c = doe / 36524 := ⟨_, rfl⟩
  obtain ⟨e, he⟩ : ∃ e, e = doe / 146096 := ⟨_, rfl⟩
  have hd : doe = 1460 * q + r := by omega
  have hr1 : 0 ≤ r ∧ r < 1460 := by omega
  have hq1 : 0 ≤ q ∧ q ≤ 100 := by omega
  have hy : (doe - doe / 1460 + doe / 36524 - doe / 146096) / 365 =
      4 * q + (r - q + c - e) / 365 := by
    rw [← hq, ← hc, ← he]; omega
  obtain ⟨t, ht⟩ : ∃ t, t = (r - q + c - e) / 365 := ⟨_, rfl⟩
  rw [hy, ← ht]
  have hc1 : c = 0 ∨ c = 1 ∨ c = 2 ∨ c = 3 ∨ c = 4 := by omega
  have he1 : e = 0 ∨ e = 1 := by omega
  have ht1 : t = -1 ∨ t = 0 ∨ t = 1 ∨ t = 2 ∨ t = 3 := by omega
  have hcq : 36524 * c ≤ 1460 * q + r ∧ 1460 * q + r < 36524 * c + 36524 := by omega
  have heq : 146096 * e ≤ 1460 * q + r ∧ 1460 * q + r < 146096 * e + 146096 := by omega
  have htr : 365 * t ≤ r - q + c - e ∧ r - q + c - e < 365 * t + 365 := by omega
  clear hq hr hc he hy ht h0
  subst hd
  rcases hc1 with rfl | rfl | rfl | rfl | rfl <;> rcases he1 with rfl | rfl <;>
    rcases ht1 with rfl | rfl | rfl | rfl | rfl <;> omega

/-- The month and the day of a day in the year (from March 1st). -/
theorem month_bounds (doy : Int) (h0 : 0 ≤ doy) (h1 : doy ≤ 365) :
    ∃ mp, (5 * doy + 2) / 153 = mp ∧ 0 ≤ mp ∧ mp ≤ 11 ∧ 0 ≤ doy - (153 * mp + 2) / 5 ∧
      (doy - (153 * mp + 2) / 5 + 1 ≤
        (if mp = 11 then if doy = 365 then 29 else 28
         else if mp = 1 ∨ mp = 3 ∨ mp = 6 ∨ mp = 8 then 30 else 31)) := by
  refine ⟨_, rfl, by omega, by omega, by omega, ?_⟩
  obtain ⟨mp, hmp⟩ : ∃ mp, mp = (5 * doy + 2) / 153 := ⟨_, rfl⟩
  rw [← hmp]
  have h : mp = 0 ∨ mp = 1 ∨ mp = 2 ∨ mp = 3 ∨ mp = 4 ∨ mp = 5 ∨ mp = 6 ∨ mp = 7 ∨ mp = 8 ∨
      mp = 9 ∨ mp = 10 ∨ mp = 11 := by omega
  rcases h with rfl | rfl | rfl | rfl | rfl | rfl | rfl | rfl | rfl | rfl | rfl | rfl
  · simp; omega
  · simp; omega
  · simp; omega
  · simp; omega
  · simp; omega
  · simp; omega
  · simp; omega
  · simp; omega
  · simp; omega
  · simp; omega
  · simp; omega
  · by_cases hd : doy = 365
    · simp [hd]
    · simp [hd]; omega

/-- The parts of `civil`. -/
theorem civil_parts (z : Int) : ∃ era yoe doy mp : Int,
    z + 719468 = era * 146097 + (365 * yoe + yoe / 4 - yoe / 100 + doy) ∧ 0 ≤ yoe ∧ yoe < 400 ∧
    0 ≤ doy ∧ doy ≤ 365 ∧ 0 ≤ mp ∧ mp ≤ 11 ∧ 0 ≤ doy - (153 * mp + 2) / 5 ∧
    (doy = 365 → (yoe + 1) % 4 = 0 ∧ ((yoe + 1) % 100 ≠ 0 ∨ (yoe + 1) % 400 = 0)) ∧
    (doy - (153 * mp + 2) / 5 + 1 ≤
        (if mp = 11 then if doy = 365 then 29 else 28
         else if mp = 1 ∨ mp = 3 ∨ mp = 6 ∨ mp = 8 then 30 else 31)) ∧
    civil z = ⟨if mp < 10 then yoe + era * 400 else yoe + era * 400 + 1,
      if mp < 10 then mp + 3 else mp - 9, doy - (153 * mp + 2) / 5 + 1⟩ := by
  obtain ⟨era, he⟩ : ∃ era, era = (z + 719468) / 146097 := ⟨_, rfl⟩
  obtain ⟨doe, hd⟩ : ∃ doe, doe = z + 719468 - era * 146097 := ⟨_, rfl⟩
  obtain ⟨yoe, hy, h1, h2, h3, h4, h5⟩ := yoe_bounds doe (by omega) (by omega)
  obtain ⟨doy, hdoy⟩ : ∃ doy, doy = doe - (365 * yoe + yoe / 4 - yoe / 100) := ⟨_, rfl⟩
  rw [← hdoy] at h3 h4 h5
  obtain ⟨mp, hmp, m1, m2, m3, m4⟩ := month_bounds doy h3 h4
  refine ⟨era, yoe, doy, mp, by omega, h1, h2, h3, h4, m1, m2, m3, h5, m4, ?_⟩
  have hm : (if mp < 10 then mp + 3 else mp - 9) ≤ 2 ↔ ¬ mp < 10 := by
    split <;> omega
  have e : civil z = ⟨if (if mp < 10 then mp + 3 else mp - 9) ≤ 2 then yoe + era * 400 + 1
      else yoe + era * 400, if mp < 10 then mp + 3 else mp - 9,
      doy - (153 * mp + 2) / 5 + 1⟩ := by
    unfold civil
    simp only [← he, ← hd, hy, ← hdoy, hmp]
  rw [e]
  by_cases h : mp < 10
  · rw [if_neg (by rw [hm]; simp [h]), if_pos h, if_pos h]
  · rw [if_pos (by rw [hm]; exact h), if_neg h, if_neg h]

/-- The two conversions are inverse. -/
theorem daysOf_civil (z : Int) : daysOf (civil z) = z := by
  obtain ⟨era, yoe, doy, mp, hz, h1, h2, h3, h4, m1, m2, m3, -, -, hc⟩ := civil_parts z
  rw [hc]
  by_cases h : mp < 10
  · have e1 : ¬ mp + 3 ≤ 2 := by omega
    have e2 : 2 < mp + 3 := by omega
    simp only [daysOf, if_pos h, if_neg e1, if_pos e2]
    have e3 : (yoe + era * 400) / 400 = era := by omega
    rw [e3]
    have e4 : yoe + era * 400 - era * 400 = yoe := by omega
    have e5 : mp + 3 - 3 = mp := by omega
    rw [e4, e5]
    omega
  · have e1 : mp - 9 ≤ 2 := by omega
    have e2 : ¬ 2 < mp - 9 := by omega
    simp only [daysOf, if_neg h, if_pos e1, if_neg e2]
    have e3 : (yoe + era * 400 + 1 - 1) / 400 = era := by omega
    rw [e3]
    have e4 : yoe + era * 400 + 1 - 1 - era * 400 = yoe := by omega
    have e5 : mp - 9 + 9 = mp := by omega
    rw [e4, e5]
    omega

theorem civil_month (z : Int) : 1 ≤ (civil z).month ∧ (civil z).month ≤ 12 ∧ 1 ≤ (civil z).day ∧
    (civil z).day ≤ lastDay (civil z).year (civil z).month := by
  obtain ⟨era, yoe, doy, mp, hz, h1, h2, h3, h4, m1, m2, m3, h5, h6, hc⟩ := civil_parts z
  rw [hc]
  refine ⟨?_, ?_, ?_, ?_⟩
  · simp only; split <;> omega
  · simp only; split <;> omega
  · simp only; omega
  · simp only
    by_cases h11 : mp = 11
    · subst h11
      simp only [if_true] at h6
      simp only [show ¬ ((11 : Int) < 10) by omega, if_false, show (11 : Int) - 9 = 2 by omega,
        lastDay, if_true]
      by_cases hd : doy = 365
      · have hl : isLeap (yoe + era * 400 + 1) = true := by
          obtain ⟨a, b⟩ := h5 hd
          have e4 : (yoe + era * 400 + 1) % 4 = 0 := by omega
          have e100 : (yoe + era * 400 + 1) % 100 = (yoe + 1) % 100 := by omega
          have e400 : (yoe + era * 400 + 1) % 400 = (yoe + 1) % 400 := by omega
          simp only [isLeap, e4, e100, e400]
          rcases b with b | b
          · simp [b]
          · simp [b]
        rw [if_pos hl]
        rw [if_pos hd] at h6
        exact h6
      · rw [if_neg hd] at h6
        split <;> omega
    · rw [if_neg h11] at h6
      have hm2 : ¬ ((if mp < 10 then mp + 3 else mp - 9) = 2) := by split <;> omega
      have hm30 : ((if mp < 10 then mp + 3 else mp - 9) = 4 ∨
          (if mp < 10 then mp + 3 else mp - 9) = 6 ∨ (if mp < 10 then mp + 3 else mp - 9) = 9 ∨
          (if mp < 10 then mp + 3 else mp - 9) = 11) ↔
          (mp = 1 ∨ mp = 3 ∨ mp = 6 ∨ mp = 8) := by split <;> omega
      simp only [lastDay, if_neg hm2]
      by_cases h30 : mp = 1 ∨ mp = 3 ∨ mp = 6 ∨ mp = 8
      · rw [if_pos (hm30.mpr h30)]
        rw [if_pos h30] at h6
        exact h6
      · rw [if_neg (fun h => h30 (hm30.mp h))]
        rw [if_neg h30] at h6
        exact h6

/-! ## Text -/

theorem padded_digits (w n : Nat) : ∀ c ∈ padded w n, isDigit c = true := by
  intro c hc
  rcases List.mem_append.mp hc with h | h
  · rw [List.eq_of_mem_replicate h]; decide
  · exact natText_digits n c h

theorem digitsVal_zeros (k : Nat) (s : Str) :
    digitsVal (List.replicate k '0' ++ s) = digitsVal s := by
  induction k with
  | zero => rfl
  | succ k ih => rw [List.replicate_succ, List.cons_append, ← ih]; rfl

theorem digitsVal_padded (w n : Nat) : digitsVal (padded w n) = n := by
  rw [padded, digitsVal_zeros, digitsVal_natText]

theorem padded_length (w n : Nat) (h : 0 < w) : (padded w n).length = w ↔ n < 10 ^ w := by
  rw [← Nat.length_toDigits_le_iff (b := 10) (by decide) h]
  simp only [padded, natText, List.length_append, List.length_replicate]
  omega

theorem padded_length_ge (w n : Nat) : w ≤ (padded w n).length := by
  simp only [padded, List.length_append, List.length_replicate]
  omega

theorem takeWhile_all (s : Str) (h : ∀ c ∈ s, isDigit c = true) : s.takeWhile isDigit = s := by
  induction s with
  | nil => rfl
  | cons c s ih =>
    rw [List.takeWhile_cons_of_pos (h c (by simp)), ih (fun d hd => h d (by simp [hd]))]

theorem readUnsigned_padded (w n : Nat) (rest : Str) (hw : 0 < w) (h : n < 10 ^ w) :
    readUnsigned w (padded w n ++ rest) = some (n, rest) := by
  have hl := (padded_length w n hw).mpr h
  have ht : ((padded w n ++ rest).take w).takeWhile isDigit = padded w n := by
    rw [List.take_left' hl]
    exact takeWhile_all _ (padded_digits w n)
  have hne : (padded w n).isEmpty = false := by
    cases hp : padded w n with
    | nil => rw [hp] at hl; simp at hl; omega
    | cons _ _ => rfl
  unfold readUnsigned
  simp only [ht, hne, digitsVal_padded]
  simp

theorem digit_not_sign (s rest : Str) (h : ∀ c ∈ s, isDigit c = true) (hne : s ≠ []) (max : Nat) :
    readSigned max (s ++ rest) = (readUnsigned max (s ++ rest)).map fun x => ((x.1 : Int), x.2) := by
  cases s with
  | nil => exact absurd rfl hne
  | cons c s =>
    have hc := h c (by simp)
    unfold readSigned
    split
    · rename_i heq; simp at heq; rw [heq.1] at hc; exact absurd hc (by decide)
    · rename_i heq; simp at heq; rw [heq.1] at hc; exact absurd hc (by decide)
    · rfl

theorem padded_ne_nil (w n : Nat) : padded w n ≠ [] := by
  intro h
  have := congrArg digitsVal h
  have hn := natText_ne_nil n
  simp [padded] at h
  exact hn h.2

theorem readSigned_padded (w n : Nat) (rest : Str) (hw : 0 < w) (h : n < 10 ^ w) :
    readSigned w (padded w n ++ rest) = some ((n : Int), rest) := by
  rw [digit_not_sign _ _ (padded_digits w n) (padded_ne_nil w n),
    readUnsigned_padded w n rest hw h]
  rfl

theorem readSigned_year (y : Int) (rest : Str) (h : y.natAbs < 10000) :
    readSigned 4 (yearText y ++ rest) = some (y, rest) := by
  unfold yearText
  split
  · rename_i hy
    show (readUnsigned 4 (padded 4 y.natAbs ++ rest)).map _ = _
    rw [readUnsigned_padded 4 _ rest (by decide) h]
    simp; omega
  · rw [readSigned_padded 4 _ rest (by decide) h]
    simp; omega

/-- A year of more than four digits leaves a digit before the dash. -/
theorem readUnsigned_long (n : Nat) (rest : Str) (h : 10000 ≤ n) :
    ∃ v c r, readUnsigned 4 (padded 4 n ++ rest) = some (v, c :: r) ∧ isDigit c = true := by
  have hl : 4 < (padded 4 n).length := by
    have h1 := padded_length_ge 4 n
    have h2 : (padded 4 n).length ≠ 4 := by
      rw [Ne, padded_length 4 n (by decide)]; omega
    omega
  have hd := padded_digits 4 n
  generalize padded 4 n = p at hl hd
  match p, hl, hd with
  | a :: b :: c :: d :: e :: p, _, hd =>
    have ha := hd a (by simp)
    have hb := hd b (by simp)
    have hc := hd c (by simp)
    have hdd := hd d (by simp)
    have he := hd e (by simp)
    refine ⟨digitsVal [a, b, c, d], e, p ++ rest, ?_, he⟩
    have ht : ((a :: b :: c :: d :: e :: p ++ rest).take 4).takeWhile isDigit = [a, b, c, d] := by
      simp [ha, hb, hc, hdd]
    unfold readUnsigned
    simp only [ht]
    simp

theorem readDash_digit (c : Char) (r : Str) (h : isDigit c = true) : readDash (c :: r) = none := by
  unfold readDash
  split
  · rename_i heq; simp at heq; rw [heq.1] at h; exact absurd h (by decide)
  · rfl

theorem readYear_long (y : Int) (rest : Str) (h : 10000 ≤ y.natAbs) :
    (readSigned 4 (yearText y ++ rest)).bind (fun x => readDash x.2) = none := by
  obtain ⟨v, c, r, hr, hc⟩ := readUnsigned_long y.natAbs rest h
  unfold yearText
  split
  · show ((readUnsigned 4 (padded 4 y.natAbs ++ rest)).map _).bind _ = _
    rw [hr]
    simp [readDash_digit c r hc]
  · rw [digit_not_sign _ _ (padded_digits 4 _) (padded_ne_nil 4 _), hr]
    simp [readDash_digit c r hc]

/-- Reading what was printed for a date. -/
theorem parseDate_ymdText (t : Ymd) (hm : 1 ≤ t.month ∧ t.month ≤ 12)
    (hd : 1 ≤ t.day ∧ t.day ≤ 31) :
    parseDate (ymdText t) =
      if t.year.natAbs < 10000 ∧ t.ok = true then some (daysOf t) else none := by
  unfold parseDate ymdText
  generalize (if t.ok = true then [] else " is not a valid date".toList) = tail
  by_cases hy : t.year.natAbs < 10000
  · rw [List.append_assoc, List.append_assoc, readSigned_year _ _ hy]
    simp only [List.cons_append, Option.bind_some, readDash]
    rw [readSigned_padded 2 _ _ (by decide) (by omega)]
    simp only [List.cons_append, Option.bind_some, readDash]
    rw [readSigned_padded 2 _ _ (by decide) (by omega)]
    simp only [Option.bind_some]
    have e1 : (t.month.toNat : Int) = t.month := by omega
    have e2 : (t.day.toNat : Int) = t.day := by omega
    rw [e1, e2]
    show (if t.ok = true then some (daysOf t) else none) = _
    by_cases hk : t.ok = true
    · simp only [hk, hy, and_self, if_true]
    · simp [hk]
  · rw [if_neg (fun h => hy h.1), List.append_assoc, List.append_assoc]
    have := readYear_long t.year ('-' :: padded 2 t.month.toNat ++ ('-' :: padded 2 t.day.toNat ++
      tail)) (by omega)
    cases h : readSigned 4 (yearText t.year ++ ('-' :: padded 2 t.month.toNat ++
        ('-' :: padded 2 t.day.toNat ++ tail))) with
    | none => rfl
    | some x =>
      rw [h] at this
      simp only [Option.bind_some] at this ⊢
      rw [this]
      rfl

theorem lastDay_le (y m : Int) : lastDay y m ≤ 31 := by
  unfold lastDay
  repeat' split
  all_goals omega

/-- The year in terms of the day number. -/
theorem civil_year (z : Int) :
    (-9999 ≤ (civil z).year ∧ (civil z).year ≤ 9999) ↔ (-4371587 ≤ z ∧ z ≤ 2932896) := by
  obtain ⟨era, yoe, doy, mp, hz, h1, h2, h3, h4, m1, m2, m3, h5, h6, hc⟩ := civil_parts z
  have h306 : mp < 10 ↔ doy < 306 := by
    by_cases h11 : mp = 11
    · subst h11; omega
    · rw [if_neg h11] at h6
      split at h6 <;> omega
  have h365 : yoe = 399 ∨ doy < 365 ∨ (yoe + 1) % 4 = 0 := by omega
  rw [hc]
  by_cases h : mp < 10
  · have hd := h306.mp h
    simp only [if_pos h]
    omega
  · have hd : 306 ≤ doy := by omega
    simp only [if_neg h]
    omega

theorem ok_civil (z : Int) (h : -32767 ≤ (civil z).year) : (civil z).ok = true := by
  obtain ⟨a, b, c, d⟩ := civil_month z
  simp [Ymd.ok, a, b, c, d, h]

/-- Dates of the same month and day in different years are different days. -/
theorem daysOf_year (y y' m d : Int) (h : daysOf ⟨y, m, d⟩ = daysOf ⟨y', m, d⟩) : y = y' := by
  unfold daysOf at h
  simp only at h
  by_cases hm : m ≤ 2
  · simp only [if_pos hm] at h
    omega
  · simp only [if_neg hm] at h
    omega

/-- Exactly the dates from -9999-01-01 to 9999-12-31 survive. -/
theorem parseDate_dateText (z : Int) :
    parseDate (dateText z) = some z ↔ (-4371587 ≤ z ∧ z ≤ 2932896) := by
  obtain ⟨a, b, c, d⟩ := civil_month z
  have hl := lastDay_le (civil z).year (civil z).month
  have hz := daysOf_civil z
  have hk := ok_civil z
  rw [← civil_year z]
  unfold dateText
  generalize civil z = t at *
  obtain ⟨y, m, d'⟩ := t
  simp only at a b c d hl hk ⊢
  rw [parseDate_ymdText ⟨wrapYear y, m, d'⟩ ⟨a, b⟩ ⟨c, by simp only; omega⟩]
  constructor
  · intro h
    split at h
    · rename_i hk
      simp only [Option.some.injEq] at h
      rw [← hz] at h
      have := daysOf_year _ _ _ _ h
      have h2 := hk.1
      simp only at h2
      omega
    · simp at h
  · intro h
    have hw : wrapYear y = y := by unfold wrapYear; omega
    rw [hw, if_pos ⟨by simp only; omega, hk (by omega)⟩, hz]

end Verif.Date
