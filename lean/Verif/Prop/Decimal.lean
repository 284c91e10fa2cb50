import Verif.Lemmas.Decimal

/-! # Properties of decimal literals (C16 - C18) -/

namespace Verif.Decimal

open Verif

/-- **C16.**  A literal of at most 16 bytes prints the decimal numeral of the two's
complement number its bytes denote. -/
theorem toBaseString_eq (d : Literal) (h : d.value.length ≤ 16) :
    d.toBaseString = intText (signed d.value) := by
  unfold Literal.toBaseString
  cases hl : d.value.getLast? with
  | none =>
    have : d.value = [] := by simpa using hl
    rw [this]; rfl
  | some last =>
    have hne : d.value ≠ [] := by intro e; rw [e] at hl; simp at hl
    have hsign := sign_iff hl
    have hlt := unsigned_lt d.value
    dsimp only
    unfold signed
    by_cases hs : 2 * unsigned d.value < 256 ^ d.value.length
    · have : ¬ (last &&& 0x80 ≠ 0) := by rw [hsign]; simpa using hs
      rw [if_pos hs, if_neg this, if_neg this, accumulate_of_le h, digitsBack_eq _ _ (Nat.le_refl _)]
      rfl
    · have hneg : last &&& 0x80 ≠ 0 := hsign.mpr hs
      have hpos : unsigned d.value ≠ 0 := by
        intro e
        rw [e] at hs
        have : 0 < 256 ^ d.value.length := Nat.pow_pos (by omega)
        omega
      rw [if_neg hs, if_pos hneg, if_pos hneg]
      have hlen : (negate d.value).length ≤ 16 := by
        unfold negate; rw [negateLoop_length]; exact h
      rw [accumulate_of_le hlen, digitsBack_eq _ _ (Nat.le_refl _), unsigned_negate, if_neg hpos]
      have e : ((unsigned d.value : Int) - 256 ^ d.value.length) =
          Int.negSucc (256 ^ d.value.length - unsigned d.value - 1) := by
        have : ((256 ^ d.value.length : Nat) : Int) = (256 : Int) ^ d.value.length := by simp
        rw [← this]
        omega
      rw [e]
      simp only [intText]
      rw [show 256 ^ d.value.length - unsigned d.value - 1 + 1 =
        256 ^ d.value.length - unsigned d.value by omega]
      rfl

/-- Beyond 16 bytes the printed magnitude is taken modulo 2^128 (the header promises 16
bytes, `fromProto` does not check). -/
theorem toBaseString_long :
    (Literal.mk (List.replicate 16 0 ++ [1]) 38 0).toBaseString = "0".toList := by
  decide +kernel

/-- Non-vacuity of C16: the smallest and a negative value. -/
example : (Literal.mk (List.replicate 15 0 ++ [0x80]) 38 0).toBaseString =
      "-170141183460469231731687303715884105728".toList ∧
    (Literal.mk [0x18, 0xfc] 3 0).toBaseString = "-1000".toList := by
  decide +kernel

/-! ## C17 -/

/-- Reading back the numeral of a number. -/
theorem simpleAtoi_natText (n : Nat) (h : n < 2 ^ 128) : simpleAtoiU128 (natText n) = some n := by
  have hne := natText_ne_nil n
  have hd := natText_digits n
  have hsp := @StringUtils.isSpace_digit
  have ht : StringUtils.trim (natText n) = natText n := by
    apply StringUtils.trim_eq_self
    · intro c hc; exact hsp (hd c (List.mem_of_mem_head? hc))
    · intro c hc; exact hsp (hd c (List.mem_of_mem_getLast? hc))
  unfold simpleAtoiU128
  dsimp only
  rw [ht]
  have key : (if (NumberUtils.isNonNegativeInteger (natText n) &&
      decide (digitsVal (natText n) < 2 ^ 128)) = true then some (digitsVal (natText n)) else none)
      = some n := by
    rw [isNonNegativeInteger_natText, digitsVal_natText]; simp [h]
  cases hc : natText n with
  | nil => exact absurd hc hne
  | cons c cs =>
    rw [hc] at key
    have hcd : isDigit c = true := hd c (by rw [hc]; simp)
    split
    · rename_i e; simp at e; rw [e.1] at hcd; exact absurd hcd (by decide)
    · rename_i e; simp at e; rw [e.1] at hcd; exact absurd hcd (by decide)
    · exact key

/-- **C17, exact behaviour on non-negative numerals.**  The numeral of every number below
2^128 is accepted, gives 16 bytes, and prints as the two's complement reading of them. -/
theorem fromString_natText (n : Nat) (p s : Int) (h : n < 2 ^ 128) :
    (fromString (natText n) p s) = ⟨leBytes 16 n, p, s⟩ ∧
    (fromString (natText n) p s).toBaseString =
      intText (if n < 2 ^ 127 then n else n - 2 ^ 128) := by
  have e : fromString (natText n) p s = ⟨leBytes 16 n, p, s⟩ := by
    unfold fromString; rw [simpleAtoi_natText n h]; rfl
  refine ⟨e, ?_⟩
  rw [e, toBaseString_eq _ (by simp [leBytes_length])]
  unfold signed
  rw [unsigned_leBytes 16 n (by simpa using h)]
  simp only [leBytes_length]
  congr 1
  by_cases hn : n < 2 ^ 127
  · rw [if_pos hn, if_pos (by omega)]
  · rw [if_neg hn, if_neg (by omega)]; rfl

/-- **C17, the part that holds** (`_partial`: non-negative values only, see
`fromString_negative`): the round trip is the identity on 0 .. 2^127-1. -/
theorem fromString_roundtrip_partial (n : Nat) (p s : Int) (h : n < 2 ^ 127) :
    (fromString (natText n) p s).toBaseString = natText n := by
  rw [(fromString_natText n p s (by omega)).2, if_pos h]
  rfl

/-- **C17, out of range numerals are rejected.** -/
theorem fromString_tooBig (n : Nat) (p s : Int) (h : 2 ^ 128 ≤ n) :
    fromString (natText n) p s = ⟨[], 0, 0⟩ ∧ (fromString (natText n) p s).isValid = false := by
  have hnone : simpleAtoiU128 (natText n) = none := by
    have hd := natText_digits n
    have hsp := @StringUtils.isSpace_digit
    have ht : StringUtils.trim (natText n) = natText n := by
      apply StringUtils.trim_eq_self
      · intro c hc; exact hsp (hd c (List.mem_of_mem_head? hc))
      · intro c hc; exact hsp (hd c (List.mem_of_mem_getLast? hc))
    have hv := digitsVal_natText n
    unfold simpleAtoiU128
    dsimp only
    rw [ht]
    split
    · rfl
    · rename_i ds e
      exfalso
      have : isDigit '+' = true := hd '+' (by rw [e]; simp)
      exact absurd this (by decide)
    · rw [hv]; simp; omega
  have e : fromString (natText n) p s = ⟨[], 0, 0⟩ := by
    unfold fromString; rw [hnone]
  exact ⟨e, by rw [e]; rfl⟩

/-- **C17 is false for numerals from 2^127 on**: they are accepted and print as another
(negative) number. -/
theorem fromString_big_wraps (n : Nat) (p s : Int) (h : 2 ^ 127 ≤ n) (h2 : n < 2 ^ 128) :
    (fromString (natText n) p s).value.length = 16 ∧
    (fromString (natText n) p s).toBaseString ≠ natText n := by
  obtain ⟨e1, e2⟩ := fromString_natText n p s h2
  refine ⟨by rw [e1]; exact leBytes_length 16 n, ?_⟩
  rw [e2, if_neg (by omega)]
  have : ((n : Int) - 2 ^ 128) = Int.negSucc (2 ^ 128 - n - 1) := by omega
  rw [this]
  simp only [intText]
  intro e
  have : isDigit '-' = true := natText_digits n '-' (by rw [← e]; simp)
  exact absurd this (by decide)

/-- **C17 is false for negative numerals**: they are rejected although the literal can hold
them and prints them. -/
theorem fromString_negative (n : Nat) (p s : Int) :
    fromString ('-' :: natText n) p s = ⟨[], 0, 0⟩ := by
  have hd := natText_digits n
  have hsp := @StringUtils.isSpace_digit
  have ht : StringUtils.trim ('-' :: natText n) = '-' :: natText n := by
    apply StringUtils.trim_eq_self
    · intro c hc; simp at hc; subst hc; decide
    · intro c hc
      apply hsp; apply hd
      rw [List.getLast?_cons] at hc
      cases hg : (natText n).getLast? with
      | none => exact absurd (by simpa using hg) (natText_ne_nil n)
      | some d => rw [hg] at hc; simp at hc; subst hc; exact List.mem_of_mem_getLast? hg
  have hnone : simpleAtoiU128 ('-' :: natText n) = none := by
    unfold simpleAtoiU128
    dsimp only
    rw [ht]
    rfl
  unfold fromString
  rw [hnone]

/-- **C16 with C17**: bytes to text to bytes is the identity on non-negative 16-byte
values. -/
theorem bytes_roundtrip_partial (d : Literal) (h : d.value.length = 16)
    (hpos : 2 * unsigned d.value < 256 ^ 16) :
    fromString d.toBaseString d.precision d.scale = d := by
  rw [toBaseString_eq d (by omega)]
  unfold signed
  rw [if_pos (by rw [h]; exact hpos)]
  show fromString (natText (unsigned d.value)) d.precision d.scale = d
  rw [(fromString_natText _ _ _ (by omega)).1]
  have := leBytes_unsigned d.value
  rw [h] at this
  rw [this]

/-- **C17 is false for the values the literal can hold**: minus one prints but cannot be
read. -/
theorem bytes_roundtrip_fails :
    fromString (Literal.mk (List.replicate 16 0xff) 38 0).toBaseString 38 0 = ⟨[], 0, 0⟩ := by
  have : (Literal.mk (List.replicate 16 0xff) 38 0).toBaseString = '-' :: natText 1 := by
    decide +kernel
  rw [this, fromString_negative]

/-- Non-vacuity of C17. -/
example : (fromString " +123456789012345678901234567890 ".toList 38 2).toBaseString =
    "123456789012345678901234567890".toList := by decide +kernel

/-! ## C18 -/

/-- **C18, validity.** -/
theorem isValid_iff (d : Literal) :
    d.isValid = true ↔ d.value.length = 16 ∧ 1 ≤ d.precision ∧ d.precision ≤ 38 := by
  simp [Literal.isValid, and_assoc]

/-- **C18, conversion to and from the message keeps everything.** -/
theorem proto_roundtrip (d : Literal) (p : Proto) :
    fromProto d.toProto = d ∧ (fromProto p).toProto = p := ⟨rfl, rfl⟩

/-- **C18, long form.**  The text is the value, then the exponent if the scale is not zero,
then the precision. -/
theorem toString_eq (d : Literal) (h : d.value.length ≤ 16) :
    d.toString = intText (signed d.value) ++
      (if d.scale = 0 then [] else "E".toList ++
        (if 0 < d.scale then "-".toList else "+".toList) ++ natText d.scale.natAbs) ++
      "@precision=".toList ++ intText d.precision := by
  unfold Literal.toString
  rw [toBaseString_eq d h]
  congr 2
  congr 1
  rcases Int.lt_trichotomy d.scale 0 with hs | hs | hs
  · rw [if_neg (by omega), if_pos hs, if_neg (by omega), if_neg (by omega)]
    have : -d.scale = Int.ofNat d.scale.natAbs := by simp; omega
    rw [this]; rfl
  · simp [hs]
  · rw [if_pos (by omega), if_neg (by omega), if_pos hs]
    have : d.scale = Int.ofNat d.scale.natAbs := by simp; omega
    rw [this]; rfl

/-- Non-vacuity of C18. -/
example : (fromString "1234".toList 10 2).isValid = true ∧
    (fromString "1234".toList 10 2).toString = "1234E-2@precision=10".toList ∧
    (fromString "7".toList 1 (-3)).toString = "7E+3@precision=1".toList := by
  decide +kernel

end Verif.Decimal
