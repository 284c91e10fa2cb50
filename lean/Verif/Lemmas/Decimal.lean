import Verif.Model.Decimal
import Verif.Spec.Decimal
import Verif.Lemmas.Strings

/-! Helper lemmas on decimal literals. -/

namespace Verif.Decimal

open Verif

theorem unsigned_lt (bs : List UInt8) : unsigned bs < 256 ^ bs.length := by
  induction bs with
  | nil => simp [unsigned]
  | cons b bs ih =>
    simp only [unsigned, List.length_cons, Nat.pow_succ]
    have := b.toNat_lt
    omega

theorem not_toNat (b : UInt8) : (~~~b).toNat = 255 - b.toNat := by
  rw [UInt8.toNat_not]; rfl

theorem not_add_one_toNat (b : UInt8) :
    (~~~b + 1).toNat = if b.toNat = 0 then 0 else 256 - b.toNat := by
  have := b.toNat_lt
  rw [UInt8.toNat_add, not_toNat]
  split
  · rename_i h; rw [h]; rfl
  · simp; omega

theorem negateLoop_length (c : Bool) (bs : List UInt8) : (negateLoop c bs).length = bs.length := by
  induction bs generalizing c with
  | nil => rfl
  | cons b bs ih => simp [negateLoop, ih]

theorem unsigned_negate_false (bs : List UInt8) :
    unsigned (negateLoop false bs) + unsigned bs + 1 = 256 ^ bs.length := by
  induction bs with
  | nil => rfl
  | cons b bs ih =>
    have := b.toNat_lt
    simp only [negateLoop, Bool.false_eq_true, if_false, Bool.false_and, unsigned, not_toNat,
      List.length_cons, Nat.pow_succ]
    omega

theorem unsigned_negate_zero (bs : List UInt8) (h : unsigned bs = 0) :
    unsigned (negateLoop true bs) = 0 := by
  induction bs with
  | nil => rfl
  | cons b bs ih =>
    simp only [unsigned] at h
    have hn := not_add_one_toNat b
    rw [if_pos (by omega)] at hn
    have hz : (~~~b + 1 == 0) = true := by
      rw [beq_iff_eq]; exact UInt8.toNat_inj.mp (by simpa using hn)
    simp only [negateLoop, if_true, Bool.true_and, unsigned, hz]
    rw [ih (by omega), hn]

theorem unsigned_negate_pos (bs : List UInt8) (h : unsigned bs ≠ 0) :
    unsigned (negateLoop true bs) + unsigned bs = 256 ^ bs.length := by
  induction bs with
  | nil => exact absurd rfl h
  | cons b bs ih =>
    have hb := b.toNat_lt
    have hn := not_add_one_toNat b
    simp only [unsigned] at h
    simp only [negateLoop, if_true, Bool.true_and, unsigned, List.length_cons, Nat.pow_succ]
    by_cases h0 : b.toNat = 0
    · rw [if_pos h0] at hn
      have hz : (~~~b + 1 == 0) = true := by
        rw [beq_iff_eq]; exact UInt8.toNat_inj.mp (by simpa using hn)
      rw [hz]
      have := ih (by omega)
      omega
    · rw [if_neg h0] at hn
      have hz : (~~~b + 1 == 0) = false := by
        rw [beq_eq_false_iff_ne]
        intro e
        rw [e] at hn
        simp at hn
        omega
      rw [hz]
      have := unsigned_negate_false bs
      omega

theorem unsigned_negate (bs : List UInt8) :
    unsigned (negate bs) = if unsigned bs = 0 then 0 else 256 ^ bs.length - unsigned bs := by
  unfold negate
  split
  · exact unsigned_negate_zero bs ‹_›
  · have := unsigned_negate_pos bs ‹_›
    omega

theorem or_byte (v : Nat) (b : UInt8) : (v * 256) ||| b.toNat = v * 256 + b.toNat := by
  have := b.toNat_lt
  rw [Nat.mul_comm, show (256 : Nat) = 2 ^ 8 from rfl, Nat.two_pow_add_eq_or_of_lt (by simpa using this)]

theorem accumulate_aux (bs : List UInt8) :
    bs.reverse.foldl (fun v b => (v <<< 8) % 2 ^ 128 ||| b.toNat) 0 = unsigned bs % 2 ^ 128 := by
  induction bs with
  | nil => rfl
  | cons b bs ih =>
    have hb := b.toNat_lt
    rw [List.reverse_cons, List.foldl_append, ih]
    simp only [List.foldl_cons, List.foldl_nil, unsigned, Nat.shiftLeft_eq]
    have e : unsigned bs % 2 ^ 128 * 2 ^ 8 % 2 ^ 128 = (unsigned bs % 2 ^ 120) * 256 := by
      omega
    rw [e, or_byte]
    omega

theorem accumulate_eq (bs : List UInt8) : accumulate bs = unsigned bs % 2 ^ 128 := accumulate_aux bs

theorem accumulate_of_le {bs : List UInt8} (h : bs.length ≤ 16) : accumulate bs = unsigned bs := by
  rw [accumulate_eq]
  apply Nat.mod_eq_of_lt
  refine Nat.lt_of_lt_of_le (unsigned_lt bs) ?_
  calc 256 ^ bs.length ≤ 256 ^ 16 := Nat.pow_le_pow_right (by omega) h
    _ = 2 ^ 128 := by decide

theorem digitChar_eq {n : Nat} (h : n < 10) : Nat.digitChar n = Char.ofNat (48 + n) := by
  have : ∀ m : Fin 10, Nat.digitChar m.val = Char.ofNat (48 + m.val) := by decide
  exact this ⟨n, h⟩

theorem digitsBack_eq (fuel v : Nat) (h : v ≤ fuel) : (digitsBack fuel v).reverse = natText v := by
  induction fuel generalizing v with
  | zero =>
    have : v = 0 := by omega
    subst this
    rfl
  | succ fuel ih =>
    simp only [digitsBack]
    unfold natText
    rw [Nat.toDigits_eq_if (by omega)]
    split
    · rename_i hv
      rw [if_neg (by omega), List.reverse_cons, ih _ (by omega), digitChar_eq (by omega)]
      rfl
    · rename_i hv
      rw [if_pos (by omega), digitChar_eq (by omega)]
      rfl

/-- The sign test looks at the top half of the range. -/
theorem sign_iff {bs : List UInt8} {last : UInt8} (h : bs.getLast? = some last) :
    last &&& 0x80 ≠ 0 ↔ ¬ 2 * unsigned bs < 256 ^ bs.length := by
  have hbit : last &&& 0x80 ≠ 0 ↔ 128 ≤ last.toNat := by
    have key : ∀ m : Fin 256, UInt8.ofNat m.val &&& 0x80 ≠ 0 ↔ 128 ≤ m.val := by decide +kernel
    have := key ⟨last.toNat, last.toNat_lt⟩
    simpa using this
  refine hbit.trans ?_
  clear hbit
  induction bs with
  | nil => simp at h
  | cons b bs ih =>
    cases bs with
    | nil => simp at h; subst h; simp [unsigned]; omega
    | cons c cs =>
      have := ih (by simpa [List.getLast?_cons_cons] using h)
      refine this.trans ?_
      have hb := b.toNat_lt
      simp only [unsigned, List.length_cons, Nat.pow_succ] at *
      omega

theorem leBytes_length (n v : Nat) : (leBytes n v).length = n := by
  induction n generalizing v with
  | zero => rfl
  | succ n ih => simp [leBytes, ih]

theorem unsigned_leBytes (n v : Nat) (h : v < 256 ^ n) : unsigned (leBytes n v) = v := by
  induction n generalizing v with
  | zero => simp at h; subst h; rfl
  | succ n ih =>
    have : v / 256 < 256 ^ n := by
      rw [Nat.pow_succ] at h; omega
    simp only [leBytes, unsigned, ih _ this]
    have e : (UInt8.ofNat v).toNat = v % 256 := by simp
    rw [e]; omega

theorem leBytes_unsigned (bs : List UInt8) : leBytes bs.length (unsigned bs) = bs := by
  induction bs with
  | nil => rfl
  | cons b bs ih =>
    have := b.toNat_lt
    simp only [List.length_cons, leBytes, unsigned]
    rw [show (b.toNat + 256 * unsigned bs) / 256 = unsigned bs by omega, ih]
    congr 1
    apply UInt8.toNat_inj.mp
    simp

end Verif.Decimal
