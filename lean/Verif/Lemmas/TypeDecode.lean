import Verif.Lemmas.Strings
import Verif.Spec.Types

/-! Helper lemmas on type decoding. -/

namespace Verif.Ty

open Verif StringUtils

theorem scanComma_bounds {s : Str} {cnt : Int} {i c : Nat} (h : scanComma s cnt i = some c) :
    i ≤ c ∧ c < i + s.length := by
  induction s generalizing cnt i with
  | nil => simp [scanComma] at h
  | cons d ds ih =>
    simp only [scanComma] at h
    simp only [List.length_cons]
    split at h
    · have := ih h; omega
    · split at h
      · have := ih h; omega
      · split at h
        · cases h; omega
        · have := ih h; omega

theorem findNextComma_bounds {s : Str} {i c : Nat} (h : findNextComma s i = some c) :
    i ≤ c ∧ c < s.length := by
  have := scanComma_bounds h
  rw [List.length_drop] at this
  omega

theorem tokensF_fuel {s : Str} {r : Option Nat} :
    ∀ {f g prev}, s.length < prev + f → s.length < prev + g → 0 < f → 0 < g →
      tokensF f s r prev = tokensF g s r prev := by
  intro f
  induction f with
  | zero => intro g prev _ _ h; omega
  | succ f ih =>
    intro g prev hf hg _ h0
    obtain ⟨g, rfl⟩ : ∃ k, g = k + 1 := ⟨g - 1, by omega⟩
    simp only [tokensF]
    cases hc : findNextComma s prev with
    | none => rfl
    | some c =>
      have := findNextComma_bounds hc
      simp only
      rw [ih (g := g) (by omega) (by omega) (by omega) (by omega)]

/-- The token loop as the C++ writes it: the fuel of `tokens` is never exhausted. -/
theorem tokens_eq (s : Str) (r : Option Nat) (prev : Nat) :
    tokens s r prev =
      match findNextComma s prev with
      | some c => (s.drop prev).take (c - prev) :: tokens s r (c + 1)
      | none => [substrTo s prev r] := by
  simp only [tokens]
  rw [tokensF]
  cases hc : findNextComma s prev with
  | none => rfl
  | some c =>
    have := findNextComma_bounds hc
    simp only
    rw [tokensF_fuel (g := s.length + 1)] <;> omega

theorem substrTo_length_le (s : Str) (p : Nat) (r : Option Nat) :
    (substrTo s p r).length ≤ s.length - p := by
  unfold substrTo
  split
  · split <;> simp <;> omega
  · simp

theorem tokensF_length {s : Str} {r : Option Nat} :
    ∀ {f prev t}, t ∈ tokensF f s r prev → t.length ≤ s.length - prev := by
  intro f
  induction f with
  | zero => intro prev t h; simp [tokensF] at h
  | succ f ih =>
    intro prev t h
    rw [tokensF] at h
    cases hc : findNextComma s prev with
    | none =>
      simp [hc] at h; subst h; exact substrTo_length_le _ _ _
    | some c =>
      have hb := findNextComma_bounds hc
      simp only [hc, List.mem_cons] at h
      rcases h with rfl | h
      · simp; omega
      · have := ih h; omega

theorem tokens_length {s : Str} {r : Option Nat} {prev : Nat} {t : Str}
    (h : t ∈ tokens s r prev) : t.length ≤ s.length - prev := tokensF_length h

theorem tokens_ne_nil (s : Str) (r : Option Nat) (prev : Nat) : tokens s r prev ≠ [] := by
  rw [tokens_eq]; split <;> simp

theorem findFirst_lt {c : Char} {s : Str} {i : Nat} (h : findFirst c s = some i) :
    i < s.length := by
  obtain ⟨a, b, rfl, _, hl⟩ := findFirst_some h
  simp; omega

theorem decodeF_fuel (p : Bool) : ∀ (n f g : Nat) (s : Str), s.length < n → n ≤ f → n ≤ g →
    decodeF f p s = decodeF g p s := by
  intro n
  induction n with
  | zero => intro f g s h; omega
  | succ n ih =>
    intro f g s hs hf hg
    obtain ⟨f, rfl⟩ : ∃ k, f = k + 1 := ⟨f - 1, by omega⟩
    obtain ⟨g, rfl⟩ : ∃ k, g = k + 1 := ⟨g - 1, by omega⟩
    simp only [decodeF]
    cases hl : findFirst '<' (trim s) with
    | none => rfl
    | some left =>
      have hlt := findFirst_lt hl
      have htl := trim_length_le s
      simp only
      rw [Outcome.mapM_congr (g := decodeF g p)]
      intro t ht
      have := tokens_length ht
      exact ih f g t (by omega) (by omega) (by omega)

/-- `decode` as the C++ writes it: the fuel is never exhausted. -/
theorem decode_eq (p : Bool) (s : Str) :
    decode p s =
      match findFirst '<' (trim s) with
      | none => .ok (decodeSimple (trim s))
      | some left =>
        (Outcome.mapM (decode p)
          (tokens (trim s) (findLast '>' (trim s)) (left + 1))).bind
          fun ps => decodeByName (bracketHead (trim s) left).1 p (bracketHead (trim s) left).2 ps := by
  simp only [decode]
  rw [decodeF]
  cases hl : findFirst '<' (trim s) with
  | none => rfl
  | some left =>
    have hlt := findFirst_lt hl
    have htl := trim_length_le s
    simp only
    rw [Outcome.mapM_congr (g := decode p)]
    intro t ht
    have := tokens_length ht
    show _ = decodeF (t.length + 1) p t
    exact decodeF_fuel p (t.length + 1) _ _ t (by omega) (by omega) (by omega)

/-! ## Splitting -/

/-- Text the comma scanner passes over without a change of its counter. -/
def Inert (w : Str) : Prop :=
  ∀ rest cnt i, 0 ≤ cnt → scanComma (w ++ rest) cnt i = scanComma rest cnt (i + w.length)

/-- Text the comma scanner passes over when it is inside brackets. -/
def InertIn (w : Str) : Prop :=
  ∀ rest cnt i, 0 < cnt → scanComma (w ++ rest) cnt i = scanComma rest cnt (i + w.length)

theorem Inert.inertIn {w : Str} (h : Inert w) : InertIn w :=
  fun rest cnt i hc => h rest cnt i (by omega)

theorem inert_of_plain {w : Str} (h : ∀ c ∈ w, c ≠ '<' ∧ c ≠ '>' ∧ c ≠ ',') : Inert w := by
  induction w with
  | nil => intro rest cnt i _; simp
  | cons d ds ih =>
    intro rest cnt i hc
    have hd := h d (by simp)
    have := ih (fun c hc => h c (by simp [hc])) rest cnt (i + 1) hc
    simp only [List.cons_append, scanComma, hd.1, hd.2.1, hd.2.2, and_false, if_false, this,
      List.length_cons]
    congr 1; omega

theorem InertIn.append {a b : Str} (ha : InertIn a) (hb : InertIn b) : InertIn (a ++ b) := by
  intro rest cnt i hc
  rw [List.append_assoc, ha _ _ _ hc, hb _ _ _ hc, List.length_append, Nat.add_assoc]

theorem Inert.append {a b : Str} (ha : Inert a) (hb : Inert b) : Inert (a ++ b) := by
  intro rest cnt i hc
  rw [List.append_assoc, ha _ _ _ hc, hb _ _ _ hc, List.length_append, Nat.add_assoc]

theorem inertIn_comma : InertIn [','] := by
  intro rest cnt i hc
  have : cnt ≠ 0 := by omega
  simp [scanComma, this]

theorem inert_angle {w : Str} (h : InertIn w) : Inert ('<' :: w ++ ['>']) := by
  intro rest cnt i hc
  have e : ('<' :: w ++ ['>']) ++ rest = '<' :: (w ++ ('>' :: rest)) := by simp
  rw [e]
  simp only [scanComma, if_true]
  rw [h _ _ _ (by omega)]
  simp only [scanComma, if_true]
  rw [if_neg (by decide)]
  congr 1
  · omega
  · simp; omega

theorem inertIn_commas {ws : List Str} (h : ∀ w ∈ ws, Inert w) : InertIn (commas ws) := by
  induction ws with
  | nil => intro rest cnt i _; simp [commas]
  | cons w rest ih =>
    cases rest with
    | nil => simpa [commas] using (h w (by simp)).inertIn
    | cons w2 rest =>
      have e : commas (w :: w2 :: rest) = w ++ ([','] ++ commas (w2 :: rest)) := by simp [commas]
      rw [e]
      exact (h w (by simp)).inertIn.append
        (inertIn_comma.append (ih (fun x hx => h x (by simp [hx]))))

/-- The token loop recovers items separated by commas. -/
theorem tokens_commas {ws : List Str} (hne : ws ≠ []) (h : ∀ w ∈ ws, Inert w) :
    ∀ pre : Str,
    tokens (pre ++ commas ws ++ ['>']) (some (pre.length + (commas ws).length)) pre.length = ws := by
  induction ws with
  | nil => exact absurd rfl hne
  | cons w rest ih =>
    intro pre
    cases rest with
    | nil =>
      rw [tokens_eq]
      have hn : findNextComma (pre ++ commas [w] ++ ['>']) pre.length = none := by
        unfold findNextComma
        rw [List.append_assoc, List.drop_left]
        simp only [commas]
        rw [h w (by simp) _ _ _ (by omega)]
        simp [scanComma]
      rw [hn]
      simp [substrTo, commas]
    | cons w2 rest =>
      have e : commas (w :: w2 :: rest) = w ++ ',' :: commas (w2 :: rest) := by simp [commas]
      rw [tokens_eq]
      have hn : findNextComma (pre ++ commas (w :: w2 :: rest) ++ ['>']) pre.length
          = some (pre.length + w.length) := by
        unfold findNextComma
        rw [List.append_assoc, List.drop_left, e, List.append_assoc,
          h w (by simp) _ _ _ (by omega)]
        simp [scanComma]
      rw [hn]
      simp only
      have hs : pre ++ commas (w :: w2 :: rest) ++ ['>'] =
          (pre ++ w ++ [',']) ++ commas (w2 :: rest) ++ ['>'] := by simp [e]
      have hl : pre.length + (commas (w :: w2 :: rest)).length =
          (pre ++ w ++ [',']).length + (commas (w2 :: rest)).length := by
        simp [e]; omega
      have hp : pre.length + w.length + 1 = (pre ++ w ++ [',']).length := by simp; omega
      have ht : ((pre ++ commas (w :: w2 :: rest) ++ ['>']).drop pre.length).take
          (pre.length + w.length - pre.length) = w := by
        rw [List.append_assoc, List.drop_left, e, List.append_assoc]
        have : pre.length + w.length - pre.length = w.length := by omega
        rw [this, List.take_left]
      rw [ht, hs, hl, hp, ih (by simp) (fun x hx => h x (by simp [hx]))]

/-! ## One level of bracketed text -/

/-- A base name as it occurs in the code: non-empty, lower case, made of letters. -/
structure IsName (name : Str) : Prop where
  ne : name ≠ []
  letters : ∀ c ∈ name, 97 ≤ c.toNat ∧ c.toNat ≤ 122

theorem IsName.lower {name : Str} (h : IsName name) : name.map toLower = name := by
  have : ∀ c ∈ name, toLower c = id c := by
    intro c hc
    have := h.letters c hc
    exact toLower_eq_self (by omega)
  rw [List.map_congr_left this]; simp

theorem IsName.not_mem {name : Str} (h : IsName name) {c : Char}
    (hc : ¬ (97 ≤ c.toNat ∧ c.toNat ≤ 122)) : c ∉ name := fun hm => hc (h.letters c hm)

theorem isSpace_letter {c : Char} (h : 33 ≤ c.toNat) : isSpace c = false := by
  have : ∀ d : Char, d.toNat < 33 → c ≠ d := by
    rintro d hd rfl; omega
  simp [isSpace, this ' ' (by decide), this '\n' (by decide), this '\r' (by decide),
    this '\t' (by decide), this '\x0c' (by decide), this '\x0b' (by decide)]

theorem bracketHead_angle {name : Str} (hn : IsName name) (n : Bool) (inner : Str) :
    bracketHead (name ++ mark n ++ '<' :: inner ++ ['>']) (name ++ mark n).length =
      (if n = true ∧ '?' ∈ inner then name ++ ['?'] else name, n) := by
  have hlen : 0 < name.length := List.length_pos_iff.mpr hn.ne
  have hq : '?' ∉ name := hn.not_mem (by decide)
  have hlow := hn.lower
  unfold bracketHead
  dsimp only
  rw [findLast_map_toLower (by decide) (by decide)]
  cases n with
  | false =>
    obtain ⟨name', c, rfl⟩ : ∃ l c, name = l ++ [c] := by
      exact ⟨_, _, (List.dropLast_concat_getLast hn.ne).symm⟩
    have hc : c ≠ '?' := by rintro rfl; simp at hq
    have : toLower c = c := by
      have := hn.letters c (by simp)
      exact toLower_eq_self (by omega)
    have hnone : ¬ (1 < (name' ++ [c] ++ mark false).length ∧
        ((name' ++ [c] ++ mark false ++ '<' :: inner ++ ['>']).map toLower)[
          (name' ++ [c] ++ mark false).length - 1]? = some '?') := by
      rintro ⟨_, h2⟩
      simp [mark, this, hc] at h2
    simp only [hnone, decide_false, if_false, Bool.false_eq_true, false_and]
    simp only [mark, List.append_nil, List.map_append] at hlow ⊢
    congr 1
    rw [show ∀ a b c d : Str, a ++ b ++ c ++ d = (a ++ b) ++ (c ++ d) from by simp]
    rw [List.take_left' (by simp)]
    exact hlow
  | true =>
    have h1 : (1 < (name ++ mark true).length ∧
        ((name ++ mark true ++ '<' :: inner ++ ['>']).map toLower)[
          (name ++ mark true).length - 1]? = some '?') := by
      refine ⟨by simp [mark]; omega, ?_⟩
      simp [mark]
      decide
    simp only [h1, and_self, decide_true, if_true, true_and]
    by_cases hin : '?' ∈ inner
    · obtain ⟨a, b, rfl, hb, _⟩ : ∃ a b, inner = a ++ '?' :: b ∧ '?' ∉ b ∧ True := by
        cases hl : findLast '?' inner with
        | none => exact absurd hin (findLast_eq_none.mp hl)
        | some i => obtain ⟨a, b, e, hb, _⟩ := findLast_some hl; exact ⟨a, b, e, hb, trivial⟩
      have e : name ++ mark true ++ '<' :: (a ++ '?' :: b) ++ ['>'] =
          (name ++ mark true ++ '<' :: a) ++ '?' :: (b ++ ['>']) := by simp
      rw [e, findLast_append (by simp [hb])]
      simp only [hin, if_true]
      rw [Nat.min_eq_left (by simp), ← e]
      simp only [mark, List.map_append, hlow]
      congr 1
      rw [show ∀ a b c d : Str, a ++ b ++ c ++ d = (a ++ b) ++ (c ++ d) from by simp]
      rw [List.take_left' (by simp)]
      simp; decide
    · have e : name ++ mark true ++ '<' :: inner ++ ['>'] =
          name ++ '?' :: ('<' :: inner ++ ['>']) := by simp [mark]
      rw [e, findLast_append (by simp [hin])]
      simp only [hin, if_false]
      rw [Nat.min_eq_right (by simp), List.map_append, hlow, List.take_left' (by simp)]

/-- Decoding one level of `name?<a,b,...>`: the items are decoded, and the base name is
wrong exactly when the outer mark is followed by another one. -/
theorem decode_angle {name : Str} (hn : IsName name) (n p : Bool) {ws : List Str}
    (hne : ws ≠ []) (hin : ∀ w ∈ ws, Inert w) :
    decode p (name ++ mark n ++ '<' :: commas ws ++ ['>']) =
      (Outcome.mapM (decode p) ws).bind fun ps =>
        decodeByName (if n = true ∧ '?' ∈ commas ws then name ++ ['?'] else name) p n ps := by
  have htrim : trim (name ++ mark n ++ '<' :: commas ws ++ ['>']) =
      name ++ mark n ++ '<' :: commas ws ++ ['>'] := by
    apply trim_eq_self
    · intro c hc
      cases name with
      | nil => exact absurd rfl hn.ne
      | cons d ds =>
        simp at hc; subst hc
        have := hn.letters d (by simp)
        exact isSpace_letter (by omega)
    · intro c hc
      rw [List.getLast?_concat] at hc
      cases hc; decide
  have hlt : '<' ∉ name ++ mark n := by
    have : '<' ∉ name := hn.not_mem (by decide)
    cases n <;> simp [mark, this]
  have hfirst : findFirst '<' (name ++ mark n ++ '<' :: commas ws ++ ['>']) =
      some (name ++ mark n).length := by
    rw [List.append_assoc, List.cons_append]
    exact findFirst_append hlt
  have hlast : findLast '>' (name ++ mark n ++ '<' :: commas ws ++ ['>']) =
      some ((name ++ mark n ++ ['<']).length + (commas ws).length) := by
    rw [findLast_append (by simp)]
    simp; omega
  have htok : tokens (name ++ mark n ++ '<' :: commas ws ++ ['>'])
      (some ((name ++ mark n ++ ['<']).length + (commas ws).length))
      ((name ++ mark n).length + 1) = ws := by
    have := tokens_commas hne hin (name ++ mark n ++ ['<'])
    rw [show name ++ mark n ++ '<' :: commas ws ++ ['>'] =
      name ++ mark n ++ ['<'] ++ commas ws ++ ['>'] by simp]
    simpa [Nat.add_assoc] using this
  rw [decode_eq, htrim, hfirst]
  simp only
  rw [hlast, htok, bracketHead_angle hn]

/-! ## Text without brackets -/

theorem decode_simple (p : Bool) {s : Str} (h : '<' ∉ trim s) :
    decode p s = .ok (decodeSimple (trim s)) := by
  rw [decode_eq, findFirst_eq_none.mpr h]

theorem trim_natText (n : Nat) : trim (natText n) = natText n := by
  apply trim_eq_self <;> intro c hc
  · have := (isDigit_iff c).mp (natText_digits n c (List.mem_of_head? hc))
    exact isSpace_letter (by omega)
  · have := (isDigit_iff c).mp (natText_digits n c (List.mem_of_getLast? hc))
    exact isSpace_letter (by omega)

theorem natText_map_toLower (n : Nat) : (natText n).map toLower = natText n := by
  have : ∀ c ∈ natText n, toLower c = id c := by
    intro c hc
    have := (isDigit_iff c).mp (natText_digits n c hc)
    exact toLower_eq_self (by omega)
  rw [List.map_congr_left this]; simp

theorem natText_not_mem (n : Nat) {c : Char} (h : isDigit c = false) : c ∉ natText n := by
  intro hm; rw [natText_digits n c hm] at h; cases h

/-- Every name in the scalar table starts with a letter. -/
theorem scalarOfName_head {base : Str} {k : Scalar} (h : scalarOfName base = some k) :
    ∃ c, base.head? = some c ∧ isDigit c = false := by
  have hall : ∀ e ∈ scalarTable, ∃ c, e.1.head? = some c ∧ isDigit c = false := by
    decide +revert
  unfold scalarOfName at h
  cases hf : scalarTable.find? (fun e => e.1 = base) with
  | none => rw [hf] at h; cases h
  | some e =>
    have h1 := List.mem_of_find?_eq_some hf
    have h2 := List.find?_some hf
    obtain rfl : e.1 = base := by simpa using h2
    exact hall e h1

theorem decode_natText (p : Bool) (n : Nat) :
    decode p (natText n) = .ok (.lit (natText n) false false) := by
  have ht := trim_natText n
  rw [decode_simple p (by rw [ht]; exact natText_not_mem n (by decide)), ht]
  congr 1
  have hl : (natText n).getLast? ≠ some '?' := by
    intro h; exact natText_not_mem n (by decide) (List.mem_of_getLast? h)
  have hs : scalarOfName (natText n) = none := by
    cases h : scalarOfName (natText n) with
    | none => rfl
    | some k =>
      obtain ⟨c, hc, hd⟩ := scalarOfName_head h
      rw [natText_digits n c (List.mem_of_head? hc)] at hd; cases hd
  have ha : "any".toList.isPrefixOf (natText n) = false := by
    cases h : natText n with
    | nil => rfl
    | cons c cs =>
      have : c ≠ 'a' := by
        rintro rfl
        exact absurd (natText_digits n 'a' (by rw [h]; simp)) (by decide)
      simp [List.isPrefixOf]
      intro e; exact absurd e.symm this
  have hi : NumberUtils.isInteger (natText n) = true := by
    simp [NumberUtils.isInteger, isNonNegativeInteger_natText]
  unfold decodeSimple
  simp only [natText_map_toLower, hl, if_false, hs, ha, hi]
  rfl

theorem intText_of_nonneg {i : Int} (h : 0 ≤ i) : intText i = natText i.toNat := by
  cases i with
  | ofNat n => rfl
  | negSucc n => exact absurd h (by simp)

end Verif.Ty
