import Verif.Model.StringLiteral
import Verif.Model.Lexer
import Verif.Spec.StringLiteral
import Verif.Lemmas.Strings

/-! # Lemmas on string literals -/

namespace Verif.StrLit

open Verif

/-! ## The loop on lists -/

/-- One round on the rest of the text: output, error, characters consumed. -/
def unit : Str → Str × Bool × Nat
  | [] => ([], false, 0)
  | [c] => ([c], false, 1)
  | c :: d :: rest =>
    if c = '\\' then
      match simpleEscape d with
      | some v => ([v], false, 2)
      | none =>
        if d = 'x' then
          if 2 ≤ rest.length then
            match simpleHexAtoi 32 (rest.take 2) with
            | some hex => ([lowByte hex], false, 4)
            | none => (['\\', 'x'], false, 2)
          else (['\\', 'x'], false, 2)
        else if d = 'u' then
          if 2 ≤ rest.length then
            if rest.head? ≠ some '{' then ([], false, 2)
            else if findFirst '}' rest.tail ≠ some 0 then
              match simpleHexAtoi 64 (match findFirst '}' rest.tail with
                | some n => rest.tail.take n
                | none => rest.tail) with
              | some hex => (unicodeBytes (findFirst '}' rest.tail) hex, false,
                  match findFirst '}' rest.tail with
                  | some n => n + 4
                  | none => 3)
              | none => (['\\', 'u'], true, 2)
            else (['\\', 'u'], true, 2)
          else (['\\', 'u'], true, 2)
        else (['\\', d], true, 2)
    else ([c], false, 1)

theorem charAt_append (p : Str) (c : Char) (s : Str) : charAt (p ++ c :: s) p.length = .ok c := by
  simp [charAt]

theorem charAt_append_one (p : Str) (c d : Char) (s : Str) :
    charAt (p ++ c :: d :: s) (p.length + 1) = .ok d := by
  have := charAt_append (p ++ [c]) d s
  simpa using this

theorem charAt_append_two (p : Str) (c d e : Char) (s : Str) :
    charAt (p ++ c :: d :: e :: s) (p.length + 2) = .ok e := by
  have := charAt_append (p ++ [c, d]) e s
  simpa using this

theorem substr_append (p q s : Str) (n : Nat) :
    substr (p ++ q ++ s) (p.length + q.length) n = .ok (s.take n) := by
  have h : p.length + q.length ≤ (p ++ q ++ s).length := by simp
  rw [substr, if_pos h]
  have : (p ++ q ++ s).drop (p.length + q.length) = s := by
    rw [← List.length_append, List.drop_left]
  rw [this]

theorem subSize_le (a b : Nat) (h : b ≤ a) : subSize a b = a - b := by simp [subSize, h]

theorem escapeX_append (p rest : Str) :
    escapeX (p ++ '\\' :: 'x' :: rest) '\\' p.length =
      .ok ⟨(unit ('\\' :: 'x' :: rest)).1, (unit ('\\' :: 'x' :: rest)).2.1,
        p.length + (unit ('\\' :: 'x' :: rest)).2.2⟩ := by
  have hse : simpleEscape 'x' = none := by decide
  have hsub := substr_append p ['\\', 'x'] rest 2
  simp only [List.append_assoc, List.cons_append, List.nil_append, List.length_cons,
    List.length_nil, Nat.zero_add] at hsub
  by_cases h : 2 ≤ rest.length
  · have hc : p.length < subSize (p ++ '\\' :: 'x' :: rest).length 3 := by
      rw [subSize_le _ _ (by simp; omega)]; simp; omega
    rw [escapeX, if_pos hc]
    rw [hsub]
    simp only [Outcome.bind_ok, unit, if_true, hse, h]
    cases simpleHexAtoi 32 (List.take 2 rest) <;> rfl
  · have hu : unit ('\\' :: 'x' :: rest) = (['\\', 'x'], false, 2) := by
      simp [unit, hse, h]
    rw [hu]
    unfold escapeX
    split
    · rename_i hc
      have hr : rest = [] := by
        cases rest with
        | nil => rfl
        | cons a r =>
          exfalso
          rw [subSize_le _ _ (by simp; omega)] at hc
          simp only [List.length_append, List.length_cons] at hc h
          omega
      subst hr
      rw [hsub]
      rfl
    · rfl

theorem escapeU_append (p rest : Str) (hp : ¬ (p = [] ∧ rest = [])) :
    escapeU (p ++ '\\' :: 'u' :: rest) '\\' p.length =
      .ok ⟨(unit ('\\' :: 'u' :: rest)).1, (unit ('\\' :: 'u' :: rest)).2.1,
        p.length + (unit ('\\' :: 'u' :: rest)).2.2⟩ := by
  have hse : simpleEscape 'u' = none := by decide
  by_cases h : 2 ≤ rest.length
  · obtain ⟨a, rest, rfl⟩ : ∃ a r, rest = a :: r := by
      cases rest with
      | nil => simp at h
      | cons a r => exact ⟨a, r, rfl⟩
    have hc : p.length < subSize (p ++ '\\' :: 'u' :: a :: rest).length 3 := by
      rw [subSize_le _ _ (by simp; omega)]; simp at h ⊢; omega
    have hsub := substr_append p ['\\', 'u', a] rest (p ++ '\\' :: 'u' :: a :: rest).length
    simp only [List.append_assoc, List.cons_append, List.nil_append, List.length_cons,
      List.length_nil, Nat.zero_add] at hsub
    rw [escapeU, if_pos hc, charAt_append_two]
    simp only [Outcome.bind_ok]
    by_cases ha : a = '{'
    · subst ha
      simp only [List.length_append, List.length_cons] at hsub ⊢
      rw [if_neg (by simp), hsub]
      rw [List.take_of_length_le (by omega)]
      have hu : unit ('\\' :: 'u' :: '{' :: rest) =
          if findFirst '}' rest ≠ some 0 then
              match simpleHexAtoi 64 (match findFirst '}' rest with
                | some n => rest.take n
                | none => rest) with
              | some hex => (unicodeBytes (findFirst '}' rest) hex, false,
                  match findFirst '}' rest with
                  | some n => n + 4
                  | none => 3)
              | none => (['\\', 'u'], true, 2)
            else (['\\', 'u'], true, 2) := by
        have h' : 2 ≤ rest.length + 1 := by simpa using h
        by_cases hx : findFirst '}' rest = some 0 <;> simp [unit, hse, h', hx]
      rw [hu]
      simp only [Outcome.bind_ok]
      by_cases hx : findFirst '}' rest = some 0
      · rw [if_neg (by simp [hx]), if_neg (by simp [hx])]
        rfl
      · rw [if_pos hx, if_pos hx]
        cases hf : findFirst '}' rest with
        | none =>
          simp only
          cases simpleHexAtoi 64 rest <;> rfl
        | some n =>
          simp only
          cases simpleHexAtoi 64 (rest.take n) <;> rfl
    · have hu : unit ('\\' :: 'u' :: a :: rest) = ([], false, 2) := by
        have h' : 2 ≤ rest.length + 1 := by simpa using h
        simp [unit, hse, h', ha]
      rw [if_pos ha, hu]
  · have hu : unit ('\\' :: 'u' :: rest) = (['\\', 'u'], true, 2) := by
      simp [unit, hse, h]
    rw [hu]
    have hc : ¬ p.length < subSize (p ++ '\\' :: 'u' :: rest).length 3 := by
      rw [subSize_le _ _ ?_]
      · simp; omega
      · simp only [List.length_append, List.length_cons]
        have : 0 < p.length ∨ 0 < rest.length := by
          cases p with
          | nil => cases rest with
            | nil => exact absurd ⟨rfl, rfl⟩ hp
            | cons => simp
          | cons => simp
        omega
    rw [escapeU, if_neg hc]
    rfl

/-- One round of the loop looks only at the rest of the text, unless the whole text is
`\u`. -/
theorem escapeRound_append (p s : Str) (hs : s ≠ []) (hu : ¬ (p = [] ∧ s = ['\\', 'u'])) :
    escapeRound (p ++ s) p.length = .ok ⟨(unit s).1, (unit s).2.1, p.length + (unit s).2.2⟩ := by
  cases s with
  | nil => exact absurd rfl hs
  | cons c s =>
    rw [escapeRound, charAt_append]
    simp only [Outcome.bind_ok]
    cases s with
    | nil =>
      rw [if_neg (by rw [subSize_le _ _ (by simp)]; simp)]
      rfl
    | cons d rest =>
      by_cases hc : c = '\\'
      · subst hc
        rw [if_pos ⟨rfl, by rw [subSize_le _ _ (by simp; omega)]; simp⟩, charAt_append_one]
        simp only [Outcome.bind_ok]
        cases hse : simpleEscape d with
        | some v => simp [unit, hse]
        | none =>
          by_cases hx : d = 'x'
          · subst hx; simp only [if_true]; exact escapeX_append p rest
          · by_cases hd : d = 'u'
            · subst hd
              simp only [hx, if_false, if_true]
              refine escapeU_append p rest fun h => hu ⟨h.1, ?_⟩
              rw [h.2]
            · simp only [hx, hd, if_false, unknownEscape, unit, hse, if_true]
      · rw [if_neg (fun h => hc h.1)]
        simp [unit, hc]

theorem unit_pos (s : Str) (hs : s ≠ []) : 1 ≤ (unit s).2.2 := by
  cases s with
  | nil => exact absurd rfl hs
  | cons c s =>
    cases s with
    | nil => simp [unit]
    | cons d rest =>
      simp only [unit]
      split
      · split
        · simp
        · split
          · split
            · split <;> simp
            · simp
          · split
            · split
              · split
                · simp
                · split
                  · split
                    · split <;> simp
                    · simp
                  · simp
              · simp
            · simp
      · simp

theorem findFirst_lt (c : Char) : ∀ (s : Str) (n : Nat), findFirst c s = some n → n < s.length
  | [], n, h => by simp [findFirst] at h
  | d :: ds, n, h => by
    simp only [findFirst] at h
    split at h
    · simp at h; subst h; simp
    · cases hf : findFirst c ds with
      | none => simp [hf] at h
      | some m =>
        simp [hf] at h
        have := findFirst_lt c ds m hf
        subst h; simpa using this

theorem unit_le (s : Str) : (unit s).2.2 ≤ s.length := by
  cases s with
  | nil => simp [unit]
  | cons c s =>
    cases s with
    | nil => simp [unit]
    | cons d rest =>
      simp only [unit]
      split
      · split
        · simp
        · split
          · split
            · split
              · simp; omega
              · simp
            · simp
          · split
            · split
              · split
                · simp
                · split
                  · split
                    · split
                      · rename_i n hn
                        have := findFirst_lt _ _ _ hn
                        simp at this ⊢; omega
                      · simp; omega
                    · simp
                  · simp
              · simp
            · simp
      · simp

/-- The loop on the rest of the text; `i` is the position of the rest. -/
def scan : Nat → Nat → Str → Str × List Nat
  | 0, _, _ => ([], [])
  | _, _, [] => ([], [])
  | fuel + 1, i, c :: s =>
    let u := unit (c :: s)
    let r := scan fuel (i + u.2.2) ((c :: s).drop u.2.2)
    (u.1 ++ r.1, if u.2.1 then i :: r.2 else r.2)

theorem scan_nil (fuel i : Nat) : scan fuel i [] = ([], []) := by cases fuel <;> rfl

theorem scan_cons (fuel i : Nat) (s : Str) (hs : s ≠ []) :
    scan (fuel + 1) i s =
      ((unit s).1 ++ (scan fuel (i + (unit s).2.2) (s.drop (unit s).2.2)).1,
        if (unit s).2.1 then i :: (scan fuel (i + (unit s).2.2) (s.drop (unit s).2.2)).2
        else (scan fuel (i + (unit s).2.2) (s.drop (unit s).2.2)).2) := by
  cases s with
  | nil => exact absurd rfl hs
  | cons c s => rfl

theorem scan_fuel : ∀ (f g i : Nat) (s : Str), s.length ≤ f → s.length ≤ g →
    scan f i s = scan g i s
  | 0, g, i, s, hf, _ => by
    have : s = [] := List.length_eq_zero_iff.mp (by omega)
    subst this; rw [scan_nil, scan_nil]
  | f + 1, 0, i, s, _, hg => by
    have : s = [] := List.length_eq_zero_iff.mp (by omega)
    subst this; rw [scan_nil, scan_nil]
  | f + 1, g + 1, i, s, hf, hg => by
    by_cases hs : s = []
    · subst hs; rw [scan_nil, scan_nil]
    · rw [scan_cons _ _ _ hs, scan_cons _ _ _ hs]
      have h1 := unit_pos s hs
      have h2 : 0 < s.length := List.length_pos_iff.mpr hs
      rw [scan_fuel f g _ _ (by rw [List.length_drop]; omega) (by rw [List.length_drop]; omega)]

theorem escapeLoop_append : ∀ (fuel : Nat) (p s : Str), s.length ≤ fuel →
    ¬ (p = [] ∧ s = ['\\', 'u']) →
    escapeLoop (p ++ s) fuel p.length = .ok (scan fuel p.length s)
  | fuel, p, s, hf, hu => by
    by_cases hs : s = []
    · subst hs
      rw [scan_nil]
      unfold escapeLoop
      rw [if_neg (by simp)]
    · have hl : 0 < s.length := List.length_pos_iff.mpr hs
      cases fuel with
      | zero => omega
      | succ fuel =>
        unfold escapeLoop
        rw [if_pos (by rw [List.length_append]; omega)]
        simp only
        rw [escapeRound_append p s hs hu]
        simp only [Outcome.bind_ok]
        have h1 := unit_pos s hs
        have h2 := unit_le s
        have ih := escapeLoop_append fuel (p ++ s.take (unit s).2.2) (s.drop (unit s).2.2)
          (by rw [List.length_drop]; omega) (by
            rintro ⟨h, -⟩
            have := congrArg List.length h
            rw [List.length_append, List.length_take, Nat.min_eq_left h2, List.length_nil] at this
            omega)
        rw [List.append_assoc, List.take_append_drop, List.length_append, List.length_take,
          Nat.min_eq_left h2] at ih
        rw [ih, scan_cons _ _ _ hs]
        rfl

theorem escapeText_u : escapeText ['\\', 'u'] = .ok ([], []) := by decide +kernel

/-- Exact behaviour of `escapeText`. -/
theorem escapeText_eq (s : Str) (h : s ≠ ['\\', 'u']) :
    escapeText s = .ok (scan s.length 0 s) :=
  escapeLoop_append s.length [] s (Nat.le_refl _) (fun hh => h hh.2)

/-! ## Numerals -/

theorem hexDigit_of_isHex (c : Char) (n : Nat) (h : IsHex c n) : hexDigit c = some n := by
  have key : ∀ e ∈ hexTable, hexDigit e.1 = some e.2 := by decide
  exact key _ h

theorem hexDigit_lt (c : Char) (n : Nat) (h : hexDigit c = some n) : n < 16 := by
  unfold hexDigit at h
  split at h
  · simp at h; omega
  · split at h
    · simp at h; omega
    · split at h
      · simp at h; omega
      · simp at h

theorem hexVal_append : ∀ (s t : Str) (acc : Nat),
    hexVal acc (s ++ t) = (hexVal acc s).bind fun a => hexVal a t
  | [], t, acc => rfl
  | c :: cs, t, acc => by
    simp only [List.cons_append, hexVal]
    cases hexDigit c with
    | none => rfl
    | some d => exact hexVal_append cs t _

theorem hexVal_of_numeral (s : Str) (n : Nat) (h : HexNumeral s n) : hexVal 0 s = some n := by
  induction h with
  | nil => rfl
  | snoc s c n d _ hd ih =>
    rw [hexVal_append, ih]
    simp [hexVal, hexDigit_of_isHex c d hd]

theorem numeral_lt (s : Str) (n : Nat) (h : HexNumeral s n) : n < 16 ^ s.length := by
  induction h with
  | nil => simp
  | snoc s c n d _ hd ih =>
    have := hexDigit_lt c d (hexDigit_of_isHex c d hd)
    rw [List.length_append, List.length_singleton, Nat.pow_succ]
    omega

theorem numeral_chars (s : Str) (n : Nat) (h : HexNumeral s n) :
    ∀ c ∈ s, ∃ d, IsHex c d := by
  induction h with
  | nil => simp
  | snoc s c n d _ hd ih =>
    intro e he
    rcases List.mem_append.mp he with h | h
    · exact ih e h
    · rw [List.mem_singleton] at h; subst h; exact ⟨d, hd⟩

theorem isHex_not_special (c : Char) (d : Nat) (h : IsHex c d) :
    StringUtils.isSpace c = false ∧ c ≠ '-' ∧ c ≠ '+' ∧ c ≠ 'x' ∧ c ≠ 'X' ∧ c ≠ '}' := by
  have hd := hexDigit_of_isHex c d h
  refine ⟨?_, ?_, ?_, ?_, ?_, ?_⟩
  · cases hs : StringUtils.isSpace c with
    | false => rfl
    | true =>
      exfalso
      simp only [StringUtils.isSpace, Bool.or_eq_true, decide_eq_true_eq] at hs
      have key : ∀ e ∈ [' ', '\n', '\r', '\t', '\x0c', '\x0b'], hexDigit e = none := by decide
      rw [key c (by simp; rcases hs with ((((h | h) | h) | h) | h) | h <;> simp [h])] at hd
      exact absurd hd (by simp)
  all_goals
    rintro rfl
    revert hd
    have : ∀ d, hexDigit '-' ≠ some d ∧ hexDigit '+' ≠ some d ∧ hexDigit 'x' ≠ some d ∧
      hexDigit 'X' ≠ some d ∧ hexDigit '}' ≠ some d := by
      intro d
      have h1 : hexDigit '-' = none := by decide
      have h2 : hexDigit '+' = none := by decide
      have h3 : hexDigit 'x' = none := by decide
      have h4 : hexDigit 'X' = none := by decide
      have h5 : hexDigit '}' = none := by decide
      simp [h1, h2, h3, h4, h5]
    have := this d
    simp [this]

theorem dropHexPrefix_eq (s : Str) (h : ∀ c ∈ s, c ≠ 'x' ∧ c ≠ 'X') : dropHexPrefix s = s := by
  unfold dropHexPrefix
  split
  · exact absurd rfl (h 'x' (by simp)).1
  · exact absurd rfl (h 'X' (by simp)).2
  · rfl

theorem simpleHexAtoi_numeral (bits n : Nat) (ds : Str) (h : HexNumeral ds n) (hne : ds ≠ [])
    (hn : n < 2 ^ (bits - 1)) : simpleHexAtoi bits ds = some (n : Int) := by
  have hc : ∀ c ∈ ds, StringUtils.isSpace c = false ∧ c ≠ '-' ∧ c ≠ '+' ∧ c ≠ 'x' ∧ c ≠ 'X' ∧
      c ≠ '}' := by
    intro c hc
    obtain ⟨d, hd⟩ := numeral_chars ds n h c hc
    exact isHex_not_special c d hd
  have ht : StringUtils.trim ds = ds :=
    StringUtils.trim_eq_self (fun c h1 => (hc c (List.mem_of_head? h1)).1)
      (fun c h1 => (hc c (List.mem_of_getLast? h1)).1)
  have hp := dropHexPrefix_eq ds fun c h1 => ⟨(hc c h1).2.2.2.1, (hc c h1).2.2.2.2.1⟩
  have hv := hexVal_of_numeral ds n h
  have hu : dropPlus ds = ds := by
    unfold dropPlus
    split
    · exact absurd rfl (hc '+' (by simp)).2.2.1
    · rfl
  unfold simpleHexAtoi
  rw [ht]
  split
  · exact absurd rfl (hc '-' (by simp_all)).2.1
  · simp only [hu, hp, hne, if_false, hv, hn, if_true]

theorem lowByte_nat (n : Nat) (h : n < 256) : lowByte (n : Int) = Char.ofNat n := by
  unfold lowByte
  congr 1
  omega

theorem unit_unicode (ds s : Str) (n : Nat) (h : HexNumeral ds n) (hne : ds ≠ [])
    (hl : ds.length ≤ 6) :
    unit ('\\' :: 'u' :: '{' :: ds ++ ['}'] ++ s) =
      (unicodeBytes (some ds.length) n, false, ds.length + 4) := by
  have hse : simpleEscape 'u' = none := by decide
  have hlen : 0 < ds.length := List.length_pos_iff.mpr hne
  have hnb : '}' ∉ ds := by
    intro hb
    obtain ⟨d, hd⟩ := numeral_chars ds n h '}' hb
    exact (isHex_not_special _ d hd).2.2.2.2.2 rfl
  have hf : findFirst '}' (ds ++ '}' :: s) = some ds.length := by
    exact findFirst_append hnb
  have hlt := numeral_lt ds n h
  have hpow : 16 ^ ds.length ≤ 16 ^ 6 := Nat.pow_le_pow_right (by decide) hl
  have ha := simpleHexAtoi_numeral 64 n ds h hne (by
    have : (16 : Nat) ^ 6 < 2 ^ (64 - 1) := by decide
    omega)
  have h2 : 2 ≤ (ds ++ '}' :: s).length + 1 := by simp; omega
  have e : '\\' :: 'u' :: '{' :: ds ++ ['}'] ++ s = '\\' :: 'u' :: '{' :: (ds ++ '}' :: s) := by
    simp
  rw [e]
  simp only [unit, if_true, hse, List.length_cons, h2, List.head?_cons, List.tail_cons, hf,
    List.take_left, ha]
  simp [Nat.ne_of_gt hlen]

theorem unit_piece (t v s : Str) (h : Piece t v) : unit (t ++ s) = (v, false, t.length) := by
  cases h with
  | plain c hc => cases s <;> simp [unit, hc]
  | byte a b n hn =>
    have hse : simpleEscape 'x' = none := by decide
    have hlt := numeral_lt _ _ hn
    have ha := simpleHexAtoi_numeral 32 n [a, b] hn (by simp) (by
      have : (16 : Nat) ^ 2 < 2 ^ (32 - 1) := by decide
      simp at hlt
      omega)
    have hb := lowByte_nat n (by simpa using hlt)
    simp [unit, hse, ha, hb]
  | one ds n hn h1 h2 =>
    rw [unit_unicode ds s n hn (by intro h; simp [h] at h1) (by omega)]
    have hlt := numeral_lt _ _ hn
    have hpow : 16 ^ ds.length ≤ 16 ^ 2 := Nat.pow_le_pow_right (by decide) h2
    simp only [unicodeBytes, h2, if_true]
    rw [lowByte_nat n (by omega)]
    simp
  | two ds a b hn ha hb h1 h2 =>
    rw [unit_unicode ds s _ hn (by intro h; simp [h] at h1) (by omega)]
    have e1 : ((256 * a + b : Nat) : Int) / 256 = (a : Int) := by omega
    have e2 : lowByte ((256 * a + b : Nat) : Int) = Char.ofNat b := by
      unfold lowByte; congr 1; omega
    simp only [unicodeBytes, h2, if_true, Nat.not_le.mpr h1, if_false, e1, e2,
      lowByte_nat a ha]
    simp
  | three ds a b c hn ha hb hc h1 h2 =>
    rw [unit_unicode ds s _ hn (by intro h; simp [h] at h1) (by omega)]
    have e1 : lowByte (((65536 * a + 256 * b + c : Nat) : Int) / 65536) = Char.ofNat a := by
      unfold lowByte; congr 1; omega
    have e2 : lowByte (((65536 * a + 256 * b + c : Nat) : Int) / 256) = Char.ofNat b := by
      unfold lowByte; congr 1; omega
    have e3 : lowByte ((65536 * a + 256 * b + c : Nat) : Int) = Char.ofNat c := by
      unfold lowByte; congr 1; omega
    simp only [unicodeBytes, h2, if_true, if_false, e1, e2, e3,
      show ¬ ds.length ≤ 2 by omega, show ¬ ds.length ≤ 4 by omega]
    simp
  | _ => rfl

theorem piece_ne_nil (t v : Str) (h : Piece t v) : t ≠ [] := by
  cases h <;> simp

/-- Well-formed pieces in front of any text. -/
theorem scan_pieces (t v s : Str) (i : Nat) (h : Pieces t v) :
    scan (t ++ s).length i (t ++ s) =
      (v ++ (scan s.length (i + t.length) s).1, (scan s.length (i + t.length) s).2) := by
  induction h generalizing i with
  | nil => simp
  | cons t v ts vs hp _ ih =>
    have hne := piece_ne_nil t v hp
    have hpos : 0 < t.length := List.length_pos_iff.mpr hne
    have hu := unit_piece t v (ts ++ s) hp
    rw [List.append_assoc]
    obtain ⟨f, hf⟩ : ∃ f, (t ++ (ts ++ s)).length = f + 1 :=
      ⟨(t ++ (ts ++ s)).length - 1, by rw [List.length_append]; omega⟩
    rw [hf, scan_cons _ _ _ (by simp [hne]), hu]
    simp only [List.drop_left, Bool.false_eq_true, if_false]
    rw [scan_fuel f (ts ++ s).length _ _ (by rw [List.length_append] at hf; omega) (Nat.le_refl _),
      ih]
    simp [List.append_assoc, Nat.add_assoc]

/-! ## The printer -/

theorem pieces_stringEscape : ∀ (v : Str), '\\' ∉ v → Pieces (stringEscape v) v
  | [], _ => .nil
  | c :: cs, h => by
    have ih := pieces_stringEscape cs (fun hc => h (by simp [hc]))
    unfold stringEscape
    split
    · rename_i hc
      subst hc
      exact .cons ['\\', '"'] ['"'] _ _ .doubleQuote ih
    · exact .cons [c] [c] _ _ (.plain c (by rintro rfl; simp at h)) ih

end Verif.StrLit
