import Verif.Model.Lexer
import Verif.Spec.StringLiteral
import Verif.Lemmas.Strings

/-! # Lemmas on the lexer -/

namespace Verif.Lex

open Verif StrLit

/-! ## Longest match -/

theorem longest_mem : ∀ (l : List (Option Match)) (m : Match), longest l = some m → some m ∈ l
  | [], m, h => by simp [longest] at h
  | a :: l, m, h => by
    simp only [longest] at h
    cases a with
    | none => exact List.mem_cons_of_mem _ (longest_mem l m h)
    | some a =>
      cases hl : longest l with
      | none => simp [hl] at h; simp [h]
      | some b =>
        simp only [hl] at h
        split at h
        · simp at h; subst h; exact List.mem_cons_of_mem _ (longest_mem l _ hl)
        · simp at h; simp [h]

theorem longest_none : ∀ (l : List (Option Match)), (∀ m ∈ l, m = none) → longest l = none
  | [], _ => rfl
  | a :: l, h => by
    have := longest_none l (fun m hm => h m (by simp [hm]))
    rw [h a (by simp)] at *
    simp [longest, this]

theorem longest_ge : ∀ (l : List (Option Match)) (m a : Match), longest l = some m →
    some a ∈ l → a.2 ≤ m.2
  | [], m, a, h, _ => by simp [longest] at h
  | b :: l, m, a, h, ha => by
    simp only [longest] at h
    cases hl : longest l with
    | none =>
      have hnone : ∀ x : Match, some x ∉ l := by
        intro x hx
        have : ∀ (l : List (Option Match)), longest l = none → some x ∉ l := by
          intro l
          induction l with
          | nil => simp
          | cons y l ih =>
            intro hl
            cases y with
            | none => simp only [longest] at hl; simp [ih hl]
            | some y =>
              simp only [longest] at hl
              cases hl' : longest l with
              | none => simp [hl'] at hl
              | some z => simp only [hl'] at hl; split at hl <;> simp at hl
        exact this l hl hx
      rcases List.mem_cons.mp ha with h1 | h1
      · subst h1; simp [hl] at h; subst h; omega
      · exact absurd h1 (hnone a)
    | some z =>
      have ih := longest_ge l z
      rcases List.mem_cons.mp ha with h1 | h1
      · subst h1
        simp only [hl] at h
        split at h
        · simp at h; subst h; omega
        · simp at h; subst h; omega
      · have := ih a hl h1
        cases b with
        | none => simp only [hl] at h; simp at h; subst h; omega
        | some b =>
          simp only [hl] at h
          split at h
          · simp at h; subst h; omega
          · simp at h; subst h; omega

/-- The first rule wins if no later one is longer. -/
theorem longest_cons_some (a : Match) (l : List (Option Match))
    (h : ∀ b, some b ∈ l → b.2 ≤ a.2) : longest (some a :: l) = some a := by
  simp only [longest]
  cases hl : longest l with
  | none => rfl
  | some b =>
    have := h b (longest_mem l b hl)
    simp only
    rw [if_neg (by omega)]

theorem longest_cons_none (l : List (Option Match)) : longest (none :: l) = longest l := rfl

/-- A later rule wins if it is strictly longer. -/
theorem longest_cons_lt (a b : Match) (l : List (Option Match)) (h : longest l = some b)
    (hlt : a.2 < b.2) : longest (some a :: l) = some b := by
  simp [longest, h, hlt]

/-! ## Words -/

theorem keyword_letters : ∀ e ∈ keywords, e.1 ≠ [] ∧
    (∀ c ∈ e.1.head?, isLetter c = true) ∧ (∀ c ∈ e.1, 97 ≤ c.toNat ∧ c.toNat ≤ 122 ∨ c = '_') := by
  decide

theorem isLetter_toLower (c : Char) : isLetter (toLower c) = isLetter c := by
  have h := toLower_toNat c
  unfold isLetter
  rw [h]
  split
  · rw [Bool.eq_iff_iff]
    simp only [Bool.or_eq_true, Bool.and_eq_true, decide_eq_true_eq]
    omega
  · rfl

theorem isDigit_toLower (c : Char) : isDigit (toLower c) = isDigit c := by
  have h := toLower_toNat c
  unfold isDigit
  rw [h]
  split
  · rw [Bool.eq_iff_iff]
    simp only [Bool.or_eq_true, Bool.and_eq_true, decide_eq_true_eq]
    omega
  · rfl

theorem fixedRule_some (s w : Str) (k : Tk) (m : Match) (h : fixedRule s w k = some m) :
    m = (k, w.length) ∧ (s.take w.length).map toLower = w := by
  unfold fixedRule at h
  split at h
  · rename_i h1; simp at h; exact ⟨h.symm, h1⟩
  · simp at h

theorem keywordRule_some (s : Str) (m : Match) (h : keywordRule s = some m) :
    ∃ w, (w, m.1) ∈ keywords ∧ m.2 = w.length ∧ (s.take w.length).map toLower = w := by
  have := longest_mem _ _ h
  rw [List.mem_map] at this
  obtain ⟨e, he, h1⟩ := this
  obtain ⟨h2, h3⟩ := fixedRule_some _ _ _ _ h1
  subst h2
  exact ⟨e.1, he, rfl, h3⟩

theorem keywordRule_none (c : Char) (s : Str) (h : isLetter c = false) :
    keywordRule (c :: s) = none := by
  cases hk : keywordRule (c :: s) with
  | none => rfl
  | some m =>
    exfalso
    obtain ⟨w, hw, -, h3⟩ := keywordRule_some _ _ hk
    obtain ⟨h4, h5, -⟩ := keyword_letters _ hw
    cases w with
    | nil => exact h4 rfl
    | cons a w =>
      simp only [List.length_cons, List.take_succ_cons, List.map_cons, List.cons.injEq] at h3
      have := h5 a (by simp)
      rw [← h3.1, isLetter_toLower, h] at this
      exact absurd this (by simp)

theorem keywordRule_nil : keywordRule [] = none := by decide

/-! ## Strings -/

/-- What can stand before the closing quote, after a backslash or not. -/
def Inner (slash : Bool) (b : Str) : Prop := StringBody (if slash then '\\' :: b else b)

theorem inner_cons (slash : Bool) (c : Char) (b : Str) (hc : c ≠ '"') :
    Inner slash (c :: b) ↔ Inner (c = '\\') b := by
  have h1 : StringBody (c :: b) ↔ Inner (c = '\\') b := by
    unfold Inner
    by_cases h : c = '\\'
    · subst h; simp
    · simp only [h, decide_false, Bool.false_eq_true, if_false]
      constructor
      · intro hb
        cases hb with
        | char _ _ _ hb => exact hb
        | escaped => exact absurd rfl h
      · exact StringBody.char c b hc
  cases slash with
  | false => simpa [Inner] using h1
  | true =>
    rw [← h1]
    unfold Inner
    simp only [if_true]
    constructor
    · intro hb
      cases hb with
      | char _ _ _ hb => exact hb
      | escaped => exact absurd rfl hc
    · exact StringBody.char _ _ (by decide)

theorem inner_quote (b : Str) : ¬ Inner false ('"' :: b) := by
  unfold Inner
  simp only [Bool.false_eq_true, if_false]
  intro h
  cases h with
  | char _ _ h _ => exact h rfl

theorem inner_escaped (b : Str) : Inner true ('"' :: b) ↔ Inner false b := by
  unfold Inner
  simp only [if_true, Bool.false_eq_true, if_false]
  constructor
  · intro h
    cases h with
    | char _ _ _ h =>
      cases h with
      | char _ _ h _ => exact absurd rfl h
    | escaped _ h => exact h
  · exact StringBody.escaped b

theorem inner_nil (slash : Bool) : Inner slash [] := by
  cases slash
  · exact .nil
  · exact .char _ _ (by decide) .nil

/-- `stringLen` finds the longest end of a string. -/
theorem stringLen_spec : ∀ (s : Str) (slash : Bool) (n : Nat),
    (∀ m, stringLen slash n s = some m → ∃ b r, Inner slash b ∧ s = b ++ '"' :: r ∧
      m = n + b.length + 1) ∧
    (∀ b r, Inner slash b → s = b ++ '"' :: r → ∃ m, stringLen slash n s = some m ∧
      n + b.length + 1 ≤ m)
  | [], slash, n => by simp [stringLen]
  | c :: cs, slash, n => by
    by_cases hc : c = '"'
    · subst hc
      cases slash with
      | false =>
        simp only [stringLen, if_true, Bool.false_eq_true, if_false]
        refine ⟨?_, ?_⟩
        · intro m hm
          simp at hm
          exact ⟨[], cs, inner_nil _, rfl, by simp [← hm]⟩
        · intro b r hb hs
          refine ⟨n + 1, rfl, ?_⟩
          cases b with
          | nil => simp
          | cons d b =>
            simp at hs
            rw [← hs.1] at hb
            exact absurd hb (inner_quote b)
      | true =>
        have ih := stringLen_spec cs false (n + 1)
        simp only [stringLen, if_true]
        refine ⟨?_, ?_⟩
        · intro m hm
          cases hl : stringLen false (n + 1) cs with
          | none =>
            simp [hl] at hm
            exact ⟨[], cs, inner_nil _, rfl, by simp [← hm]⟩
          | some k =>
            simp [hl] at hm
            subst hm
            obtain ⟨b, r, hb, hs, hm⟩ := ih.1 k hl
            exact ⟨'"' :: b, r, (inner_escaped b).mpr hb, by simp [hs], by simp [hm]; omega⟩
        · intro b r hb hs
          cases b with
          | nil =>
            cases hl : stringLen false (n + 1) cs with
            | none => exact ⟨n + 1, rfl, by simp⟩
            | some k =>
              obtain ⟨b', r', -, -, hm⟩ := ih.1 k hl
              exact ⟨k, rfl, by simp; omega⟩
          | cons d b =>
            simp at hs
            rw [← hs.1] at hb
            obtain ⟨m, hm, hle⟩ := ih.2 b r ((inner_escaped b).mp hb) hs.2
            exact ⟨m, by simp [hm], by simp; omega⟩
    · have ih := stringLen_spec cs (decide (c = '\\')) (n + 1)
      simp only [stringLen, hc, if_false]
      refine ⟨?_, ?_⟩
      · intro m hm
        obtain ⟨b, r, hb, hs, hm⟩ := ih.1 m hm
        exact ⟨c :: b, r, (inner_cons slash c b hc).mpr hb, by simp [hs], by simp [hm]; omega⟩
      · intro b r hb hs
        cases b with
        | nil => simp at hs; exact absurd hs.1 hc
        | cons d b =>
          simp at hs
          obtain ⟨rfl, hs⟩ := hs
          obtain ⟨m, hm, hle⟩ := ih.2 b r ((inner_cons slash c b hc).mp hb) hs
          exact ⟨m, hm, by simp; omega⟩

/-- The lexer rule STRING takes the longest prefix that is a string token. -/
theorem stringRule_iff (s : Str) (n : Nat) :
    stringRule s = some (.string, n) ↔
      (∃ t r, IsStringToken t ∧ s = t ++ r ∧ n = t.length) ∧
        ∀ t r, IsStringToken t → s = t ++ r → t.length ≤ n := by
  have key : ∀ t r, IsStringToken t → s = t ++ r →
      ∃ s' b, s = '"' :: s' ∧ Inner false b ∧ s' = b ++ '"' :: r ∧ t.length = b.length + 2 := by
    rintro t r ⟨b, hb, rfl⟩ hs
    exact ⟨b ++ '"' :: r, b, by simp [hs], hb, rfl, by simp⟩
  unfold stringRule
  split
  · rename_i s'
    have sp := stringLen_spec s' false 1
    constructor
    · intro h
      cases hl : stringLen false 1 s' with
      | none => simp [hl] at h
      | some m =>
        simp [hl] at h
        subst h
        obtain ⟨b, r, hb, hs, hm⟩ := sp.1 m hl
        refine ⟨⟨'"' :: b ++ ['"'], r, ⟨b, hb, rfl⟩, by simp [hs], by simp [hm]; omega⟩, ?_⟩
        intro t r ht hs
        obtain ⟨s'', b, h1, h2, h3, h4⟩ := key t r ht hs
        simp at h1
        subst h1
        obtain ⟨m', hm', hle⟩ := sp.2 b r h2 h3
        rw [hl] at hm'
        simp at hm'
        omega
    · rintro ⟨⟨t, r, ht, hs, hn⟩, hmax⟩
      obtain ⟨s'', b, h1, h2, h3, h4⟩ := key t r ht hs
      simp at h1
      subst h1
      obtain ⟨m, hm, hle⟩ := sp.2 b r h2 h3
      obtain ⟨b', r', hb', hs', hm'⟩ := sp.1 m hm
      have := hmax ('"' :: b' ++ ['"']) r' ⟨b', hb', rfl⟩ (by simp [hs'])
      simp only [List.length_append, List.length_cons, List.length_nil] at this
      rw [hm]
      simp
      omega
  · rename_i hno
    constructor
    · intro h; simp at h
    · rintro ⟨⟨t, r, ht, hs, -⟩, -⟩
      obtain ⟨s', b, h1, -⟩ := key t r ht hs
      exact absurd h1 (hno s')

/-- A text that starts with a quote can only be a string. -/
theorem lexDefault_quote (s : Str) : lexDefault ('"' :: s) = stringRule ('"' :: s) := by
  have h : keywordRule ('"' :: s) = none := keywordRule_none _ _ (by decide)
  have e : lexDefault ('"' :: s) = longest [keywordRule ('"' :: s), none, none, none,
      stringRule ('"' :: s), none, none, none, none, none] := by
    simp only [lexDefault]
    congr 1
  rw [e, h]
  simp only [longest]
  cases stringRule ('"' :: s) <;> rfl

/-! ## Raw strings -/

/-- `rawLen` finds the first place where the closing marks stand, at least one character in. -/
theorem rawLen_some (one : Bool) (q : Str) : ∀ (s : Str) (n m : Nat),
    rawLen one q n s = some m ↔
      ∃ b r, b ≠ [] ∧ (one = true → '`' ∉ b) ∧ s = b ++ (q ++ r) ∧ m = n + b.length + q.length ∧
        ∀ b' r', b' ≠ [] → s = b' ++ (q ++ r') → b.length ≤ b'.length
  | [], n, m => by
    constructor
    · intro h; simp [rawLen] at h
    · rintro ⟨b, r, hb, -, hs, -⟩
      cases b with
      | nil => exact absurd rfl hb
      | cons _ _ => simp at hs
  | c :: cs, n, m => by
    by_cases h1 : one = true ∧ c = '`'
    · obtain ⟨h1, rfl⟩ := h1
      subst h1
      constructor
      · intro h; simp [rawLen] at h
      · rintro ⟨b, r, hb, ho, hs, -⟩
        cases b with
        | nil => exact absurd rfl hb
        | cons d b =>
          simp at hs
          exact absurd (ho rfl) (by simp [← hs.1])
    · by_cases hq : q.isPrefixOf cs = true
      · have hr : rawLen one q n (c :: cs) = some (n + 1 + q.length) := by
          rw [rawLen, if_neg h1, if_pos hq]
        rw [hr]
        obtain ⟨r, hr'⟩ := List.isPrefixOf_iff_prefix.mp hq
        constructor
        · intro h
          simp at h
          refine ⟨[c], r, by simp, ?_, by simp [hr'], by simp [h], ?_⟩
          · intro ho hm
            simp at hm
            exact h1 ⟨ho, hm.symm⟩
          · intro b' r' hb' _
            cases b' with
            | nil => exact absurd rfl hb'
            | cons _ _ => simp
        · rintro ⟨b, r2, hb, -, -, hm, hmin⟩
          have := hmin [c] r (by simp) (by simp [hr'])
          cases b with
          | nil => exact absurd rfl hb
          | cons _ b =>
            simp at this
            rw [hm]; simp [this]
      · have hr : rawLen one q n (c :: cs) = rawLen one q (n + 1) cs := by
          rw [rawLen, if_neg h1, if_neg hq]
        rw [hr, rawLen_some one q cs (n + 1) m]
        constructor
        · rintro ⟨b, r, hb, ho, hs, hm, hmin⟩
          refine ⟨c :: b, r, by simp, ?_, by simp [hs], by simp [hm]; omega, ?_⟩
          · intro h
            simp only [List.mem_cons, not_or]
            exact ⟨fun h2 => h1 ⟨h, h2.symm⟩, ho h⟩
          · intro b' r' hb' hs'
            cases b' with
            | nil => exact absurd rfl hb'
            | cons d b' =>
              simp at hs'
              cases b' with
              | nil =>
                exfalso
                apply hq
                rw [List.isPrefixOf_iff_prefix]
                exact ⟨r', by simpa using hs'.2.symm⟩
              | cons e b' =>
                have := hmin (e :: b') r' (by simp) (by simpa using hs'.2)
                simp at this ⊢
                omega
        · rintro ⟨b, r, hb, ho, hs, hm, hmin⟩
          cases b with
          | nil => exact absurd rfl hb
          | cons d b =>
            simp at hs
            obtain ⟨rfl, hs⟩ := hs
            cases b with
            | nil =>
              exfalso
              apply hq
              rw [List.isPrefixOf_iff_prefix]
              exact ⟨r, by simpa using hs.symm⟩
            | cons e b =>
              refine ⟨e :: b, r, by simp, ?_, by simpa using hs, by simp at hm ⊢; omega, ?_⟩
              · intro h hm; exact ho h (List.mem_cons_of_mem _ hm)
              · intro b' r' hb' hs'
                have := hmin (c :: b') r' (by simp) (by simp [hs'])
                simp at this ⊢
                omega

/-- A raw string is the shortest text between two groups of backticks that has a character. -/
theorem rawRule_iff (ticks : Str) (one : Bool) (s : Str) (n : Nat) :
    rawRule ticks one s = some (.string, n) ↔
      ∃ b r, b ≠ [] ∧ (one = true → '`' ∉ b) ∧ s = ticks ++ b ++ ticks ++ r ∧
        n = ticks.length + b.length + ticks.length ∧
        ∀ b' r', b' ≠ [] → s = ticks ++ b' ++ ticks ++ r' → b.length ≤ b'.length := by
  unfold rawRule
  by_cases h : ticks.isPrefixOf s = true
  · rw [if_pos h]
    obtain ⟨u, rfl⟩ := List.isPrefixOf_iff_prefix.mp h
    have e : ((rawLen one ticks ticks.length ((ticks ++ u).drop ticks.length)).map
        fun n => (Tk.string, n)) = some (.string, n) ↔ rawLen one ticks ticks.length u = some n := by
      simp
    rw [e, rawLen_some]
    simp only [List.append_assoc, List.append_cancel_left_eq]
  · rw [if_neg h]
    constructor
    · intro h; simp at h
    · rintro ⟨b, r, -, -, rfl, -⟩
      exfalso
      apply h
      rw [List.isPrefixOf_iff_prefix]
      exact ⟨b ++ ticks ++ r, by simp⟩

/-- A text that starts with a backtick can only be a raw string. -/
theorem lexDefault_tick (s : Str) : lexDefault ('`' :: s) =
    longest [rawRule "`".toList true ('`' :: s), rawRule "``".toList false ('`' :: s),
      rawRule "```".toList false ('`' :: s)] := by
  have h : keywordRule ('`' :: s) = none := keywordRule_none _ _ (by decide)
  have e : lexDefault ('`' :: s) = longest [keywordRule ('`' :: s), none, none, none, none,
      rawRule "`".toList true ('`' :: s), rawRule "``".toList false ('`' :: s),
      rawRule "```".toList false ('`' :: s), none, none] := by
    simp only [lexDefault]
    congr 1
  rw [e, h]
  simp only [longest]

end Verif.Lex
