import Verif.Lemmas.Lexer
import Verif.Lemmas.TypeProto

/-!
# Lexing a text piece by piece

`lex_step` cuts one token off a text.  The lemmas after it say which token stands at the
start of a text.
-/

namespace Verif.Lex

open Verif

/-! ## Every token has a character -/

theorem keywordRule_pos (s : Str) (m : Match) (h : keywordRule s = some m) : 1 ≤ m.2 := by
  obtain ⟨w, hw, h1, -⟩ := keywordRule_some s m h
  have := (keyword_letters _ hw).1
  rw [h1]
  cases w with
  | nil => exact absurd rfl this
  | cons _ _ => simp

theorem symbolRule_pos (s : Str) (m : Match) (h : symbolRule s = some m) : 1 ≤ m.2 := by
  unfold symbolRule at h
  split at h <;> simp at h <;> subst h <;> simp

theorem identifierRule_pos (s : Str) (m : Match) (h : identifierRule s = some m) : 1 ≤ m.2 := by
  unfold identifierRule at h
  split at h
  · split at h
    · simp at h; subst h; simp
    · simp at h
  · simp at h

theorem numberRule_pos (s : Str) (m : Match) (h : numberRule s = some m) : 1 ≤ m.2 := by
  unfold numberRule at h
  split at h
  · split at h
    · simp at h
    · simp at h; subst h; simp
  · split at h
    · simp at h
    · rename_i h1
      simp at h; subst h
      exact Nat.one_le_iff_ne_zero.mpr h1

theorem stringLen_pos : ∀ (s : Str) (slash : Bool) (n m : Nat), stringLen slash n s = some m →
    n < m
  | [], _, _, _, h => by simp [stringLen] at h
  | c :: cs, slash, n, m, h => by
    have ih := stringLen_pos cs
    simp only [stringLen] at h
    split at h
    · split at h
      · cases hl : stringLen false (n + 1) cs with
        | none => simp [hl] at h; omega
        | some k => have := ih false (n + 1) k hl; simp [hl] at h; omega
      · simp at h; omega
    · have := ih _ _ _ h; omega

theorem stringRule_pos (s : Str) (m : Match) (h : stringRule s = some m) : 1 ≤ m.2 := by
  unfold stringRule at h
  split at h
  · rename_i r
    cases hl : stringLen false 1 r with
    | none => simp [hl] at h
    | some k =>
      have := stringLen_pos r false 1 k hl
      simp [hl] at h; subst h; simp; omega
  · simp at h

theorem rawRule_pos (t : Str) (one : Bool) (s : Str) (m : Match) (h : rawRule t one s = some m) :
    1 ≤ m.2 := by
  have hm : m = (.string, m.2) := by
    unfold rawRule at h
    split at h
    · rw [Option.map_eq_some_iff] at h
      obtain ⟨n, -, h⟩ := h
      rw [← h]
    · simp at h
  rw [hm] at h
  obtain ⟨b, r, hb, -, -, hn, -⟩ := (rawRule_iff t one s m.2).mp h
  cases b with
  | nil => exact absurd rfl hb
  | cons _ _ => simp at hn; omega

theorem commentRule_pos (s : Str) (m : Match) (h : commentRule s = some m) : 1 ≤ m.2 := by
  unfold commentRule at h
  split at h
  · simp only at h
    split at h <;> simp at h <;> subst h <;> simp
  · simp at h

theorem spaceRule_pos (s : Str) (m : Match) (h : spaceRule s = some m) : 1 ≤ m.2 := by
  unfold spaceRule at h
  split at h
  · split at h
    · simp at h; subst h; simp
    · simp at h
  · simp at h

theorem lexDefault_pos (s : Str) (m : Match) (h : lexDefault s = some m) : 1 ≤ m.2 := by
  have := longest_mem _ _ h
  simp only [List.mem_cons, List.not_mem_nil, or_false] at this
  rcases this with h | h | h | h | h | h | h | h | h | h
  · exact keywordRule_pos s m h.symm
  · exact symbolRule_pos s m h.symm
  · exact identifierRule_pos s m h.symm
  · exact numberRule_pos s m h.symm
  · exact stringRule_pos s m h.symm
  · exact rawRule_pos _ _ s m h.symm
  · exact rawRule_pos _ _ s m h.symm
  · exact rawRule_pos _ _ s m h.symm
  · exact commentRule_pos s m h.symm
  · exact spaceRule_pos s m h.symm

theorem uriRule_pos (s : Str) (m : Match) (h : uriRule s = some m) : 1 ≤ m.2 := by
  have key : ∀ n : Nat, (if n = 0 then none else some (Tk.uri, n)) = some m → 1 ≤ m.2 := by
    intro n hn
    by_cases h0 : n = 0
    · simp [h0] at hn
    · rw [if_neg h0] at hn
      simp only [Option.some.injEq] at hn
      rw [← hn]
      exact Nat.one_le_iff_ne_zero.mpr h0
  exact key _ h

theorem lexExtensions_pos (s : Str) (m : Match) (h : lexExtensions s = some m) : 1 ≤ m.2 := by
  have := longest_mem _ _ h
  simp only [List.mem_cons, List.not_mem_nil, or_false] at this
  rcases this with h | h | h
  · exact uriRule_pos s m h.symm
  · split at h
    · simp at h; subst h; simp
    · simp at h
  · exact spaceRule_pos s m h.symm

theorem lexOne_pos (md : Mode) (s : Str) (m : Match) (h : lexOne md s = some m) : 1 ≤ m.2 := by
  cases md
  · exact lexDefault_pos s m h
  · exact lexExtensions_pos s m h

/-! ## Steps -/

/-- More rounds than characters change nothing. -/
theorem lexF_fuel : ∀ (f g : Nat) (m : Mode) (s : Str), s.length ≤ f → s.length ≤ g →
    lexF f m s = lexF g m s
  | _, _, _, [], _, _ => by simp [lexF]
  | 0, _, _, _ :: _, h, _ => by simp at h
  | _, 0, _, _ :: _, _, h => by simp at h
  | f + 1, g + 1, m, c :: cs, hf, hg => by
    simp only [lexF]
    cases h : lexOne m (c :: cs) with
    | none => rfl
    | some r =>
      obtain ⟨k, n⟩ := r
      have hp := lexOne_pos _ _ _ h
      simp only at hp
      have hl : ((c :: cs).drop n).length ≤ cs.length := by simp; omega
      simp at hf hg
      simp only
      rw [lexF_fuel f g _ ((c :: cs).drop n) (by omega) (by omega)]

/-- What a token adds to the stream. -/
def seen (k : Tk) (a : Str) : List Token := if hidden k then [] else [⟨k, a⟩]

/-- A text `a` in front of `rest` that is one token of kind `k`. -/
structure Step (a rest : Str) (k : Tk) : Prop where
  nonempty : a ≠ []
  match_ : lexDefault (a ++ rest) = some (k, a.length)
  mode : k ≠ .extensionSpace

theorem lex_step (a rest : Str) (k : Tk) (h : Step a rest k) :
    lex (a ++ rest) = (lex rest).map (seen k a ++ ·) := by
  obtain ⟨hne, hm, hk⟩ := h
  cases a with
  | nil => exact absurd rfl hne
  | cons c a =>
    have hmode : nextMode .default k = .default := by
      cases k <;> first | rfl | exact absurd rfl hk
    have hm' : lexDefault (c :: (a ++ rest)) = some (k, a.length + 1) := hm
    have hd : (c :: (a ++ rest)).drop (a.length + 1) = rest := by simp
    have ht : (c :: (a ++ rest)).take (a.length + 1) = c :: a := by simp
    show lexF (a ++ rest).length.succ .default (c :: (a ++ rest)) = _
    simp only [lexF, lexOne, hm', hd, ht, hmode]
    rw [lexF_fuel (a ++ rest).length rest.length .default rest (by simp) (by omega)]
    show _ = (lexF rest.length .default rest).map (seen k (c :: a) ++ ·)
    cases lexF rest.length .default rest with
    | none => rfl
    | some ts =>
      simp only [seen, Option.map_some]
      split <;> rfl

/-- `lex` of a text that starts with one token. -/
theorem lex_cons (a rest : Str) (k : Tk) (ts : List Token) (h : Step a rest k)
    (hr : lex rest = some ts) : lex (a ++ rest) = some (seen k a ++ ts) := by
  rw [lex_step a rest k h, hr]; rfl

/-! ## Which token stands at the start -/

/-- The signs of one character, except the minus sign. -/
def signs : List (Char × Tk) :=
  [(':', .colon), (';', .semicolon), ('{', .leftBrace), ('}', .rightBrace), ('(', .leftParen),
   (')', .rightParen), (',', .comma), ('.', .period), ('=', .equal), ('[', .leftBracket),
   (']', .rightBracket), ('_', .underscore), ('<', .leftAngle), ('>', .rightAngle),
   ('?', .question), ('@', .atSign)]

theorem lexDefault_other (c : Char) (rest : Str) (h : isLetter c = false) (hd : isDigit c = false)
    (hn : c ∉ ['-', '"', '`', '/']) :
    lexDefault (c :: rest) = longest [symbolRule (c :: rest), spaceRule (c :: rest)] := by
  simp only [List.mem_cons, List.not_mem_nil, or_false, not_or] at hn
  obtain ⟨h1, h2, h3, h4⟩ := hn
  have e1 : keywordRule (c :: rest) = none := keywordRule_none _ _ h
  have e2 : identifierRule (c :: rest) = none := by simp [identifierRule, h]
  have e3 : numberRule (c :: rest) = none := by
    unfold numberRule
    split
    · rename_i heq; simp at heq; exact absurd heq.1 h1
    · have : unsignedLen (c :: rest) = 0 := by
        simp [unsignedLen, digitsLen, List.takeWhile, hd]
      simp [this]
  have e4 : stringRule (c :: rest) = none := by
    unfold stringRule
    split
    · rename_i heq; simp at heq; exact absurd heq.1 h2
    · rfl
  have e5 : ∀ t one, rawRule ('`' :: t) one (c :: rest) = none := by
    intro t one
    have : ('`' == c) = false := by simp; exact fun h => h3 h.symm
    simp [rawRule, List.isPrefixOf, this]
  have e6 : commentRule (c :: rest) = none := by
    unfold commentRule
    split
    · rename_i heq; simp at heq; exact absurd heq.1 h4
    · rfl
  simp only [lexDefault, e1, e2, e3, e4, e6, show "`".toList = ['`'] from rfl,
    show "``".toList = ['`', '`'] from rfl, show "```".toList = ['`', '`', '`'] from rfl, e5,
    longest]

theorem step_sign (c : Char) (rest : Str) (k : Tk) (h : (c, k) ∈ signs) : Step [c] rest k := by
  simp only [signs, List.mem_cons, List.not_mem_nil, or_false, Prod.mk.injEq] at h
  rcases h with ⟨rfl, rfl⟩ | ⟨rfl, rfl⟩ | ⟨rfl, rfl⟩ | ⟨rfl, rfl⟩ | ⟨rfl, rfl⟩ | ⟨rfl, rfl⟩ |
    ⟨rfl, rfl⟩ | ⟨rfl, rfl⟩ | ⟨rfl, rfl⟩ | ⟨rfl, rfl⟩ | ⟨rfl, rfl⟩ | ⟨rfl, rfl⟩ | ⟨rfl, rfl⟩ |
    ⟨rfl, rfl⟩ | ⟨rfl, rfl⟩ | ⟨rfl, rfl⟩ <;>
  exact ⟨by simp,
    (lexDefault_other _ _ (by decide) (by decide) (by decide)).trans rfl, by simp⟩

theorem step_blank (c : Char) (rest : Str) (h : c = ' ' ∨ c = '\n') : Step [c] rest .spaces := by
  rcases h with rfl | rfl <;>
  exact ⟨by simp,
    (lexDefault_other _ _ (by decide) (by decide) (by decide)).trans rfl, by simp⟩

theorem step_arrow (rest : Str) : Step "->".toList rest .arrow := by
  refine ⟨by simp, ?_, by simp⟩
  have e1 : keywordRule ('-' :: '>' :: rest) = none := keywordRule_none _ _ (by decide)
  have e3 : numberRule ('-' :: '>' :: rest) = none := by
    have : unsignedLen ('>' :: rest) = 0 := by
      simp [unsignedLen, digitsLen, List.takeWhile, isDigit]
    simp [numberRule, this]
  show lexDefault ('-' :: '>' :: rest) = _
  have e : lexDefault ('-' :: '>' :: rest) = longest [keywordRule ('-' :: '>' :: rest),
      some (.arrow, 2), none, numberRule ('-' :: '>' :: rest), none, none, none, none, none,
      none] := by
    simp only [lexDefault]
    congr 1
  rw [e, e1, e3]
  rfl

/-! ### Numbers -/

/-- No numeral goes on here. -/
def NumEnd (rest : Str) : Prop :=
  ∀ c ∈ rest.head?, isDigit c = false ∧ c ≠ '.' ∧ c ≠ 'e' ∧ c ≠ 'E'

theorem digitsLen_append (d rest : Str) (hd : ∀ c ∈ d, isDigit c = true)
    (hr : ∀ c ∈ rest.head?, isDigit c = false) : digitsLen (d ++ rest) = d.length := by
  have h : (d ++ rest).takeWhile isDigit = d := by
    induction d with
    | nil =>
      cases rest with
      | nil => rfl
      | cons c r => simp [hr c (by simp)]
    | cons c d ih =>
      simp [hd c (by simp)]
      exact ih (fun x hx => hd x (by simp [hx]))
  rw [digitsLen, h]

theorem unsignedLen_append (d rest : Str) (h : TyPb.IsDigits d) (hr : NumEnd rest) :
    unsignedLen (d ++ rest) = d.length := by
  have h1 := digitsLen_append d rest h.2 (fun c hc => (hr c hc).1)
  have hd : (d ++ rest).drop d.length = rest := by simp
  have hf : fractionLen rest = 0 := by
    unfold fractionLen
    split
    · rename_i r; exact absurd rfl (hr '.' (by simp)).2.1
    · rfl
  have he : exponentLen rest = 0 := by
    unfold exponentLen
    split
    · rename_i e sg r
      have := hr e (by simp)
      simp [this.2.2.1, this.2.2.2]
    · rfl
  have hl : d.length ≠ 0 := by
    have := h.1
    simp [this]
  unfold unsignedLen
  simp only [h1, hd, hf, Nat.add_zero, he, if_neg hl]

theorem isLetter_digit (c : Char) (h : isDigit c = true) : isLetter c = false := by
  simp only [isDigit, Bool.and_eq_true, decide_eq_true_eq] at h
  simp only [isLetter, Bool.or_eq_false_iff, Bool.and_eq_false_iff, decide_eq_false_iff_not]
  omega

/-- The characters that are the only ones of their rule. -/
theorem digit_ne (c : Char) (h : isDigit c = true) (d : Char) (hd : isDigit d = false) : c ≠ d := by
  intro e; subst e; rw [h] at hd; exact absurd hd (by simp)

theorem symbolRule_digit (c : Char) (r : Str) (h : isDigit c = true) : symbolRule (c :: r) = none := by
  unfold symbolRule
  split <;> first
    | rfl
    | (rename_i heq; simp only [List.cons.injEq] at heq; rw [heq.1] at h; exact absurd h (by decide))

theorem lexDefault_digit (c : Char) (r : Str) (h : isDigit c = true) :
    lexDefault (c :: r) = numberRule (c :: r) := by
  have hl := isLetter_digit c h
  have e1 : keywordRule (c :: r) = none := keywordRule_none _ _ hl
  have e2 : identifierRule (c :: r) = none := by simp [identifierRule, hl]
  have e4 : stringRule (c :: r) = none := by
    unfold stringRule
    split
    · rename_i heq; simp at heq; rw [heq.1] at h; exact absurd h (by decide)
    · rfl
  have e5 : ∀ t one, rawRule ('`' :: t) one (c :: r) = none := by
    intro t one
    have : ('`' == c) = false := by simp; exact (digit_ne c h '`' (by decide)).symm
    simp [rawRule, List.isPrefixOf, this]
  have e6 : commentRule (c :: r) = none := by
    unfold commentRule
    split
    · rename_i heq; simp at heq; rw [heq.1] at h; exact absurd h (by decide)
    · rfl
  have e7 : spaceRule (c :: r) = none := by
    have hb : isBlank c = false := by
      simp [isBlank, digit_ne c h ' ' (by decide), digit_ne c h '\x0b' (by decide),
        digit_ne c h '\t' (by decide), digit_ne c h '\r' (by decide), digit_ne c h '\n' (by decide)]
    simp [spaceRule, hb]
  simp only [lexDefault, e1, symbolRule_digit c r h, e2, e4, e6, e7,
    show "`".toList = ['`'] from rfl, show "``".toList = ['`', '`'] from rfl,
    show "```".toList = ['`', '`', '`'] from rfl, e5, longest]
  cases numberRule (c :: r) <;> rfl

theorem step_digits (d rest : Str) (h : TyPb.IsDigits d) (hr : NumEnd rest) :
    Step d rest .number := by
  refine ⟨h.1, ?_, by simp⟩
  have hu := unsignedLen_append d rest h hr
  cases d with
  | nil => exact absurd rfl h.1
  | cons c d =>
    have hc := h.2 c (by simp)
    show lexDefault (c :: (d ++ rest)) = _
    rw [lexDefault_digit c _ hc]
    unfold numberRule
    split
    · rename_i heq; simp at heq; rw [heq.1] at hc; exact absurd hc (by decide)
    · have hu' : unsignedLen (c :: (d ++ rest)) = (c :: d).length := hu
      rw [hu']
      simp

theorem step_negative (d rest : Str) (h : TyPb.IsDigits d) (hr : NumEnd rest) :
    Step ('-' :: d) rest .number := by
  refine ⟨by simp, ?_, by simp⟩
  have hu := unsignedLen_append d rest h hr
  cases d with
  | nil => exact absurd rfl h.1
  | cons c d =>
    have hc := h.2 c (by simp)
    have e1 : keywordRule ('-' :: (c :: d ++ rest)) = none := keywordRule_none _ _ (by decide)
    have e2 : symbolRule ('-' :: (c :: d ++ rest)) = some (.minus, 1) := by
      have : c ≠ '>' := digit_ne c hc '>' (by decide)
      simp [symbolRule, this]
    have e3 : numberRule ('-' :: (c :: d ++ rest)) = some (.number, (c :: d).length + 1) := by
      simp only [numberRule, hu]
      simp
    show lexDefault ('-' :: (c :: d ++ rest)) = _
    have e : lexDefault ('-' :: (c :: d ++ rest)) = longest [keywordRule ('-' :: (c :: d ++ rest)),
        symbolRule ('-' :: (c :: d ++ rest)), none, numberRule ('-' :: (c :: d ++ rest)), none,
        none, none, none, none, none] := by
      simp only [lexDefault]
      congr 1
    rw [e, e1, e2, e3]
    simp [longest]

theorem step_int (i : Int) (rest : Str) (hr : NumEnd rest) : Step (intText i) rest .number := by
  cases i with
  | ofNat n => exact step_digits _ _ (TyPb.isDigits_natText n) hr
  | negSucc n => exact step_negative _ _ (TyPb.isDigits_natText (n + 1)) hr

/-! ### Words and names -/

/-- The characters of identifiers: letters, digits, dollar signs and underscores. -/
def isNameChar (c : Char) : Bool := isWordChar c || c = '_'

/-- No identifier goes on here. -/
def NameEnd (rest : Str) : Prop := ∀ c ∈ rest.head?, isNameChar c = false

theorem isNameChar_letter (c : Char) (h : isNameChar c = false) :
    isLetter c = false ∧ isWordChar c = false ∧ c ≠ '_' := by
  simp only [isNameChar, isWordChar, Bool.or_eq_false_iff, decide_eq_false_iff_not] at *
  exact ⟨h.1.1.1, h.1, h.2⟩

theorem fixedRule_name (s rest w : Str) (k : Tk) (hr : NameEnd rest)
    (hw : ∀ c ∈ w, 97 ≤ c.toNat ∧ c.toNat ≤ 122 ∨ c = '_') :
    fixedRule (s ++ rest) w k = fixedRule s w k := by
  have e : ((s ++ rest).take w.length).map toLower = w ↔ (s.take w.length).map toLower = w := by
    by_cases hl : w.length ≤ s.length
    · rw [List.take_append_of_le_length hl]
    · constructor
      · intro h
        exfalso
        cases rest with
        | nil =>
          rw [List.append_nil] at h
          have := congrArg List.length h
          simp at this
          omega
        | cons c r =>
          have hc := isNameChar_letter c (hr c (by simp))
          have h1 : w[s.length]? = some (toLower c) := by
            rw [← h, List.getElem?_map, List.getElem?_take_of_lt (by omega)]
            simp
          have h2 := hw _ (List.mem_of_getElem? h1)
          rcases h2 with h2 | h2
          · have h3 : isLetter (toLower c) = true := by
              simp only [isLetter, Bool.or_eq_true, Bool.and_eq_true, decide_eq_true_eq]
              omega
            rw [isLetter_toLower, hc.1] at h3
            exact absurd h3 (by simp)
          · have h3 := toLower_toNat c
            rw [h2] at h3
            split at h3
            · have h4 : ('_' : Char).toNat = 95 := rfl
              rename_i h5
              omega
            · apply hc.2.2
              have h4 : ('_' : Char).toNat = c.toNat := h3
              exact Char.toNat_inj.mp h4.symm
      · intro h
        have := congrArg List.length h
        simp at this
        omega
  unfold fixedRule
  by_cases h : (s.take w.length).map toLower = w
  · rw [if_pos h, if_pos (e.mpr h)]
  · rw [if_neg h, if_neg (fun h' => h (e.mp h'))]

theorem keywordRule_name (s rest : Str) (hr : NameEnd rest) :
    keywordRule (s ++ rest) = keywordRule s := by
  unfold keywordRule
  congr 1
  apply List.map_congr_left
  intro e he
  exact fixedRule_name s rest e.1 e.2 hr (keyword_letters e he).2.2

theorem takeWhile_name (s rest : Str) (hr : NameEnd rest) :
    (s ++ rest).takeWhile isWordChar = s.takeWhile isWordChar := by
  induction s with
  | nil =>
    cases rest with
    | nil => rfl
    | cons c r => simp [(isNameChar_letter c (hr c (by simp))).2.1]
  | cons c s ih =>
    simp only [List.cons_append, List.takeWhile_cons, ih]

theorem letter_cases (c : Char) (h : isLetter c = true) (d : Char) (hd : isLetter d = false) :
    c ≠ d := by
  intro e; subst e; rw [h] at hd; exact absurd hd (by simp)

theorem lexDefault_letter (c : Char) (r : Str) (h : isLetter c = true) :
    lexDefault (c :: r) = longest [keywordRule (c :: r), identifierRule (c :: r)] := by
  have hne := letter_cases c h
  have hd : isDigit c = false := by
    rcases Bool.eq_false_or_eq_true (isDigit c) with hd | hd
    · rw [isLetter_digit c hd] at h; exact absurd h (by simp)
    · exact hd
  have e1 : symbolRule (c :: r) = none := by
    unfold symbolRule
    split <;> first
      | rfl
      | (rename_i heq; simp only [List.cons.injEq] at heq; rw [heq.1] at h; exact absurd h (by decide))
  have e3 : numberRule (c :: r) = none := by
    unfold numberRule
    split
    · rename_i heq; simp at heq; exact absurd heq.1 (hne '-' (by decide))
    · have : unsignedLen (c :: r) = 0 := by
        simp [unsignedLen, digitsLen, List.takeWhile, hd]
      simp [this]
  have e4 : stringRule (c :: r) = none := by
    unfold stringRule
    split
    · rename_i heq; simp at heq; exact absurd heq.1 (hne '"' (by decide))
    · rfl
  have e5 : ∀ t one, rawRule ('`' :: t) one (c :: r) = none := by
    intro t one
    have : ('`' == c) = false := by simp; exact (hne '`' (by decide)).symm
    simp [rawRule, List.isPrefixOf, this]
  have e6 : commentRule (c :: r) = none := by
    unfold commentRule
    split
    · rename_i heq; simp at heq; exact absurd heq.1 (hne '/' (by decide))
    · rfl
  have e7 : spaceRule (c :: r) = none := by
    have hb : isBlank c = false := by
      simp [isBlank, hne ' ' (by decide), hne '\x0b' (by decide),
        hne '\t' (by decide), hne '\r' (by decide), hne '\n' (by decide)]
    simp [spaceRule, hb]
  simp only [lexDefault, e1, e3, e4, e6, e7,
    show "`".toList = ['`'] from rfl, show "``".toList = ['`', '`'] from rfl,
    show "```".toList = ['`', '`', '`'] from rfl, e5, longest]

/-- The end of a name does not depend on what follows it. -/
theorem lexDefault_name (c : Char) (s rest : Str) (hc : isLetter c = true ∨ c = '_')
    (hr : NameEnd rest) : lexDefault (c :: s ++ rest) = lexDefault (c :: s) := by
  rcases hc with hc | rfl
  · have hk := keywordRule_name (c :: s) rest hr
    rw [List.cons_append] at hk ⊢
    rw [lexDefault_letter _ _ hc, lexDefault_letter _ _ hc, hk]
    have hi : identifierRule (c :: (s ++ rest)) = identifierRule (c :: s) := by
      simp only [identifierRule, takeWhile_name s rest hr]
    rw [hi]
  · rw [List.cons_append, lexDefault_other _ _ (by decide) (by decide) (by decide),
      lexDefault_other _ _ (by decide) (by decide) (by decide)]
    rfl

/-- A word followed by something that does not continue it. -/
theorem step_word (c : Char) (s rest : Str) (k : Tk) (hc : isLetter c = true) (hr : NameEnd rest)
    (h : lexDefault (c :: s) = some (k, s.length + 1)) (hk : k ≠ .extensionSpace) :
    Step (c :: s) rest k :=
  ⟨by simp, (lexDefault_name c s rest (.inl hc) hr).trans h, hk⟩

/-- The kinds of the tokens in an identifier. -/
def idKind (k : Tk) : Bool :=
  k = .underscore || k = .identifier || k = .filter || k = .root || k = .source || k = .schema ||
  k = .null || k = .sort || k = .measure || k = .grouping || k = .count || k = .type ||
  k = .emit || k = .named || k = .all || k = .any || k = .comparison

theorem lexDefault_kind_digit (c : Char) (r : Str) (k : Tk) (n : Nat) (h : isDigit c = true)
    (hl : lexDefault (c :: r) = some (k, n)) : k = .number := by
  rw [lexDefault_digit c r h] at hl
  unfold numberRule at hl
  split at hl
  · rename_i heq; simp at heq; rw [heq.1] at h; exact absurd h (by decide)
  · split at hl
    · simp at hl
    · simp at hl; exact hl.1.symm

theorem lex_split (c : Char) (s : Str) (ts : List Token) (h : lex (c :: s) = some ts) :
    ∃ k n ts', lexDefault (c :: s) = some (k, n) ∧ 1 ≤ n ∧
      lexF s.length (nextMode .default k) ((c :: s).drop n) = some ts' ∧
      ts = (if hidden k then ts' else ⟨k, (c :: s).take n⟩ :: ts') := by
  have h' : lexF (s.length + 1) .default (c :: s) = some ts := h
  simp only [lexF, lexOne] at h'
  cases hm : lexDefault (c :: s) with
  | none => simp [hm] at h'
  | some m =>
    obtain ⟨k, n⟩ := m
    simp only [hm] at h'
    cases hr : lexF s.length (nextMode .default k) ((c :: s).drop n) with
    | none => simp [hr] at h'
    | some ts' =>
      simp [hr] at h'
      exact ⟨k, n, ts', rfl, lexDefault_pos _ _ hm, hr, h'.symm⟩

/-- A name in front of something that does not continue it. -/
theorem lex_name : ∀ (len : Nat) (s rest : Str) (ts : List Token), s.length ≤ len →
    (∀ c ∈ s, isNameChar c = true) → lex s = some ts → (∀ t ∈ ts, idKind t.kind = true) →
    NameEnd rest → lex (s ++ rest) = (lex rest).map (ts ++ ·)
  | _, [], rest, ts, _, _, h, _, _ => by
    simp [lex, lexF] at h
    subst h
    simp
  | 0, _ :: _, _, _, hl, _, _, _, _ => by simp at hl
  | len + 1, c :: s, rest, ts, hl, hs, h, hk, hr => by
    obtain ⟨k, n, ts', hm, hn, hf, hts⟩ := lex_split c s ts h
    have hc : isLetter c = true ∨ c = '_' := by
      rcases Bool.eq_false_or_eq_true (isLetter c) with h1 | h1
      · exact .inl h1
      · right
        have h2 := hs c (by simp)
        simp only [isNameChar, isWordChar, h1, Bool.false_or, Bool.or_eq_true,
          decide_eq_true_eq] at h2
        rcases h2 with (h2 | h2) | h2
        · have := lexDefault_kind_digit c s k n h2 hm
          subst this
          have h3 := hk ⟨.number, (c :: s).take n⟩ (by rw [hts]; simp [hidden])
          simp [idKind] at h3
        · subst h2
          rw [lexDefault_other _ _ (by decide) (by decide) (by decide)] at hm
          have : longest [symbolRule ('$' :: s), spaceRule ('$' :: s)] = none := rfl
          rw [this] at hm
          simp at hm
        · exact h2
    have hnn : n ≤ (c :: s).length := by
      rcases hc with hc | rfl
      · rw [lexDefault_letter _ _ hc] at hm
        have := longest_mem _ _ hm
        simp only [List.mem_cons, List.not_mem_nil, or_false] at this
        rcases this with h1 | h1
        · obtain ⟨w, -, h2, h3⟩ := keywordRule_some _ _ h1.symm
          simp only at h2
          have := congrArg List.length h3
          simp at this
          simp; omega
        · simp [identifierRule, hc] at h1
          have := (List.takeWhile_sublist (l := s) isWordChar).length_le
          simp; omega
      · rw [lexDefault_other _ _ (by decide) (by decide) (by decide)] at hm
        have : longest [symbolRule ('_' :: s), spaceRule ('_' :: s)] = some (.underscore, 1) := rfl
        rw [this] at hm
        simp at hm; simp; omega
    have hke : k ≠ .extensionSpace := by
      intro e
      subst e
      have h3 := hk ⟨.extensionSpace, (c :: s).take n⟩ (by rw [hts]; simp [hidden])
      simp [idKind] at h3
    have hmode : nextMode .default k = .default := by
      cases k <;> first | rfl | exact absurd rfl hke
    rw [hmode] at hf
    have ht' : ∀ t ∈ ts', idKind t.kind = true := by
      intro t ht
      apply hk
      rw [hts]
      split
      · exact ht
      · exact List.mem_cons_of_mem _ ht
    have hlen : ((c :: s).drop n).length ≤ s.length := by simp; omega
    have hlex : lex ((c :: s).drop n) = some ts' := by
      rw [← hf]
      exact lexF_fuel _ _ _ _ (Nat.le_refl _) hlen
    have ih := lex_name len ((c :: s).drop n) rest ts' (by simp at hl; omega)
      (fun x hx => hs x (List.mem_of_mem_drop hx)) hlex ht' hr
    have hsplit : c :: s ++ rest = (c :: s).take n ++ ((c :: s).drop n ++ rest) := by
      rw [← List.append_assoc, List.take_append_drop]
    have hstep : Step ((c :: s).take n) ((c :: s).drop n ++ rest) k := by
      refine ⟨?_, ?_, hke⟩
      · cases n with
        | zero => omega
        | succ n => simp
      · rw [← hsplit, lexDefault_name c s rest hc hr, hm]
        simp only [List.length_take]
        rw [Nat.min_eq_left hnn]
    rw [hsplit, lex_step _ _ _ hstep, ih, hts, seen, Option.map_map]
    split <;> rfl

end Verif.Lex
