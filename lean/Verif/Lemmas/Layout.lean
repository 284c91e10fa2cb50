import Verif.Lemmas.LexSteps
import Verif.Spec.Layout

/-! # What the lexer takes does not depend on the layout -/

namespace Verif.Lex

open Verif

/-- What ends a token, other than a string. -/
def stops (c : Char) : Bool := isBlank c || c = '/' || c = '{'

/-- Nothing is behind, or something that ends a token. -/
def Stop (y : Str) : Prop := ∀ c ∈ y.head?, stops c = true

theorem stops_cases {c : Char} (h : stops c = true) :
    c = ' ' ∨ c = '\x0b' ∨ c = '\t' ∨ c = '\r' ∨ c = '\n' ∨ c = '/' ∨ c = '{' := by
  unfold stops isBlank at h
  simp only [Bool.or_eq_true, decide_eq_true_eq] at h
  simp only [or_assoc] at h
  exact h

theorem stops_word {c : Char} (h : stops c = true) : isWordChar c = false ∧ isDigit c = false := by
  rcases stops_cases h with rfl | rfl | rfl | rfl | rfl | rfl | rfl <;> decide

/-! ## The rules: what is behind the match -/

/-- A rule whose match does not change when something is cut off behind it. -/
def Cuts (rule : Str → Option Match) : Prop :=
  ∀ p x : Str, (∀ m, rule (p ++ x) = some m → m.2 ≤ p.length) → rule p = rule (p ++ x)

/-- A rule whose match does not change when something that ends a token is put behind it. -/
def Ends (rule : Str → Option Match) : Prop :=
  ∀ p y : Str, p ≠ [] → Stop y → rule (p ++ y) = rule p

theorem fixedRule_cuts (w : Str) (k : Tk) : Cuts (fun s => fixedRule s w k) := by
  intro p x h
  unfold fixedRule at *
  simp only at h
  show (if (List.take w.length p).map toLower = w then some (k, w.length) else none) =
    (if (List.take w.length (p ++ x)).map toLower = w then some (k, w.length) else none)
  by_cases hw : w.length ≤ p.length
  · rw [List.take_append_of_le_length hw]
  · by_cases h1 : (List.take w.length (p ++ x)).map toLower = w
    · have := h (k, w.length) (by rw [if_pos h1])
      exact absurd this hw
    · rw [if_neg h1, if_neg]
      intro h2
      have := congrArg List.length h2
      rw [List.length_map, List.length_take] at this
      omega

theorem keyword_solid : ∀ e ∈ keywords, ∀ c ∈ e.1, ∀ d ∈ [' ', '\x0b', '\t', '\r', '\n', '/', '{'],
    toLower d ≠ c := by decide +kernel

theorem fixedRule_ends (e : Str × Tk) (he : e ∈ keywords) : Ends (fun s => fixedRule s e.1 e.2) := by
  intro p y _ hy
  obtain ⟨w, k⟩ := e
  unfold fixedRule
  show (if (List.take w.length (p ++ y)).map toLower = w then some (k, w.length) else none) =
    (if (List.take w.length p).map toLower = w then some (k, w.length) else none)
  by_cases hw : w.length ≤ p.length
  · simp only [List.take_append_of_le_length hw]
  · have h2 : ¬ (List.take w.length p).map toLower = w := by
      intro h2
      have := congrArg List.length h2
      rw [List.length_map, List.length_take] at this
      omega
    rw [if_neg h2, if_neg]
    intro h1
    cases y with
    | nil => rw [List.append_nil] at h1; exact h2 h1
    | cons d y =>
      have hd := stops_cases (hy d rfl)
      have hm : toLower d ∈ w := by
        rw [← h1]
        apply List.mem_map.mpr
        refine ⟨d, ?_, rfl⟩
        rw [List.take_append]
        apply List.mem_append_right
        obtain ⟨n, hn⟩ : ∃ n, w.length - p.length = n + 1 := ⟨w.length - p.length - 1, by omega⟩
        rw [hn]
        simp
      exact keyword_solid _ he _ hm d (by simp; exact hd) rfl

theorem longest_le (l : List (Option Match)) (n : Nat)
    (h : ∀ m, longest l = some m → m.2 ≤ n) : ∀ r ∈ l, ∀ m, r = some m → m.2 ≤ n := by
  intro r hr m e
  subst e
  cases hl : longest l with
  | none =>
    exfalso
    have : ∀ (l : List (Option Match)), some m ∈ l → longest l ≠ none := by
      intro l
      induction l with
      | nil => simp
      | cons a l ih =>
        intro h hn
        unfold longest at hn
        rcases List.mem_cons.mp h with rfl | h
        · cases hb : longest l <;> rw [hb] at hn <;> simp at hn
          split at hn <;> simp at hn
        · cases a with
          | none => 
            refine ih (by simpa using h) ?_
            cases hb : longest l with
            | none => rfl
            | some b => rw [hb] at hn; simp at hn
          | some a =>
            cases hb : longest l <;> rw [hb] at hn <;> simp at hn
            split at hn <;> simp at hn
    exact this l hr hl
  | some b => exact Nat.le_trans (longest_ge l b m hl hr) (h b hl)

/-- The best of some rules. -/
theorem longest_cuts (rules : List (Str → Option Match)) (h : ∀ r ∈ rules, Cuts r) :
    Cuts (fun s => longest (rules.map fun r => r s)) := by
  intro p x hm
  have key := longest_le _ _ hm
  simp only
  congr 1
  apply List.map_congr_left
  intro r hr
  exact h r hr p x fun m e => key _ (List.mem_map.mpr ⟨r, hr, rfl⟩) m e

theorem longest_ends (rules : List (Str → Option Match)) (h : ∀ r ∈ rules, Ends r) :
    Ends (fun s => longest (rules.map fun r => r s)) := by
  intro p y hp hy
  simp only
  congr 1
  apply List.map_congr_left
  intro r hr
  exact h r hr p y hp hy

theorem keywordRule_cuts : Cuts keywordRule := by
  intro p x h
  have := longest_cuts (keywords.map fun e => fun s => fixedRule s e.1 e.2) (by
    intro r hr
    obtain ⟨e, -, rfl⟩ := List.mem_map.mp hr
    exact fixedRule_cuts _ _) p x
  simp only [List.map_map] at this
  exact this h

theorem keywordRule_ends : Ends keywordRule := by
  intro p y hp hy
  have := longest_ends (keywords.map fun e => fun s => fixedRule s e.1 e.2) (by
    intro r hr
    obtain ⟨e, he, rfl⟩ := List.mem_map.mp hr
    exact fixedRule_ends e he) p y hp hy
  simp only [List.map_map] at this
  exact this

theorem symbolRule_other (c : Char) (r : Str) (h : c ∉ [':', ';', '{', '}', '(', ')', ',', '.', '=', '[', ']',
    '_', '-', '<', '>', '?', '@']) : symbolRule (c :: r) = none := by
  unfold symbolRule
  split <;> first
    | rfl
    | (rename_i heq; injection heq with h1 _; subst h1; exact absurd (by decide) h)

theorem symbolRule_one (c : Char) (r : Str) (h : c ≠ '-') : symbolRule (c :: r) = symbolRule [c] := by
  by_cases hc : c ∈ [':', ';', '{', '}', '(', ')', ',', '.', '=', '[', ']', '_', '-', '<', '>', '?', '@']
  · simp only [List.mem_cons, List.not_mem_nil, or_false] at hc
    rcases hc with rfl | rfl | rfl | rfl | rfl | rfl | rfl | rfl | rfl | rfl | rfl | rfl | rfl | rfl | rfl |
      rfl | rfl <;> first | rfl | exact absurd rfl h
  · rw [symbolRule_other c r hc, symbolRule_other c [] hc]

theorem symbolRule_minus (r : Str) (h : r.head? ≠ some '>') : symbolRule ('-' :: r) = some (.minus, 1) := by
  cases r with
  | nil => rfl
  | cons d r =>
    have hd : d ≠ '>' := by simpa using h
    unfold symbolRule
    split <;> first
      | rfl
      | (rename_i heq; injection heq with h1 h2; injection h2 with h3 _; exact absurd h3 hd)
      | (rename_i heq; injection heq with h1 _; exact absurd h1 (by decide))
      | simp_all

theorem symbolRule_arrow (r : Str) : symbolRule ('-' :: '>' :: r) = some (.arrow, 2) := rfl

theorem symbolRule_cuts : Cuts symbolRule := by
  intro p x h
  cases p with
  | nil =>
    cases hx : symbolRule ([] ++ x) with
    | none => rfl
    | some m =>
      have h1 := h m hx
      have h2 := symbolRule_pos _ _ hx
      simp at h1
      omega
  | cons c p =>
    by_cases hc : c = '-'
    · subst hc
      rw [List.cons_append] at *
      by_cases hd : (p ++ x).head? = some '>'
      · cases p with
        | nil =>
          cases x with
          | nil => rfl
          | cons d x =>
            simp at hd
            subst hd
            have := h _ (symbolRule_arrow _)
            simp at this
        | cons d p =>
          simp at hd
          subst hd
          rfl
      · rw [symbolRule_minus _ hd, symbolRule_minus]
        intro hp
        apply hd
        cases p with
        | nil => cases hp
        | cons d p => simpa using hp
    · rw [List.cons_append, symbolRule_one _ _ hc, symbolRule_one c (p ++ x) hc]

theorem symbolRule_ends : Ends symbolRule := by
  intro p y hp hy
  cases p with
  | nil => exact absurd rfl hp
  | cons c p =>
    by_cases hc : c = '-'
    · subst hc
      cases p with
      | nil =>
        rw [List.cons_append, List.nil_append, symbolRule_minus, symbolRule_minus] 
        · simp
        · intro h
          have := stops_cases (hy _ h)
          revert this
          decide
      | cons d p =>
        by_cases hd : d = '>'
        · subst hd; rfl
        · rw [List.cons_append, symbolRule_minus _ (by simpa using hd), symbolRule_minus _ (by simpa using hd)]
    · rw [List.cons_append, symbolRule_one _ _ hc, symbolRule_one c p hc]

/-! ### Words and numbers -/

theorem takeWhile_cut (f : Char → Bool) (p x : Str) (h : ((p ++ x).takeWhile f).length ≤ p.length) :
    p.takeWhile f = (p ++ x).takeWhile f := by
  induction p with
  | nil =>
    simp at h
    simp [h]
  | cons c p ih =>
    rw [List.cons_append, List.takeWhile_cons] at *
    rw [List.takeWhile_cons]
    cases hf : f c with
    | false => simp
    | true =>
      rw [hf] at h
      simp only [if_true, List.length_cons] at h ⊢
      rw [ih (by omega)]

theorem takeWhile_end (f : Char → Bool) (p y : Str) (h : ∀ c ∈ y.head?, f c = false) :
    (p ++ y).takeWhile f = p.takeWhile f := by
  induction p with
  | nil =>
    cases y with
    | nil => rfl
    | cons d y => simp [h d rfl]
  | cons c p ih =>
    rw [List.cons_append, List.takeWhile_cons, List.takeWhile_cons, ih]

theorem identifierRule_cuts : Cuts identifierRule := by
  intro p x h
  cases p with
  | nil =>
    cases hx : identifierRule ([] ++ x) with
    | none => rfl
    | some m =>
      have h1 := h m hx
      have h2 := identifierRule_pos _ _ hx
      simp at h1
      omega
  | cons c p =>
    rw [List.cons_append] at *
    unfold identifierRule at *
    simp only at *
    by_cases hc : isLetter c = true
    · rw [if_pos hc] at *
      have := h _ rfl
      simp only [List.length_cons] at this
      rw [takeWhile_cut isWordChar p x (by omega), if_pos hc]
    · rw [if_neg hc, if_neg hc]

theorem identifierRule_ends : Ends identifierRule := by
  intro p y hp hy
  cases p with
  | nil => exact absurd rfl hp
  | cons c p =>
    rw [List.cons_append]
    unfold identifierRule
    simp only
    rw [takeWhile_end isWordChar p y fun c hc => (stops_word (hy c hc)).1]

theorem digitsLen_cut (p x : Str) (h : digitsLen (p ++ x) ≤ p.length) :
    digitsLen p = digitsLen (p ++ x) := by
  unfold digitsLen at *
  rw [takeWhile_cut isDigit p x h]

theorem digitsLen_le (p : Str) : digitsLen p ≤ p.length := by
  unfold digitsLen
  induction p with
  | nil => simp
  | cons c p ih =>
    rw [List.takeWhile_cons]
    split
    · simp; omega
    · simp

theorem digitsLen_end (p y : Str) (hy : Stop y) : digitsLen (p ++ y) = digitsLen p := by
  unfold digitsLen
  rw [takeWhile_end isDigit p y fun c hc => (stops_word (hy c hc)).2]

theorem fractionLen_cut (p x : Str) (h : fractionLen (p ++ x) ≤ p.length) :
    fractionLen p = fractionLen (p ++ x) := by
  cases p with
  | nil =>
    have : fractionLen ([] ++ x) = 0 := by simpa using h
    rw [this]
    rfl
  | cons c p =>
    by_cases hc : c = '.'
    · subst hc
      rw [List.cons_append] at *
      unfold fractionLen at *
      simp only at *
      by_cases h0 : digitsLen (p ++ x) = 0
      · rw [if_pos h0, if_pos]
        rw [digitsLen_cut p x (by omega), h0]
      · rw [if_neg h0] at *
        simp only [List.length_cons] at h
        rw [digitsLen_cut p x (by omega), if_neg h0]
    · have : ∀ r, fractionLen (c :: r) = 0 := by
        intro r
        unfold fractionLen
        split
        · rename_i h; simp at h; exact absurd h.1 hc
        · rfl
      rw [List.cons_append, this, this]

theorem fractionLen_end (p y : Str) (hy : Stop y) : fractionLen (p ++ y) = fractionLen p := by
  cases p with
  | nil =>
    cases y with
    | nil => rfl
    | cons d y =>
      have hd := stops_cases (hy d rfl)
      show fractionLen (d :: y) = 0
      unfold fractionLen
      split
      · rename_i h
        simp at h
        rw [h.1] at hd
        exact absurd hd (by decide)
      · rfl
  | cons c p =>
    by_cases hc : c = '.'
    · subst hc
      rw [List.cons_append]
      unfold fractionLen
      simp only
      rw [digitsLen_end p y hy]
    · have : ∀ r, fractionLen (c :: r) = 0 := by
        intro r
        unfold fractionLen
        split
        · rename_i h; simp at h; exact absurd h.1 hc
        · rfl
      rw [List.cons_append, this, this]

theorem exponentLen_cut (p x : Str) (h : exponentLen (p ++ x) ≤ p.length) :
    exponentLen p = exponentLen (p ++ x) := by
  match p with
  | [] =>
    have : exponentLen ([] ++ x) = 0 := by simpa using h
    rw [this]
    rfl
  | [e] =>
    cases x with
    | nil => rfl
    | cons sign x =>
      simp only [List.cons_append, List.nil_append, List.length_cons, List.length_nil] at *
      unfold exponentLen at *
      simp only at *
      by_cases hh : (e = 'e' ∨ e = 'E') ∧ (sign = '+' ∨ sign = '-') ∧ digitsLen x ≠ 0
      · rw [if_pos hh] at h
        omega
      · rw [if_neg hh]
  | e :: sign :: p =>
    simp only [List.cons_append, List.length_cons] at *
    unfold exponentLen at *
    simp only at *
    by_cases hh : (e = 'e' ∨ e = 'E') ∧ (sign = '+' ∨ sign = '-') ∧ digitsLen (p ++ x) ≠ 0
    · rw [if_pos hh] at *
      rw [digitsLen_cut p x (by omega), if_pos hh]
    · rw [if_neg hh, if_neg]
      rintro ⟨h1, h2, h3⟩
      apply hh
      refine ⟨h1, h2, ?_⟩
      intro h0
      rw [digitsLen_cut p x (by omega)] at h3
      exact h3 h0

theorem exponentLen_end (p y : Str) (hy : Stop y) : exponentLen (p ++ y) = exponentLen p := by
  match p with
  | [] =>
    cases y with
    | nil => rfl
    | cons d y =>
      have hd := stops_cases (hy d rfl)
      cases y with
      | nil => rfl
      | cons d' y =>
        show exponentLen (d :: d' :: y) = 0
        unfold exponentLen
        simp only
        rw [if_neg]
        rintro ⟨h1, -⟩
        rcases h1 with rfl | rfl <;> revert hd <;> decide
  | [e] =>
    cases y with
    | nil => rfl
    | cons d y =>
      have hd := stops_cases (hy d rfl)
      show exponentLen (e :: d :: y) = 0
      unfold exponentLen
      simp only
      rw [if_neg]
      rintro ⟨-, h1, -⟩
      rcases h1 with rfl | rfl <;> revert hd <;> decide
  | e :: sign :: p =>
    simp only [List.cons_append]
    unfold exponentLen
    simp only
    rw [digitsLen_end p y hy]

theorem unsignedLen_cut (p x : Str) (h : unsignedLen (p ++ x) ≤ p.length) :
    unsignedLen p = unsignedLen (p ++ x) := by
  unfold unsignedLen at *
  simp only at *
  by_cases h0 : digitsLen (p ++ x) = 0
  · rw [if_pos h0, digitsLen_cut p x (by omega), if_pos h0]
  · rw [if_neg h0] at *
    have ha := digitsLen_cut p x (by omega)
    rw [ha, if_neg h0]
    have e1 : (p ++ x).drop (digitsLen (p ++ x)) = p.drop (digitsLen (p ++ x)) ++ x :=
      List.drop_append_of_le_length (by omega)
    have hb := fractionLen_cut (p.drop (digitsLen (p ++ x))) x (by
      rw [← e1, List.length_drop]; omega)
    rw [← e1] at hb
    rw [hb]
    have e2 : (p ++ x).drop (digitsLen (p ++ x) + fractionLen ((p ++ x).drop (digitsLen (p ++ x)))) =
        p.drop (digitsLen (p ++ x) + fractionLen ((p ++ x).drop (digitsLen (p ++ x)))) ++ x :=
      List.drop_append_of_le_length (by omega)
    have hc := exponentLen_cut
      (p.drop (digitsLen (p ++ x) + fractionLen ((p ++ x).drop (digitsLen (p ++ x))))) x (by
      rw [← e2, List.length_drop]; omega)
    rw [← e2] at hc
    rw [hc]

theorem fractionLen_le (p : Str) : fractionLen p ≤ p.length := by
  unfold fractionLen
  split
  · rename_i r
    have := digitsLen_le r
    split <;> simp <;> omega
  · omega

theorem unsignedLen_end (p y : Str) (hy : Stop y) : unsignedLen (p ++ y) = unsignedLen p := by
  unfold unsignedLen
  simp only
  rw [digitsLen_end p y hy]
  have h1 := digitsLen_le p
  rw [List.drop_append_of_le_length h1, fractionLen_end _ y hy]
  have h2 := fractionLen_le (p.drop (digitsLen p))
  rw [List.length_drop] at h2
  rw [List.drop_append_of_le_length (by omega), exponentLen_end _ y hy]

theorem numberRule_minus (r : Str) : numberRule ('-' :: r) =
    if unsignedLen r = 0 then none else some (.number, unsignedLen r + 1) := rfl

theorem numberRule_plain (c : Char) (r : Str) (h : c ≠ '-') : numberRule (c :: r) =
    if unsignedLen (c :: r) = 0 then none else some (.number, unsignedLen (c :: r)) := by
  unfold numberRule
  split
  · rename_i h'; simp at h'; exact absurd h'.1 h
  · rfl

theorem numberRule_cuts : Cuts numberRule := by
  intro p x h
  cases p with
  | nil =>
    cases hx : numberRule ([] ++ x) with
    | none => rfl
    | some m =>
      have h1 := h m hx
      have h2 := numberRule_pos _ _ hx
      simp at h1
      omega
  | cons c p =>
    have key : ∀ (q : Str) (n k : Nat), (∀ m, (if unsignedLen (q ++ x) = 0 then none else
        some (Tk.number, unsignedLen (q ++ x) + k)) = some m → m.2 ≤ q.length + k) →
        unsignedLen q = unsignedLen (q ++ x) := by
      intro q _ k h
      apply unsignedLen_cut
      by_cases h0 : unsignedLen (q ++ x) = 0
      · omega
      · rw [if_neg h0] at h
        have := h _ rfl
        simp only at this
        omega
    by_cases hc : c = '-'
    · subst hc
      rw [List.cons_append] at *
      rw [numberRule_minus] at *
      rw [numberRule_minus]
      rw [key p 0 1 (by simpa using h)]
    · rw [List.cons_append] at *
      rw [numberRule_plain _ _ hc] at *
      rw [numberRule_plain _ _ hc]
      have := key (c :: p) 0 0 (by simpa using h)
      rw [List.cons_append] at this
      rw [this]

theorem numberRule_ends : Ends numberRule := by
  intro p y hp hy
  cases p with
  | nil => exact absurd rfl hp
  | cons c p =>
    by_cases hc : c = '-'
    · subst hc
      rw [List.cons_append, numberRule_minus, numberRule_minus, unsignedLen_end p y hy]
    · rw [List.cons_append, numberRule_plain _ _ hc, numberRule_plain _ _ hc, ← List.cons_append,
        unsignedLen_end (c :: p) y hy]

/-! ### URIs -/

/-- What ends a token between `extension_space` and the brace. -/
def stopsUri (c : Char) : Bool := isBlank c || c = '{'

def StopUri (y : Str) : Prop := ∀ c ∈ y.head?, stopsUri c = true

theorem StopUri.stop {y : Str} (h : StopUri y) : Stop y := by
  intro c hc
  have := h c hc
  unfold stopsUri at this
  unfold stops
  simp only [Bool.or_eq_true, decide_eq_true_eq] at *
  rcases this with h | h
  · exact .inl (.inl h)
  · exact .inr h

theorem stopsUri_word {c : Char} (h : stopsUri c = true) : isLetter c = false ∧ isHostChar c = false ∧
    isFileChar c = false ∧ c ≠ ':' ∧ c ≠ '/' := by
  have : c = ' ' ∨ c = '\x0b' ∨ c = '\t' ∨ c = '\r' ∨ c = '\n' ∨ c = '{' := by
    unfold stopsUri isBlank at h
    simp only [Bool.or_eq_true, decide_eq_true_eq] at h
    simp only [or_assoc] at h
    exact h
  rcases this with rfl | rfl | rfl | rfl | rfl | rfl <;> decide

/-- A length that is 0 when there is no match. -/
structure LenCuts (k : Str → Nat) : Prop where
  grows : ∀ p x, k p ≠ 0 → k (p ++ x) ≠ 0
  cut : ∀ p x, k (p ++ x) ≠ 0 → k (p ++ x) ≤ p.length → k p = k (p ++ x)
  ends : ∀ p y, StopUri y → k (p ++ y) = k p

theorem LenCuts.same {k : Str → Nat} (h : LenCuts k) (p x : Str) (hl : k (p ++ x) ≤ p.length) :
    k p = k (p ++ x) := by
  by_cases h0 : k (p ++ x) = 0
  · rw [h0]
    by_cases hp : k p = 0
    · exact hp
    · exact absurd h0 (h.grows p x hp)
  · exact h.cut p x h0 hl

theorem pathLen_stop (b : Bool) (y : Str) (h : StopUri y) : pathLen b y = 0 := by
  cases y with
  | nil => rfl
  | cons c y =>
    obtain ⟨-, -, h1, -, h2⟩ := stopsUri_word (h c rfl)
    unfold pathLen
    rw [if_neg (by simp [h1]), if_neg (by simp [h2])]

theorem pathLen_ends : ∀ (p : Str) (b : Bool) (y : Str), StopUri y → pathLen b (p ++ y) = pathLen b p
  | [], b, y, h => pathLen_stop b y h
  | c :: p, b, y, h => by
    rw [List.cons_append]
    unfold pathLen
    rw [pathLen_ends p true y h, pathLen_ends p false y h]

theorem pathLen_grows : ∀ (p : Str) (b : Bool) (x : Str), pathLen b p ≤ pathLen b (p ++ x)
  | [], _, _ => by simp [pathLen]
  | c :: p, b, x => by
    rw [List.cons_append]
    unfold pathLen
    have h1 := pathLen_grows p true x
    have h2 := pathLen_grows p false x
    split
    · omega
    · split
      · cases ha : pathLen false p <;> cases hb : pathLen false (p ++ x) <;> simp <;> omega
      · omega

theorem pathLen_cut : ∀ (p : Str) (b : Bool) (x : Str), pathLen b (p ++ x) ≤ p.length →
    pathLen b p = pathLen b (p ++ x)
  | [], b, x, h => by
    have : pathLen b ([] ++ x) = 0 := by simpa using h
    rw [this]
    rfl
  | c :: p, b, x, h => by
    rw [List.cons_append] at *
    unfold pathLen at *
    by_cases h1 : isFileChar c = true
    · rw [if_pos h1] at h
      rw [if_pos h1, if_pos h1, pathLen_cut p true x (by simpa using h)]
    · rw [if_neg h1] at h
      rw [if_neg h1, if_neg h1]
      by_cases h2 : b = true ∧ c = '/'
      · rw [if_pos h2] at h
        rw [if_pos h2, if_pos h2]
        rw [pathLen_cut p false x (by
          cases ha : pathLen false (p ++ x) with
          | zero => omega
          | succ n => rw [ha] at h; simp at h; omega)]
      · rw [if_neg h2, if_neg h2]

theorem pathLen_cuts (b : Bool) : LenCuts (pathLen b) where
  grows := fun p x h h0 => h (by have := pathLen_grows p b x; omega)
  cut := fun p x _ h => pathLen_cut p b x h
  ends := fun p y h => pathLen_ends p b y h

/-- A sum that is 0 when there is no match. -/
def plus (a n : Nat) : Nat := if n = 0 then 0 else a + n

theorem plus_zero (a : Nat) : plus a 0 = 0 := rfl

theorem plus_ne {a n : Nat} (h : n ≠ 0) : plus a n = a + n := if_neg h

/-- A character and something behind it. -/
def behind (c : Char) (k : Str → Nat) (a : Nat) : Str → Nat
  | [] => 0
  | d :: u => if d = c then plus (a + 1) (k u) else 0

theorem behind_cons (c : Char) (k : Str → Nat) (a : Nat) (d : Char) (u : Str) :
    behind c k a (d :: u) = if d = c then plus (a + 1) (k u) else 0 := rfl

/-- Some characters, another one and something behind it. -/
def sepLen (f : Char → Bool) (c : Char) (k : Str → Nat) (s : Str) : Nat :=
  if (s.takeWhile f).length = 0 then 0
  else behind c k (s.takeWhile f).length (s.drop (s.takeWhile f).length)

theorem takeWhile_spec (f : Char → Bool) : ∀ (s : Str), ∃ l v, s = l ++ v ∧ (∀ c ∈ l, f c = true) ∧
    (∀ c ∈ v.head?, f c = false)
  | [] => ⟨[], [], rfl, by simp, by simp⟩
  | c :: s => by
    cases hc : f c with
    | false => exact ⟨[], c :: s, rfl, by simp, by simp [hc]⟩
    | true =>
      obtain ⟨l, v, rfl, h1, h2⟩ := takeWhile_spec f s
      exact ⟨c :: l, v, rfl, by simpa [hc] using h1, h2⟩

theorem takeWhile_of (f : Char → Bool) (l v : Str) (h1 : ∀ c ∈ l, f c = true)
    (h2 : ∀ c ∈ v.head?, f c = false) : (l ++ v).takeWhile f = l := by
  induction l with
  | nil =>
    cases v with
    | nil => rfl
    | cons d v => simp [h2 d rfl]
  | cons c l ih =>
    rw [List.cons_append, List.takeWhile_cons, h1 c (by simp)]
    simp only [if_true]
    rw [ih fun d hd => h1 d (by simp [hd])]

theorem sepLen_of (f : Char → Bool) (c : Char) (k : Str → Nat) (l v : Str)
    (h1 : ∀ c ∈ l, f c = true) (h2 : ∀ c ∈ v.head?, f c = false) : sepLen f c k (l ++ v) =
    if l = [] then 0 else behind c k l.length v := by
  unfold sepLen
  rw [takeWhile_of f l v h1 h2, List.drop_left]
  simp

theorem sepLen_ne {f : Char → Bool} {c : Char} {k : Str → Nat} {s : Str}
    (h : sepLen f c k s ≠ 0) :
    ∃ l u, l ≠ [] ∧ (∀ c ∈ l, f c = true) ∧ s = l ++ c :: u ∧ k u ≠ 0 ∧
      sepLen f c k s = l.length + 1 + k u := by
  obtain ⟨l, v, rfl, h1, h2⟩ := takeWhile_spec f s
  rw [sepLen_of f c k l v h1 h2] at h ⊢
  by_cases hl : l = []
  · rw [if_pos hl] at h; exact absurd rfl h
  rw [if_neg hl] at h ⊢
  cases v with
  | nil => exact absurd rfl h
  | cons d v =>
    rw [behind_cons] at *
    by_cases hd : d = c
    · subst hd
      rw [if_pos rfl] at h ⊢
      by_cases hk : k v = 0
      · rw [hk] at h; exact absurd rfl h
      · rw [plus_ne hk]
        exact ⟨l, v, hl, h1, rfl, hk, rfl⟩
    · rw [if_neg hd] at h
      exact absurd rfl h

theorem sepLen_cons (f : Char → Bool) (c : Char) (k : Str → Nat) (l u : Str) (hc : f c = false)
    (hl : l ≠ []) (h1 : ∀ c ∈ l, f c = true) : sepLen f c k (l ++ c :: u) =
    plus (l.length + 1) (k u) := by
  rw [sepLen_of f c k l _ h1 (by simpa using hc), if_neg hl]
  rw [behind_cons, if_pos rfl]

theorem sepLen_cuts {f : Char → Bool} {c : Char} {k : Str → Nat} (hk : LenCuts k) (hc : f c = false)
    (hf : ∀ d, stopsUri d = true → f d = false ∧ d ≠ c) : LenCuts (sepLen f c k) where
  grows := by
    intro p x h
    obtain ⟨l, u, hl, h1, rfl, hu, -⟩ := sepLen_ne h
    rw [List.append_assoc, List.cons_append, sepLen_cons f c k l _ hc hl h1, plus_ne (hk.grows u x hu)]
    omega
  cut := by
    intro p x h hn
    obtain ⟨l, u, hl, h1, e, hu, hv⟩ := sepLen_ne h
    rw [hv] at hn ⊢
    obtain ⟨u', rfl, rfl⟩ : ∃ u', p = l ++ c :: u' ∧ u = u' ++ x := by
      have e' : p ++ x = (l ++ [c]) ++ u := by simpa using e
      rcases List.append_eq_append_iff.mp e' with ⟨a, h2, h3⟩ | ⟨a, h2, h3⟩
      · have := congrArg List.length h2
        simp at this
        have ha : a = [] := List.eq_nil_of_length_eq_zero (by omega)
        subst ha
        exact ⟨[], by simpa using h2.symm, by simpa using h3.symm⟩
      · exact ⟨a, by simpa using h2, h3⟩
    rw [sepLen_cons f c k l _ hc hl h1]
    rw [hk.cut u' x hu (by simp at hn; omega), plus_ne hu]
  ends := by
    intro p y hy
    obtain ⟨l, v, rfl, h1, h2⟩ := takeWhile_spec f p
    cases v with
    | nil =>
      rw [List.append_nil]
      have e := sepLen_of f c k l [] h1 (by simp)
      rw [List.append_nil] at e
      rw [e, sepLen_of f c k l y h1 fun d hd => (hf d (hy d hd)).1]
      cases y with
      | nil => rfl
      | cons d y =>
        unfold behind
        simp only
        rw [if_neg (hf d (hy d rfl)).2]
    | cons d v =>
      rw [List.append_assoc, List.cons_append, sepLen_of f c k l _ h1 (by simpa using h2),
        sepLen_of f c k l _ h1 (by simpa using h2)]
      unfold behind
      simp only
      rw [hk.ends v y hy]

/-- What is behind the colon of a URI. -/
def restLen (s : Str) : Nat :=
  if "//".toList.isPrefixOf s then
    plus 2 (sepLen isHostChar '/' (pathLen false) (s.drop 2))
  else pathLen false s

theorem hostLen_cuts : LenCuts (sepLen isHostChar '/' (pathLen false)) :=
  sepLen_cuts (pathLen_cuts false) (by decide) fun _ h => ⟨(stopsUri_word h).2.1, (stopsUri_word h).2.2.2.2⟩

theorem restLen_slashes (r : Str) : restLen ('/' :: '/' :: r) =
    plus 2 (sepLen isHostChar '/' (pathLen false) r) := by
  unfold restLen
  rw [if_pos (by rfl)]
  rfl

theorem restLen_slash (s : Str) (h : s.head? ≠ some '/') : restLen ('/' :: s) = 0 := by
  unfold restLen
  rw [if_neg]
  · rfl
  · cases s with
    | nil => decide
    | cons d s =>
      intro hp
      apply h
      obtain ⟨t, ht⟩ := List.isPrefixOf_iff_prefix.mp hp
      simp at ht
      simp [← ht.1]

theorem restLen_plain (s : Str) (h : s.head? ≠ some '/') : restLen s = pathLen false s := by
  unfold restLen
  rw [if_neg]
  cases s with
  | nil => decide
  | cons d s =>
    intro hp
    apply h
    obtain ⟨t, ht⟩ := List.isPrefixOf_iff_prefix.mp hp
    simp at ht
    simp [← ht.1]

theorem restLen_cuts : LenCuts restLen where
  grows := by
    intro p x h
    match p with
    | [] => exact absurd rfl h
    | ['/'] => exact absurd (restLen_slash [] (by simp)) h
    | '/' :: '/' :: r =>
      simp only [List.cons_append]
      rw [restLen_slashes] at *
      by_cases h0 : sepLen isHostChar '/' (pathLen false) r = 0
      · rw [h0] at h; exact absurd rfl h
      · rw [plus_ne (hostLen_cuts.grows r x h0)]
        omega
    | c :: r =>
      by_cases hc : c = '/'
      · subst hc
        cases r with
        | nil => exact absurd (restLen_slash [] (by simp)) h
        | cons d r =>
          by_cases hd : d = '/'
          · subst hd
            simp only [List.cons_append]
            rw [restLen_slashes] at *
            by_cases h0 : sepLen isHostChar '/' (pathLen false) r = 0
            · rw [h0] at h; exact absurd rfl h
            · rw [plus_ne (hostLen_cuts.grows r x h0)]
              omega
          · exact absurd (restLen_slash (d :: r) (by simpa using hd)) h
      · rw [restLen_plain _ (by simpa using hc)] at h
        rw [restLen_plain _ (by simpa using hc)]
        exact (pathLen_cuts false).grows _ _ h
  cut := by
    intro p x h hn
    match p with
    | [] => exact absurd (by simpa using hn) h
    | c :: r =>
      by_cases hc : c = '/'
      · subst hc
        cases r with
        | nil =>
          simp only [List.cons_append, List.nil_append] at *
          by_cases hx : x.head? = some '/'
          · cases x with
            | nil => cases hx
            | cons d x =>
              simp at hx
              subst hx
              rw [restLen_slashes] at *
              by_cases h0 : sepLen isHostChar '/' (pathLen false) x = 0
              · rw [h0] at h; exact absurd rfl h
              · rw [plus_ne h0] at hn; simp at hn; omega
          · exact absurd (restLen_slash _ hx) h
        | cons d r =>
          by_cases hd : d = '/'
          · subst hd
            simp only [List.cons_append] at *
            rw [restLen_slashes] at *
            rw [restLen_slashes]
            by_cases h0 : sepLen isHostChar '/' (pathLen false) (r ++ x) = 0
            · rw [h0] at h; exact absurd rfl h
            · rw [plus_ne h0] at hn
              rw [hostLen_cuts.cut r x h0 (by simp at hn; omega)]
          · exact absurd (restLen_slash _ (by simpa using hd)) h
      · rw [List.cons_append] at *
        rw [restLen_plain _ (by simpa using hc)] at *
        rw [restLen_plain _ (by simpa using hc)]
        exact (pathLen_cuts false).cut (c :: r) x h hn
  ends := by
    intro p y hy
    match p with
    | [] =>
      have : y.head? ≠ some '/' := fun h => (stopsUri_word (hy _ h)).2.2.2.2 rfl
      rw [List.nil_append, restLen_plain y this, pathLen_stop _ _ hy]
      rfl
    | c :: r =>
      by_cases hc : c = '/'
      · subst hc
        cases r with
        | nil =>
          have : y.head? ≠ some '/' := fun h => (stopsUri_word (hy _ h)).2.2.2.2 rfl
          rw [List.cons_append, List.nil_append, restLen_slash _ this, restLen_slash _ (by simp)]
        | cons d r =>
          by_cases hd : d = '/'
          · subst hd
            simp only [List.cons_append]
            rw [restLen_slashes, restLen_slashes, hostLen_cuts.ends r y hy]
          · rw [List.cons_append, restLen_slash _ (by simpa using hd), restLen_slash _ (by simpa using hd)]
      · rw [List.cons_append, restLen_plain _ (by simpa using hc), restLen_plain _ (by simpa using hc),
          ← List.cons_append, (pathLen_cuts false).ends _ y hy]

theorem restLen_path (r : Str) (h : ∀ r', r ≠ '/' :: '/' :: r') : restLen r = pathLen false r := by
  by_cases hr : r.head? = some '/'
  · cases r with
    | nil => cases hr
    | cons e r =>
      simp at hr
      subst hr
      rw [restLen_slash]
      · rfl
      · intro hr
        cases r with
        | nil => cases hr
        | cons e r =>
          simp at hr
          subst hr
          exact h r rfl
  · exact restLen_plain r hr

theorem schemeLen_eq (s : Str) : schemeLen s = sepLen isLetter ':' restLen s := by
  unfold schemeLen sepLen
  simp only
  split
  · rfl
  · generalize hd : s.drop (s.takeWhile isLetter).length = d
    generalize (s.takeWhile isLetter).length = a
    split
    · rename_i r
      rw [behind_cons, if_pos rfl, restLen_slashes]
      unfold sepLen
      generalize (r.takeWhile isHostChar).length = h
      cases hr : r.drop h with
      | nil =>
        simp [behind, plus]
      | cons e r' =>
        unfold behind
        by_cases he : e = '/'
        · subst he
          simp only [if_true]
          by_cases h0 : h = 0
          · rw [if_pos (.inl h0), if_pos h0]; rfl
          · by_cases h1 : pathLen false r' = 0
            · rw [if_pos (.inr h1), if_neg h0, h1]; rfl
            · have e1 : h + 1 + pathLen false r' ≠ 0 := by omega
              have e2 : 2 + (h + 1 + pathLen false r') ≠ 0 := by omega
              rw [if_neg (by simp [h0, h1]), if_neg h0, plus_ne h1, plus_ne e1, plus_ne e2]
              omega
        · simp only [if_neg he]
          split
          · rename_i h; simp at h; exact absurd h.1 he
          · split <;> rfl
    · rename_i r hr
      rw [behind_cons, if_pos rfl, restLen_path r hr]
      rfl
    · rename_i h1 h2
      cases d with
      | nil => rfl
      | cons e r =>
        rw [behind_cons, if_neg]
        intro h
        subst h
        exact h2 r rfl

theorem schemeLen_cuts : LenCuts schemeLen := by
  have : schemeLen = sepLen isLetter ':' restLen := funext schemeLen_eq
  rw [this]
  exact sepLen_cuts restLen_cuts (by decide) fun _ h => ⟨(stopsUri_word h).1, (stopsUri_word h).2.2.2.1⟩

/-- A URI without a scheme. -/
def plainLen (s : Str) : Nat :=
  match s with
  | '/' :: r => if pathLen false r = 0 then 0 else pathLen false r + 1
  | _ => pathLen false s

theorem plainLen_other (s : Str) (h : s.head? ≠ some '/') : plainLen s = pathLen false s := by
  unfold plainLen
  split
  · simp at h
  · rfl

theorem plainLen_cuts : LenCuts plainLen where
  grows := by
    intro p x h
    match p with
    | [] => exact absurd rfl h
    | c :: r =>
      by_cases hc : c = '/'
      · subst hc
        rw [List.cons_append]
        unfold plainLen at *
        simp only at *
        by_cases h0 : pathLen false r = 0
        · rw [if_pos h0] at h; exact absurd rfl h
        · rw [if_neg ((pathLen_cuts false).grows r x h0)]
          omega
      · rw [plainLen_other _ (by simpa using hc)] at h
        rw [plainLen_other _ (by simpa using hc)]
        exact (pathLen_cuts false).grows _ _ h
  cut := by
    intro p x h hn
    match p with
    | [] => exact absurd (by simpa using hn) h
    | c :: r =>
      by_cases hc : c = '/'
      · subst hc
        rw [List.cons_append] at *
        unfold plainLen at *
        simp only at *
        by_cases h0 : pathLen false (r ++ x) = 0
        · rw [if_pos h0] at h; exact absurd rfl h
        · rw [if_neg h0] at hn
          rw [(pathLen_cuts false).cut r x h0 (by simpa using hn)]
      · rw [List.cons_append] at *
        rw [plainLen_other _ (by simpa using hc)] at *
        rw [plainLen_other _ (by simpa using hc)]
        exact (pathLen_cuts false).cut (c :: r) x h hn
  ends := by
    intro p y hy
    match p with
    | [] =>
      have : y.head? ≠ some '/' := fun h => (stopsUri_word (hy _ h)).2.2.2.2 rfl
      rw [List.nil_append, plainLen_other y this, pathLen_stop _ _ hy]
      rfl
    | c :: r =>
      by_cases hc : c = '/'
      · subst hc
        rw [List.cons_append]
        unfold plainLen
        simp only
        rw [(pathLen_cuts false).ends r y hy]
      · rw [List.cons_append, plainLen_other _ (by simpa using hc), plainLen_other _ (by simpa using hc),
          ← List.cons_append, (pathLen_cuts false).ends _ y hy]

theorem uriRule_eq (s : Str) : uriRule s = if max (plainLen s) (schemeLen s) = 0 then none
    else some (.uri, max (plainLen s) (schemeLen s)) := rfl

theorem uriRule_cuts : Cuts uriRule := by
  intro p x h
  rw [uriRule_eq, uriRule_eq]
  have hl : max (plainLen (p ++ x)) (schemeLen (p ++ x)) ≤ p.length := by
    rw [uriRule_eq] at h
    by_cases h0 : max (plainLen (p ++ x)) (schemeLen (p ++ x)) = 0
    · omega
    · rw [if_neg h0] at h
      exact h _ rfl
  rw [plainLen_cuts.same p x (by omega), schemeLen_cuts.same p x (by omega)]

theorem uriRule_ends (p y : Str) (hy : StopUri y) : uriRule (p ++ y) = uriRule p := by
  rw [uriRule_eq, uriRule_eq, plainLen_cuts.ends p y hy, schemeLen_cuts.ends p y hy]

end Verif.Lex
