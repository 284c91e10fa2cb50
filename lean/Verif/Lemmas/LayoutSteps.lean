import Verif.Lemmas.Layout

/-!
# The same tokens with other gaps between them

Strings, gaps, and the step from one token to the next.
-/

namespace Verif.Lex

open Verif

/-! ## The modes -/

/-- The tokens of a text, from a mode on. -/
def lexM (m : Mode) (s : Str) : Option (List Token) := lexF s.length m s

theorem lexM_step (m : Mode) (a rest : Str) (k : Tk) (hne : a ≠ [])
    (hm : lexOne m (a ++ rest) = some (k, a.length)) :
    lexM m (a ++ rest) = (lexM (nextMode m k) rest).map (seen k a ++ ·) := by
  cases a with
  | nil => exact absurd rfl hne
  | cons c a =>
    have hm' : lexOne m (c :: (a ++ rest)) = some (k, a.length + 1) := hm
    have hd : (c :: (a ++ rest)).drop (a.length + 1) = rest := by simp
    have ht : (c :: (a ++ rest)).take (a.length + 1) = c :: a := by simp
    show lexF (a ++ rest).length.succ m (c :: (a ++ rest)) = _
    simp only [lexF, hm', hd, ht]
    rw [lexF_fuel (a ++ rest).length rest.length _ rest (by simp) (by omega)]
    show _ = (lexF rest.length (nextMode m k) rest).map (seen k (c :: a) ++ ·)
    cases lexF rest.length (nextMode m k) rest with
    | none => rfl
    | some ts =>
      simp only [seen, Option.map_some]
      split <;> rfl

/-- A text whose first character is that of no word, sign or number. -/
theorem lexDefault_blank (c : Char) (r : Str) (h : isBlank c = true) :
    lexDefault (c :: r) = some (.spaces, 1) := by
  have hc : c = ' ' ∨ c = '\x0b' ∨ c = '\t' ∨ c = '\r' ∨ c = '\n' := by
    unfold isBlank at h
    simp only [Bool.or_eq_true, decide_eq_true_eq] at h
    simp only [or_assoc] at h
    exact h
  have hk : keywordRule (c :: r) = none := keywordRule_none _ _ (by
    rcases hc with rfl | rfl | rfl | rfl | rfl <;> decide)
  unfold lexDefault
  rw [hk]
  rcases hc with rfl | rfl | rfl | rfl | rfl <;> rfl

theorem lexDefault_slash (r : Str) : lexDefault ('/' :: r) = commentRule ('/' :: r) := by
  have hk : keywordRule ('/' :: r) = none := keywordRule_none _ _ (by decide)
  have e : lexDefault ('/' :: r) = longest [keywordRule ('/' :: r), none, none, none, none, none, none,
      none, commentRule ('/' :: r), none] := by
    simp only [lexDefault]
    congr 1
  rw [e, hk]
  simp only [longest]
  cases commentRule ('/' :: r) <;> rfl

theorem uriRule_stop (c : Char) (r : Str) (h : stopsUri c = true) : uriRule (c :: r) = none := by
  have := uriRule_ends [] (c :: r) (by intro d hd; simp at hd; subst hd; exact h)
  rw [List.nil_append] at this
  rw [this]
  rfl

theorem lexExtensions_blank (c : Char) (r : Str) (h : isBlank c = true) :
    lexExtensions (c :: r) = some (.spaces, 1) := by
  have hc : c = ' ' ∨ c = '\x0b' ∨ c = '\t' ∨ c = '\r' ∨ c = '\n' := by
    unfold isBlank at h
    simp only [Bool.or_eq_true, decide_eq_true_eq] at h
    simp only [or_assoc] at h
    exact h
  unfold lexExtensions
  rw [uriRule_stop c r (by unfold stopsUri; rw [h]; rfl)]
  rcases hc with rfl | rfl | rfl | rfl | rfl <;> rfl

theorem lexExtensions_brace (r : Str) : lexExtensions ('{' :: r) = some (.leftBrace, 1) := by
  unfold lexExtensions
  rw [uriRule_stop '{' r (by decide)]
  rfl

theorem lexOne_blank (m : Mode) (c : Char) (r : Str) (h : isBlank c = true) :
    lexOne m (c :: r) = some (.spaces, 1) := by
  cases m
  · exact lexDefault_blank c r h
  · exact lexExtensions_blank c r h

/-! ## Gaps -/

theorem takeWhile_line (c e r : Str) (h1 : '\r' ∉ c) (h2 : '\n' ∉ c) (he : ∀ d ∈ e.head?, d = '\r' ∨ d = '\n')
    (hr : e = [] → r = []) :
    (c ++ e ++ r).takeWhile (fun c => c ≠ '\r' && c ≠ '\n') = c := by
  rw [List.append_assoc]
  apply takeWhile_of (fun c => c ≠ '\r' && c ≠ '\n')
  · intro d hd
    simp only [ne_eq, decide_not, Bool.and_eq_true, Bool.not_eq_true', decide_eq_false_iff_not]
    exact ⟨fun h => h1 (h ▸ hd), fun h => h2 (h ▸ hd)⟩
  · intro d hd
    cases e with
    | nil => rw [hr rfl] at hd; cases hd
    | cons f e =>
      rcases he d hd with rfl | rfl <;> decide

theorem commentRule_line (c e r : Str) (h1 : '\r' ∉ c) (h2 : '\n' ∉ c)
    (he : e ∈ ["\n".toList, "\r\n".toList]) :
    commentRule ('/' :: '/' :: (c ++ e ++ r)) = some (.comment, 2 + c.length + e.length) := by
  unfold commentRule
  simp only
  rw [takeWhile_line c e r h1 h2 (by simp at he; rcases he with rfl | rfl <;> simp)
    (by simp at he; rcases he with rfl | rfl <;> simp)]
  rw [List.append_assoc, List.drop_left]
  simp at he
  rcases he with rfl | rfl
  · simp; omega
  · simp; omega

theorem commentRule_last (c : Str) (h1 : '\r' ∉ c) (h2 : '\n' ∉ c) :
    commentRule ('/' :: '/' :: c) = some (.comment, 2 + c.length) := by
  unfold commentRule
  simp only
  have := takeWhile_line c [] [] h1 h2 (by simp) (by simp)
  simp only [List.append_nil] at this
  rw [this, List.drop_length]
  simp only [Option.some.injEq, Prod.mk.injEq, true_and]
  omega

theorem nextMode_hidden (m : Mode) (k : Tk) (h : hidden k = true) : nextMode m k = m := by
  cases m <;> cases k <;> first | rfl | (exact absurd h (by decide))

theorem lexM_gap {m : Mode} {g : Str} (h : Gap m g) (r : Str) : lexM m (g ++ r) = lexM m r := by
  induction h with
  | none m => rfl
  | @blank m c g hc _ ih =>
    have hb : isBlank c = true := by
      simp at hc
      rcases hc with rfl | rfl | rfl | rfl | rfl <;> decide
    have := lexM_step m [c] (g ++ r) .spaces (by simp) (by
      show lexOne m (c :: (g ++ r)) = _
      rw [lexOne_blank m c _ hb]; rfl)
    rw [nextMode_hidden m .spaces rfl] at this
    show lexM m ([c] ++ (g ++ r)) = _
    rw [this, ih]
    cases lexM m r <;> rfl
  | @comment c e g h1 h2 he _ ih =>
    have := lexM_step .default ("//".toList ++ c ++ e) (g ++ r) .comment (by simp) (by
      show lexDefault _ = _
      have e1 : "//".toList ++ c ++ e ++ (g ++ r) = '/' :: '/' :: (c ++ e ++ (g ++ r)) := by simp
      rw [e1, lexDefault_slash, commentRule_line c e _ h1 h2 he]
      simp; omega)
    rw [nextMode_hidden _ .comment rfl] at this
    rw [List.append_assoc, this, ih]
    cases lexM .default r <;> rfl

theorem lexM_nil (m : Mode) : lexM m [] = some [] := rfl

theorem lexM_lastGap {m : Mode} {g : Str} (h : LastGap m g) : lexM m g = some [] := by
  cases h with
  | gap h =>
    have := lexM_gap h []
    rw [List.append_nil] at this
    rw [this, lexM_nil]
  | @comment g c h h1 h2 =>
    rw [List.append_assoc, lexM_gap h]
    have := lexM_step .default ("//".toList ++ c) [] .comment (by simp) (by
      show lexDefault _ = _
      have e1 : "//".toList ++ c ++ [] = '/' :: '/' :: c := by simp
      rw [e1, lexDefault_slash, commentRule_last c h1 h2]
      simp; omega)
    rw [List.append_nil] at this
    rw [this, nextMode_hidden _ .comment rfl, lexM_nil]
    rfl

/-- What a gap starts with. -/
theorem Gap.head {m : Mode} {g : Str} (h : Gap m g) (hg : g ≠ []) :
    ∃ c r, g = c :: r ∧ (isBlank c = true ∨ (m = .default ∧ c = '/')) := by
  cases h with
  | none => exact absurd rfl hg
  | @blank m c g hc h =>
    refine ⟨c, g, rfl, .inl ?_⟩
    simp at hc
    rcases hc with rfl | rfl | rfl | rfl | rfl <;> decide
  | comment h1 h2 he h => exact ⟨'/', _, rfl, .inr ⟨rfl, rfl⟩⟩

theorem LastGap.head {m : Mode} {g : Str} (h : LastGap m g) (hg : g ≠ []) :
    ∃ c r, g = c :: r ∧ (isBlank c = true ∨ (m = .default ∧ c = '/')) := by
  cases h with
  | gap h => exact h.head hg
  | @comment g c h h1 h2 =>
    by_cases hn : g = []
    · subst hn
      exact ⟨'/', _, rfl, .inr ⟨rfl, rfl⟩⟩
    · obtain ⟨d, r, rfl, h3⟩ := h.head hn
      exact ⟨d, _, rfl, h3⟩

/-! ## The first token -/

theorem keywordRule_seen (s : Str) (m : Match) (h : keywordRule s = some m) : hidden m.1 = false := by
  obtain ⟨w, hw, -⟩ := keywordRule_some s m h
  have : ∀ e ∈ keywords, hidden e.2 = false := by decide +kernel
  exact this _ hw

theorem symbolRule_seen (s : Str) (m : Match) (h : symbolRule s = some m) : hidden m.1 = false := by
  unfold symbolRule at h
  split at h <;> first | (injection h with h; subst h; rfl) | cases h

theorem identifierRule_seen (s : Str) (m : Match) (h : identifierRule s = some m) :
    m.1 = .identifier := by
  unfold identifierRule at h
  split at h
  · split at h
    · injection h with h; subst h; rfl
    · cases h
  · cases h

theorem numberRule_seen (s : Str) (m : Match) (h : numberRule s = some m) : m.1 = .number := by
  unfold numberRule at h
  split at h <;> split at h <;> first | (injection h with h; subst h; rfl) | cases h

theorem stringRule_seen (s : Str) (m : Match) (h : stringRule s = some m) : m.1 = .string := by
  unfold stringRule at h
  split at h
  · cases hs : stringLen false 1 _ <;> rw [hs] at h <;> simp at h
    subst h; rfl
  · cases h

theorem rawRule_seen (t : Str) (one : Bool) (s : Str) (m : Match) (h : rawRule t one s = some m) :
    m.1 = .string := by
  unfold rawRule at h
  split at h
  · cases hs : rawLen one t t.length (s.drop t.length) <;> rw [hs] at h <;> simp at h
    subst h; rfl
  · cases h

theorem commentRule_head (s : Str) (m : Match) (h : commentRule s = some m) : s.head? = some '/' := by
  unfold commentRule at h
  split at h
  · rfl
  · cases h

theorem commentRule_kind (s : Str) (m : Match) (h : commentRule s = some m) : m.1 = .comment := by
  unfold commentRule at h
  split at h
  · simp only at h
    split at h <;> first | (injection h with h; subst h; rfl) | cases h
  · cases h

theorem spaceRule_head (c : Char) (r : Str) (m : Match) (h : spaceRule (c :: r) = some m) :
    isBlank c = true := by
  unfold spaceRule at h
  simp only at h
  split at h
  · assumption
  · cases h

theorem uriRule_seen (s : Str) (m : Match) (h : uriRule s = some m) : m.1 = .uri := by
  rw [uriRule_eq] at h
  split at h
  · cases h
  · injection h with h; subst h; rfl

theorem hidden_head {m : Mode} {c : Char} {r : Str} {k : Tk} {n : Nat}
    (h : lexOne m (c :: r) = some (k, n)) :
    hidden k = true ↔ (isBlank c = true ∨ (m = .default ∧ c = '/')) := by
  constructor
  · intro hk
    have no : hidden k = false → isBlank c = true ∨ (m = .default ∧ c = '/') := by
      intro h; rw [h] at hk; cases hk
    cases m with
    | default =>
      have hm := longest_mem _ _ h
      simp only [List.mem_cons, List.not_mem_nil, or_false] at hm
      rcases hm with h | h | h | h | h | h | h | h | h | h
      · exact no (keywordRule_seen _ _ h.symm)
      · exact no (symbolRule_seen _ _ h.symm)
      · exact no (by have := identifierRule_seen _ _ h.symm; simp only at this; rw [this]; rfl)
      · exact no (by have := numberRule_seen _ _ h.symm; simp only at this; rw [this]; rfl)
      · exact no (by have := stringRule_seen _ _ h.symm; simp only at this; rw [this]; rfl)
      · exact no (by have := rawRule_seen _ _ _ _ h.symm; simp only at this; rw [this]; rfl)
      · exact no (by have := rawRule_seen _ _ _ _ h.symm; simp only at this; rw [this]; rfl)
      · exact no (by have := rawRule_seen _ _ _ _ h.symm; simp only at this; rw [this]; rfl)
      · have := commentRule_head _ _ h.symm
        exact .inr ⟨rfl, by simpa using this⟩
      · exact .inl (spaceRule_head _ _ _ h.symm)
    | extensions =>
      have hm := longest_mem _ _ h
      simp only [List.mem_cons, List.not_mem_nil, or_false] at hm
      rcases hm with h | h | h
      · exact no (by have := uriRule_seen _ _ h.symm; simp only at this; rw [this]; rfl)
      · split at h
        · injection h with h; injection h with h _; subst h; cases hk
        · cases h
      · exact .inl (spaceRule_head _ _ _ h.symm)
  · rintro (hb | ⟨rfl, rfl⟩)
    · rw [lexOne_blank m c r hb] at h
      injection h with h
      injection h with h1 _
      subst h1
      rfl
    · have h' : lexDefault ('/' :: r) = some (k, n) := h
      rw [lexDefault_slash] at h'
      have := commentRule_kind _ _ h'
      simp only at this
      subst this
      rfl

theorem lexF_head : ∀ (f : Nat) (m : Mode) (s : Str) (t : Token) (ts : List Token),
    lexF f m s = some (t :: ts) →
    ∃ d r, t.text = d :: r ∧ isBlank d = false ∧ ¬ (m = .default ∧ d = '/')
  | _, _, [], _, _, h => by simp [lexF] at h
  | 0, _, _ :: _, _, _, h => by simp [lexF] at h
  | f + 1, m, c :: cs, t, ts, h => by
    simp only [lexF] at h
    cases ho : lexOne m (c :: cs) with
    | none => rw [ho] at h; cases h
    | some q =>
      obtain ⟨k, n⟩ := q
      rw [ho] at h
      simp only at h
      cases hr : lexF f (nextMode m k) ((c :: cs).drop n) with
      | none => rw [hr] at h; cases h
      | some us =>
        rw [hr] at h
        simp only at h
        by_cases hk : hidden k = true
        · rw [if_pos hk] at h
          injection h with h
          subst h
          rw [nextMode_hidden m k hk] at hr
          exact lexF_head f m _ t ts hr
        · rw [if_neg hk] at h
          injection h with h
          injection h with h1 _
          subst h1
          have hp := lexOne_pos _ _ _ ho
          simp only at hp
          obtain ⟨n, rfl⟩ : ∃ n', n = n' + 1 := ⟨n - 1, by omega⟩
          have hh := (hidden_head ho)
          refine ⟨c, cs.take n, rfl, ?_, ?_⟩
          · cases hb : isBlank c with
            | false => rfl
            | true => exact absurd (hh.mpr (.inl hb)) hk
          · intro hb
            exact hk (hh.mpr (.inr hb))

/-! A match is no longer than the text. -/

theorem takeWhile_le (f : Char → Bool) (s : Str) : (s.takeWhile f).length ≤ s.length := by
  induction s with
  | nil => simp
  | cons c s ih =>
    rw [List.takeWhile_cons]
    split
    · simp; omega
    · simp

theorem exponentLen_le (p : Str) : exponentLen p ≤ p.length := by
  unfold exponentLen
  split
  · rename_i e sign r
    have := digitsLen_le r
    split <;> simp <;> omega
  · omega

theorem unsignedLen_le (p : Str) : unsignedLen p ≤ p.length := by
  unfold unsignedLen
  simp only
  split
  · omega
  · have h1 := digitsLen_le p
    have h2 := fractionLen_le (p.drop (digitsLen p))
    have h3 := exponentLen_le (p.drop (digitsLen p + fractionLen (p.drop (digitsLen p))))
    rw [List.length_drop] at h2 h3
    omega

theorem stringLen_le : ∀ (s : Str) (slash : Bool) (n m : Nat), stringLen slash n s = some m →
    m ≤ n + s.length
  | [], _, _, _, h => by simp [stringLen] at h
  | c :: cs, slash, n, m, h => by
    unfold stringLen at h
    split at h
    · split at h
      · split at h
        · rename_i m' hm
          injection h with h
          subst h
          have := stringLen_le cs _ _ _ hm
          simp; omega
        · injection h with h; subst h; simp
      · injection h with h; subst h; simp
    · have := stringLen_le cs _ _ _ h
      simp; omega

theorem rawLen_le (one : Bool) (q : Str) : ∀ (s : Str) (n m : Nat), rawLen one q n s = some m →
    m ≤ n + s.length
  | [], _, _, h => by simp [rawLen] at h
  | c :: cs, n, m, h => by
    unfold rawLen at h
    split at h
    · cases h
    · split at h
      · rename_i hq
        obtain ⟨r, hr⟩ := List.isPrefixOf_iff_prefix.mp hq
        injection h with h
        subst h
        rw [← hr]
        simp; omega
      · have := rawLen_le one q cs _ _ h
        simp; omega

theorem pathLen_le : ∀ (s : Str) (b : Bool), pathLen b s ≤ s.length
  | [], _ => by simp [pathLen]
  | c :: s, b => by
    have h1 := pathLen_le s true
    have h2 := pathLen_le s false
    unfold pathLen
    split
    · simp; omega
    · split
      · split
        · omega
        · rename_i n hn
          simp; omega
      · omega

theorem sepLen_le (f : Char → Bool) (c : Char) (k : Str → Nat) (hk : ∀ s, k s ≤ s.length) (s : Str) :
    sepLen f c k s ≤ s.length := by
  by_cases h : sepLen f c k s = 0
  · omega
  · obtain ⟨l, u, -, -, rfl, -, e⟩ := sepLen_ne h
    rw [e]
    have := hk u
    simp; omega

theorem restLen_le (s : Str) : restLen s ≤ s.length := by
  unfold restLen
  split
  · rename_i h
    obtain ⟨r, hr⟩ := List.isPrefixOf_iff_prefix.mp h
    have := sepLen_le isHostChar '/' (pathLen false) (fun s => pathLen_le s false) (s.drop 2)
    rw [← hr] at this ⊢
    simp at this ⊢
    unfold plus
    split <;> omega
  · exact pathLen_le s false

theorem plainLen_le (s : Str) : plainLen s ≤ s.length := by
  unfold plainLen
  split
  · rename_i r
    have := pathLen_le r false
    split <;> simp <;> omega
  · exact pathLen_le s false

theorem keywordRule_le (s : Str) (m : Match) (h : keywordRule s = some m) : m.2 ≤ s.length := by
  obtain ⟨w, -, h1, h2⟩ := keywordRule_some s m h
  have := congrArg List.length h2
  rw [List.length_map, List.length_take] at this
  omega

theorem symbolRule_le (s : Str) (m : Match) (h : symbolRule s = some m) : m.2 ≤ s.length := by
  unfold symbolRule at h
  split at h <;> first | (injection h with h; subst h; simp; done) | cases h

theorem identifierRule_le (s : Str) (m : Match) (h : identifierRule s = some m) : m.2 ≤ s.length := by
  unfold identifierRule at h
  split at h
  · rename_i c cs
    split at h
    · injection h with h; subst h
      have := takeWhile_le isWordChar cs
      simp; omega
    · cases h
  · cases h

theorem numberRule_le (s : Str) (m : Match) (h : numberRule s = some m) : m.2 ≤ s.length := by
  unfold numberRule at h
  split at h
  · rename_i r
    have := unsignedLen_le r
    split at h
    · cases h
    · injection h with h; subst h; simp; omega
  · have := unsignedLen_le s
    split at h
    · cases h
    · injection h with h; subst h; simp; omega

theorem stringRule_le (s : Str) (m : Match) (h : stringRule s = some m) : m.2 ≤ s.length := by
  unfold stringRule at h
  split at h
  · rename_i r
    cases hs : stringLen false 1 r with
    | none => rw [hs] at h; cases h
    | some n =>
      rw [hs] at h
      simp at h
      subst h
      have := stringLen_le _ _ _ _ hs
      simp; omega
  · cases h

theorem rawRule_le (t : Str) (one : Bool) (s : Str) (m : Match) (h : rawRule t one s = some m) :
    m.2 ≤ s.length := by
  unfold rawRule at h
  split at h
  · rename_i hp
    obtain ⟨r, rfl⟩ := List.isPrefixOf_iff_prefix.mp hp
    rw [List.drop_left] at h
    cases hs : rawLen one t t.length r with
    | none => rw [hs] at h; cases h
    | some n =>
      rw [hs] at h
      simp at h
      subst h
      have := rawLen_le _ _ _ _ _ hs
      simp; omega
  · cases h

theorem commentRule_le (s : Str) (m : Match) (h : commentRule s = some m) : m.2 ≤ s.length := by
  unfold commentRule at h
  split at h
  · rename_i r
    simp only at h
    have h0 := takeWhile_le (fun c => c ≠ '\r' && c ≠ '\n') r
    generalize (r.takeWhile (fun c => c ≠ '\r' && c ≠ '\n')).length = n at *
    have hl := congrArg List.length (List.take_append_drop n r)
    rw [List.length_append, List.length_take] at hl
    split at h
    · injection h with h; subst h; simp; omega
    · rename_i hd
      injection h with h; subst h
      rw [hd] at hl
      simp at hl ⊢
      omega
    · rename_i hd
      injection h with h; subst h
      rw [hd] at hl
      simp at hl ⊢
      omega
    · cases h
  · cases h

theorem spaceRule_le (s : Str) (m : Match) (h : spaceRule s = some m) : m.2 ≤ s.length := by
  unfold spaceRule at h
  split at h
  · split at h
    · injection h with h; subst h; simp
    · cases h
  · cases h

theorem uriRule_le (s : Str) (m : Match) (h : uriRule s = some m) : m.2 ≤ s.length := by
  rw [uriRule_eq] at h
  have h1 := plainLen_le s
  have h2 : schemeLen s ≤ s.length := by
    rw [schemeLen_eq]; exact sepLen_le _ _ _ restLen_le s
  split at h
  · cases h
  · injection h with h; subst h
    simp only
    omega

theorem lexOne_le (md : Mode) (s : Str) (m : Match) (h : lexOne md s = some m) : m.2 ≤ s.length := by
  cases md with
  | default =>
    have hm := longest_mem _ _ h
    simp only [List.mem_cons, List.not_mem_nil, or_false] at hm
    rcases hm with h | h | h | h | h | h | h | h | h | h
    · exact keywordRule_le _ _ h.symm
    · exact symbolRule_le _ _ h.symm
    · exact identifierRule_le _ _ h.symm
    · exact numberRule_le _ _ h.symm
    · exact stringRule_le _ _ h.symm
    · exact rawRule_le _ _ _ _ h.symm
    · exact rawRule_le _ _ _ _ h.symm
    · exact rawRule_le _ _ _ _ h.symm
    · exact commentRule_le _ _ h.symm
    · exact spaceRule_le _ _ h.symm
  | extensions =>
    have hm := longest_mem _ _ h
    simp only [List.mem_cons, List.not_mem_nil, or_false] at hm
    rcases hm with h | h | h
    · exact uriRule_le _ _ h.symm
    · split at h
      · injection h with h; subst h; simp
      · cases h
    · exact spaceRule_le _ _ h.symm

/-- The first token of a text that starts with it. -/
theorem lexM_first {m : Mode} {s : Str} {t : Token} {ts : List Token}
    (h : lexM m (t.text ++ s) = some (t :: ts)) :
    t.text ≠ [] ∧ hidden t.kind = false ∧ lexOne m (t.text ++ s) = some (t.kind, t.text.length) ∧
      lexM (nextMode m t.kind) s = some ts := by
  obtain ⟨d, r, hd, hb, hsl⟩ := lexF_head _ _ _ _ _ h
  have hne : t.text ≠ [] := by rw [hd]; simp
  cases ho : lexOne m (t.text ++ s) with
  | none =>
    exfalso
    rw [hd, List.cons_append] at ho h
    unfold lexM at h
    rw [List.length_cons, lexF, ho] at h
    cases h
  | some q =>
    obtain ⟨k, n⟩ := q
    have hk : hidden k = false := by
      rw [hd, List.cons_append] at ho
      cases hk : hidden k with
      | false => rfl
      | true =>
        rcases (hidden_head ho).mp hk with h | h
        · rw [hb] at h; cases h
        · exact absurd h hsl
    have hkey : t.kind = k ∧ t.text = (t.text ++ s).take n := by
      have h' := h
      unfold lexM at h'
      rw [hd, List.cons_append] at ho h' ⊢
      rw [List.length_cons, lexF, ho] at h'
      simp only at h'
      split at h'
      · cases h'
      · rw [if_neg (by simp [hk])] at h'
        injection h' with h'
        injection h' with h1 h2
        rw [← h1] at hd
        simp only at hd
        rw [← h1]
        exact ⟨rfl, hd.symm⟩
    have hn : t.text.length = n := by
      have hle := lexOne_le _ _ _ ho
      have := congrArg List.length hkey.2
      rw [List.length_take] at this
      simp only at hle
      omega
    subst hn
    obtain ⟨rfl, -⟩ := hkey
    refine ⟨hne, hk, rfl, ?_⟩
    rw [lexM_step m t.text s t.kind hne ho] at h
    unfold seen at h
    rw [if_neg (by simp [hk])] at h
    cases hr : lexM (nextMode m t.kind) s with
    | none => rw [hr] at h; cases h
    | some us =>
      rw [hr] at h
      simp at h
      rw [h]

/-! ## Strings -/

/-- Whether a text, after a backslash or not, ends in a backslash. -/
def endsSlash (slash : Bool) : Str → Bool
  | [] => slash
  | c :: b => endsSlash (c = '\\') b

theorem stringLen_firm : ∀ (b : Str) (slash : Bool) (n : Nat) (r r' : Str), endsSlash slash b = false →
    stringLen slash n (b ++ '"' :: r) = some (n + b.length + 1) →
    stringLen slash n (b ++ '"' :: r') = some (n + b.length + 1)
  | [], slash, n, r, r', hs, h => by
    unfold endsSlash at hs
    subst hs
    rfl
  | c :: b, slash, n, r, r', hs, h => by
    rw [List.cons_append] at *
    unfold stringLen at h ⊢
    unfold endsSlash at hs
    by_cases hc : c = '"'
    · subst hc
      rw [if_pos rfl] at h ⊢
      cases slash with
      | false => simp at h
      | true =>
        simp only [if_true] at h ⊢
        cases hr : stringLen false (n + 1) (b ++ '"' :: r) with
        | none => rw [hr] at h; simp at h
        | some m =>
          rw [hr] at h
          simp only [List.length_cons] at h
          injection h with h
          have hr' : stringLen false (n + 1) (b ++ '"' :: r) = some (n + 1 + b.length + 1) := by
            rw [hr, h]; congr 1; omega
          rw [stringLen_firm b false (n + 1) r r' hs hr']
          simp only [List.length_cons]
          congr 1; omega
    · rw [if_neg hc] at h ⊢
      have h' : stringLen (decide (c = '\\')) (n + 1) (b ++ '"' :: r) = some (n + 1 + b.length + 1) := by
        rw [h]; simp only [List.length_cons]; congr 1; omega
      rw [stringLen_firm b _ (n + 1) r r' hs h']
      simp only [List.length_cons]
      congr 1; omega

theorem endsSlash_last : ∀ (b : Str) (slash : Bool), b ≠ [] → b.getLast? ≠ some '\\' →
    endsSlash slash b = false
  | [], _, h, _ => absurd rfl h
  | [c], slash, _, h => by
    unfold endsSlash endsSlash
    simpa using h
  | c :: d :: b, slash, _, h => by
    unfold endsSlash
    exact endsSlash_last (d :: b) _ (by simp) (by simpa [List.getLast?_cons_cons] using h)

theorem rawLen_ge (one : Bool) (q : Str) : ∀ (s : Str) (n m : Nat), rawLen one q n s = some m →
    n + 1 + q.length ≤ m
  | [], _, _, h => by simp [rawLen] at h
  | c :: cs, n, m, h => by
    unfold rawLen at h
    split at h
    · cases h
    · split at h
      · injection h with h; omega
      · have := rawLen_ge one q cs _ _ h
        omega

theorem rawLen_firm (one : Bool) (q : Str) : ∀ (u : Str) (n : Nat) (s s' : Str),
    rawLen one q n (u ++ s) = some (n + u.length) → rawLen one q n (u ++ s') = some (n + u.length)
  | [], n, s, s', h => by
    have := rawLen_ge _ _ _ _ _ h
    simp at this
    omega
  | c :: u, n, s, s', h => by
    rw [List.cons_append] at *
    unfold rawLen at h ⊢
    by_cases h1 : one = true ∧ c = '`'
    · rw [if_pos h1] at h; cases h
    · rw [if_neg h1] at h ⊢
      have mono : q.length ≤ u.length → ∀ x y : Str, q.isPrefixOf (u ++ x) = true →
          q.isPrefixOf (u ++ y) = true := by
        intro hl x y hp
        rw [List.isPrefixOf_iff_prefix] at *
        have := List.prefix_of_prefix_length_le hp (List.prefix_append u x) hl
        exact this.trans (List.prefix_append u y)
      by_cases hq : q.isPrefixOf (u ++ s) = true
      · rw [if_pos hq] at h
        injection h with h
        simp at h
        rw [if_pos (mono (by omega) s s' hq)]
        simp
        omega
      · rw [if_neg hq] at h
        have h' : rawLen one q (n + 1) (u ++ s) = some (n + 1 + u.length) := by
          rw [h]; simp; omega
        have hge := rawLen_ge _ _ _ _ _ h'
        rw [if_neg fun hq' => hq (mono (by omega) s' s hq'), rawLen_firm one q u (n + 1) s s' h']
        simp; omega

/-- Where the closing marks stand, there is a match or an earlier one. -/
theorem rawLen_before (q : Str) : ∀ (b : Str) (n : Nat) (r : Str), b ≠ [] →
    ∃ m, rawLen false q n (b ++ q ++ r) = some m ∧ m ≤ n + b.length + q.length
  | [], _, _, h => absurd rfl h
  | [c], n, r, _ => by
    refine ⟨n + 1 + q.length, ?_, by simp⟩
    show rawLen false q n (c :: (q ++ r)) = _
    unfold rawLen
    rw [if_neg (by simp), if_pos]
    rw [List.isPrefixOf_iff_prefix]
    exact List.prefix_append q r
  | c :: d :: b, n, r, _ => by
    obtain ⟨m, h1, h2⟩ := rawLen_before q (d :: b) (n + 1) r (by simp)
    rw [List.cons_append, List.cons_append]
    unfold rawLen
    rw [if_neg (by simp)]
    split
    · refine ⟨_, rfl, ?_⟩
      simp
    · exact ⟨m, h1, by simp at h2 ⊢; omega⟩

theorem rawRule_firm (t : Str) (one : Bool) (u s s' : Str)
    (h : rawRule t one (t ++ u ++ s) = some (.string, (t ++ u).length)) :
    rawRule t one (t ++ u ++ s') = some (.string, (t ++ u).length) := by
  unfold rawRule at *
  have hp : ∀ x, t.isPrefixOf (t ++ u ++ x) = true := by
    intro x
    rw [List.isPrefixOf_iff_prefix]
    exact ⟨u ++ x, by simp⟩
  rw [if_pos (hp _)] at *
  rw [List.append_assoc, List.drop_left] at *
  have h' : rawLen one t t.length (u ++ s) = some (t.length + u.length) := by
    cases hr : rawLen one t t.length (u ++ s) with
    | none => rw [hr] at h; cases h
    | some m => rw [hr] at h; simp at h; rw [h]
  rw [rawLen_firm one t u _ s s' h']
  simp

theorem rawRule_none (t : Str) (one : Bool) (s : Str) (h : ¬ t <+: s) : rawRule t one s = none := by
  unfold rawRule
  rw [if_neg]
  rwa [List.isPrefixOf_iff_prefix]

theorem rawRule_tick (s : Str) : rawRule "`".toList true ('`' :: '`' :: s) = none := by
  rfl

theorem rawRule_ge (t : Str) (one : Bool) (s : Str) (m : Match) (h : rawRule t one s = some m) :
    t.length + 1 + t.length ≤ m.2 := by
  unfold rawRule at h
  split at h
  · cases hs : rawLen one t t.length (s.drop t.length) with
    | none => rw [hs] at h; cases h
    | some n =>
      rw [hs] at h
      simp at h
      subst h
      exact rawLen_ge _ _ _ _ _ hs
  · cases h

theorem tick_length {u s : Str} {n : Nat} (h : lexDefault ('`' :: u ++ s) = some (.string, n)) :
    3 ≤ n := by
  rw [List.cons_append, lexDefault_tick] at h
  have hm := longest_mem _ _ h
  simp only [List.mem_cons, List.not_mem_nil, or_false] at hm
  rcases hm with h | h | h
  · have := rawRule_ge _ _ _ _ h.symm; simp at this; omega
  · have := rawRule_ge _ _ _ _ h.symm; simp at this; omega
  · have := rawRule_ge _ _ _ _ h.symm; simp at this; omega

theorem prefix_cut {q t s : Str} (h : q <+: t ++ s) (hl : q.length ≤ t.length) : q <+: t :=
  List.prefix_of_prefix_length_le h (List.prefix_append t s) hl

theorem lexDefault_string {t s : Str} (s' : Str) (hf : FirmString t)
    (h : lexDefault (t ++ s) = some (.string, t.length)) :
    lexDefault (t ++ s') = some (.string, t.length) := by
  rcases hf with ⟨b, rfl, hb⟩ | ⟨⟨u, rfl⟩, hn⟩ | ⟨b, hb, rfl⟩
  · rw [List.cons_append, lexDefault_quote] at *
    unfold stringRule at *
    simp only [List.append_assoc, List.cons_append, List.nil_append] at *
    have h' : stringLen false 1 (b ++ '"' :: s) = some (1 + b.length + 1) := by
      cases hr : stringLen false 1 (b ++ '"' :: s) with
      | none => rw [hr] at h; cases h
      | some m => rw [hr] at h; simp at h; rw [h]; congr 1; omega
    have he : endsSlash false b = false := by
      by_cases hn : b = []
      · subst hn; rfl
      · exact endsSlash_last b false hn hb
    rw [stringLen_firm b false 1 s s' he h']
    simp
    omega
  · have h3 := tick_length h
    have n3 : ∀ x, rawRule "```".toList false ("`".toList ++ u ++ x) = none :=
      fun x => rawRule_none _ _ _ fun hp => hn (prefix_cut hp h3)
    have one : ∀ x, lexDefault ("`".toList ++ u ++ x) = longest [rawRule "`".toList true
        ("`".toList ++ u ++ x), rawRule "``".toList false ("`".toList ++ u ++ x), none] := by
      intro x
      rw [← n3 x]
      exact lexDefault_tick _
    rw [one] at h ⊢
    cases u with
    | nil => simp at h3
    | cons d u =>
      by_cases hd : d = '`'
      · subst hd
        have e1 : ∀ x, rawRule "`".toList true ("`".toList ++ '`' :: u ++ x) = none :=
          fun x => rawRule_tick _
        rw [e1] at h ⊢
        have h' : rawRule "``".toList false ("``".toList ++ u ++ s) =
            some (.string, ("``".toList ++ u).length) := by
          have hm := longest_mem _ _ h
          simp only [List.mem_cons, List.not_mem_nil, or_false, reduceCtorEq, false_or] at hm
          exact hm.symm
        have := rawRule_firm _ _ _ s s' h'
        have e' : rawRule "``".toList false ("`".toList ++ '`' :: u ++ s') =
          some (.string, ("`".toList ++ '`' :: u).length) := this
        rw [e']
        rfl
      · have e2 : ∀ x, rawRule "``".toList false ("`".toList ++ d :: u ++ x) = none := by
          intro x
          apply rawRule_none
          intro hp
          have := prefix_cut hp (by simp)
          obtain ⟨w, hw⟩ := this
          simp at hw
          exact hd hw.1.symm
        rw [e2] at h ⊢
        have h' : rawRule "`".toList true ("`".toList ++ d :: u ++ s) =
            some (.string, ("`".toList ++ d :: u).length) := by
          have hm := longest_mem _ _ h
          simp only [List.mem_cons, List.not_mem_nil, or_false, reduceCtorEq] at hm
          exact hm.symm
        rw [rawRule_firm _ _ _ s s' h']
        rfl
  · have e1 : ∀ x, rawRule "`".toList true ("```".toList ++ b ++ "```".toList ++ x) = none :=
      fun x => rawRule_tick _
    have e2 : ∀ x, ∃ n, rawRule "``".toList false ("```".toList ++ b ++ "```".toList ++ x) =
        some (.string, n) ∧ n < ("```".toList ++ b ++ "```".toList).length := by
      intro x
      obtain ⟨m, h1, h2⟩ := rawLen_before "``".toList ('`' :: b) 2 ('`' :: x) (by simp)
      refine ⟨m, ?_, ?_⟩
      · unfold rawRule
        rw [if_pos (by rfl)]
        have : (List.drop "``".toList.length ("```".toList ++ b ++ "```".toList ++ x)) =
            '`' :: b ++ "``".toList ++ '`' :: x := by simp
        rw [this]
        show Option.map _ (rawLen false "``".toList 2 _) = _
        rw [h1]
        rfl
      · simp at h2 ⊢
        omega
    have e : ∀ x, lexDefault ("```".toList ++ b ++ "```".toList ++ x) = longest [rawRule "`".toList true
        ("```".toList ++ b ++ "```".toList ++ x), rawRule "``".toList false
        ("```".toList ++ b ++ "```".toList ++ x), rawRule "```".toList false
        ("```".toList ++ b ++ "```".toList ++ x)] := fun x => lexDefault_tick _
    rw [e, e1] at h ⊢
    obtain ⟨n, h2, h2'⟩ := e2 s
    obtain ⟨n', h3, h3'⟩ := e2 s'
    rw [h2] at h
    rw [h3]
    have hr : rawRule "```".toList false ("```".toList ++ (b ++ "```".toList) ++ s) =
        some (.string, ("```".toList ++ (b ++ "```".toList)).length) := by
      have hm := longest_mem _ _ h
      simp only [List.mem_cons, List.not_mem_nil, or_false, reduceCtorEq, false_or] at hm
      rcases hm with hm | hm
      · injection hm with hm
        injection hm with _ hm
        omega
      · rw [← List.append_assoc]
        exact hm.symm
    have := rawRule_firm _ _ _ s s' hr
    rw [← List.append_assoc] at this
    rw [this]
    simp only [longest]
    rw [if_pos (by simpa using h3')]

/-! ## Other tokens -/

/-- The rules of the words, the signs and the numbers. -/
def wordRules : List (Str → Option Match) := [keywordRule, symbolRule, identifierRule, numberRule]

/-- The best of them. -/
def wordRule (s : Str) : Option Match := longest (wordRules.map fun r => r s)

theorem wordRule_cuts : Cuts wordRule := by
  apply longest_cuts
  intro r hr
  simp only [wordRules, List.mem_cons, List.not_mem_nil, or_false] at hr
  rcases hr with rfl | rfl | rfl | rfl
  · exact keywordRule_cuts
  · exact symbolRule_cuts
  · exact identifierRule_cuts
  · exact numberRule_cuts

theorem wordRule_ends : Ends wordRule := by
  apply longest_ends
  intro r hr
  simp only [wordRules, List.mem_cons, List.not_mem_nil, or_false] at hr
  rcases hr with rfl | rfl | rfl | rfl
  · exact keywordRule_ends
  · exact symbolRule_ends
  · exact identifierRule_ends
  · exact numberRule_ends

theorem lexDefault_plain (c : Char) (r : Str) (h1 : c ≠ '"') (h2 : c ≠ '`') (h3 : c ≠ '/')
    (h4 : isBlank c = false) : lexDefault (c :: r) = wordRule (c :: r) := by
  have n1 : stringRule (c :: r) = none := by
    unfold stringRule
    split
    · rename_i h; injection h with h _; exact absurd h h1
    · rfl
  have n2 : ∀ t one, t.head? = some '`' → rawRule t one (c :: r) = none := by
    intro t one ht
    apply rawRule_none
    rintro ⟨w, hw⟩
    cases t with
    | nil => cases ht
    | cons d t =>
      simp at ht hw
      exact h2 (hw.1.symm.trans ht)
  have n3 : commentRule (c :: r) = none := by
    unfold commentRule
    split
    · rename_i h; injection h with h _; exact absurd h h3
    · rfl
  have n4 : spaceRule (c :: r) = none := by
    unfold spaceRule
    simp [h4]
  unfold lexDefault
  rw [n1, n2 _ _ rfl, n2 _ _ rfl, n2 _ _ rfl, n3, n4]
  rfl

/-- What can stand behind a token in a mode without changing it. -/
def StopIn : Mode → Str → Prop
  | .default => Stop
  | .extensions => StopUri

theorem StopIn.stop {m : Mode} {y : Str} (h : StopIn m y) : Stop y := by
  cases m
  · exact h
  · exact StopUri.stop h

theorem lexDefault_same {t c y y' : Str} {k : Tk} (hne : t ≠ []) (hs : k = .string → FirmString t)
    (hk : hidden k = false) (h : lexDefault (t ++ (c ++ y)) = some (k, t.length)) (hy : Stop y') :
    lexDefault (t ++ (c ++ y')) = some (k, t.length) := by
  cases t with
  | nil => exact absurd rfl hne
  | cons d t =>
    have hh := hidden_head (m := .default) h
    have hb : isBlank d = false := by
      cases hb : isBlank d with
      | false => rfl
      | true => rw [hh.mpr (.inl hb)] at hk; cases hk
    have hsl : d ≠ '/' := by
      intro hd
      rw [hh.mpr (.inr ⟨rfl, hd⟩)] at hk
      cases hk
    by_cases h1 : d = '"'
    · subst h1
      have : k = .string := by
        rw [List.cons_append, lexDefault_quote] at h
        exact stringRule_seen _ _ h
      subst this
      exact lexDefault_string _ (hs rfl) h
    by_cases h2 : d = '`'
    · subst h2
      have : k = .string := by
        rw [List.cons_append, lexDefault_tick] at h
        have hm := longest_mem _ _ h
        simp only [List.mem_cons, List.not_mem_nil, or_false] at hm
        rcases hm with h | h | h <;> exact rawRule_seen _ _ _ _ h.symm
      subst this
      exact lexDefault_string _ (hs rfl) h
    rw [List.cons_append, lexDefault_plain _ _ h1 h2 hsl hb, ← List.cons_append, ← List.append_assoc] at *
    have e1 := wordRule_cuts (d :: t ++ c) y (by
      intro m hm
      rw [h] at hm
      injection hm with hm
      subst hm
      simp)
    have e2 := wordRule_ends (d :: t ++ c) y' (by simp) hy
    rw [e2, e1]
    exact h

/-- The brace that ends the mode. -/
def braceRule (s : Str) : Option Match :=
  match s with
  | '{' :: _ => some (Tk.leftBrace, 1)
  | _ => none

theorem lexExtensions_eq (s : Str) : lexExtensions s = longest [uriRule s, braceRule s, spaceRule s] :=
  rfl

theorem braceRule_cons (c : Char) (p y : Str) : braceRule (c :: p ++ y) = braceRule (c :: p) := by
  unfold braceRule
  simp only [List.cons_append]
  by_cases hc : c = '{'
  · subst hc; rfl
  · split
    · rename_i h; injection h with h _; exact absurd h hc
    · split
      · rename_i h; injection h with h _; exact absurd h hc
      · rfl

theorem braceRule_cuts : Cuts braceRule := by
  intro p x h
  cases p with
  | nil =>
    cases hx : braceRule ([] ++ x) with
    | none => rfl
    | some m =>
      have h1 := h m hx
      unfold braceRule at hx
      split at hx
      · injection hx with hx; subst hx; simp at h1
      · cases hx
  | cons c p => rw [braceRule_cons]

theorem spaceRule_cuts : Cuts spaceRule := by
  intro p x h
  cases p with
  | nil =>
    cases hx : spaceRule ([] ++ x) with
    | none => rfl
    | some m =>
      have h1 := h m hx
      have h2 := spaceRule_pos _ _ hx
      simp at h1
      omega
  | cons c p => rfl

theorem lexExtensions_cuts : Cuts lexExtensions := by
  have := longest_cuts [uriRule, braceRule, spaceRule] (by
    intro r hr
    simp only [List.mem_cons, List.not_mem_nil, or_false] at hr
    rcases hr with rfl | rfl | rfl
    · exact uriRule_cuts
    · exact braceRule_cuts
    · exact spaceRule_cuts)
  exact this

theorem lexExtensions_ends (p y : Str) (hp : p ≠ []) (hy : StopUri y) :
    lexExtensions (p ++ y) = lexExtensions p := by
  rw [lexExtensions_eq, lexExtensions_eq, uriRule_ends p y hy]
  cases p with
  | nil => exact absurd rfl hp
  | cons c p =>
    rw [braceRule_cons]
    rfl

theorem lexExtensions_kind {s : Str} {n : Nat} (h : lexExtensions s = some (.leftBrace, n)) :
    s.head? = some '{' := by
  have hm := longest_mem _ _ h
  simp only [List.mem_cons, List.not_mem_nil, or_false] at hm
  rcases hm with h | h | h
  · have := uriRule_seen _ _ h.symm; cases this
  · split at h
    · rfl
    · cases h
  · unfold spaceRule at h
    split at h
    · split at h <;> cases h
    · cases h

/-- A token stays the same with something else behind it. -/
theorem lexOne_same {m : Mode} {t c y y' : Str} {k : Tk} (hne : t ≠ []) (hs : k = .string → FirmString t)
    (hk : hidden k = false) (h : lexOne m (t ++ (c ++ y)) = some (k, t.length))
    (hy : StopIn (nextMode m k) y') : lexOne m (t ++ (c ++ y')) = some (k, t.length) := by
  cases m with
  | default => exact lexDefault_same hne hs hk h hy.stop
  | extensions =>
    by_cases hb : k = .leftBrace
    · subst hb
      have h1 := lexExtensions_kind h
      cases t with
      | nil => exact absurd rfl hne
      | cons d t =>
        simp at h1
        subst h1
        have h2 : lexExtensions ('{' :: (t ++ (c ++ y))) = _ := h
        rw [lexExtensions_brace] at h2
        show lexExtensions ('{' :: (t ++ (c ++ y'))) = _
        rw [lexExtensions_brace, h2]
    · have hy' : StopUri y' := by
        have : nextMode .extensions k = .extensions := by
          cases k <;> first | rfl | exact absurd rfl hb
        rw [this] at hy
        exact hy
      show lexExtensions _ = _
      have h' : lexExtensions (t ++ (c ++ y)) = some (k, t.length) := h
      rw [← List.append_assoc] at *
      have e1 := lexExtensions_cuts (t ++ c) y (by
        intro m hm
        rw [h'] at hm
        injection hm with hm
        subst hm
        simp)
      rw [lexExtensions_ends (t ++ c) y' (by simp [hne]) hy', e1]
      exact h'

/-- Up to where two texts with the same tokens agree. -/
theorem relaid_common {m : Mode} {s s' : Str} {ts : List Token} (h : Relaid m s s' ts)
    (hl : lexM m s = some ts) : ∃ c y y', s = c ++ y ∧ s' = c ++ y' ∧ StopIn m y' := by
  have stop : ∀ {m : Mode} {d : Char} {r : Str}, (isBlank d = true ∨ (m = .default ∧ d = '/')) →
      StopIn m (d :: r) := by
    intro m d r h
    cases m with
    | default =>
      intro e he
      simp at he
      subst he
      unfold stops
      rcases h with h | ⟨-, rfl⟩
      · rw [h]; rfl
      · decide
    | extensions =>
      intro e he
      simp at he
      subst he
      unfold stopsUri
      rcases h with h | ⟨h, -⟩
      · rw [h]; rfl
      · cases h
  have nil : ∀ m, StopIn m [] := by
    intro m
    cases m <;> intro c hc <;> cases hc
  induction h with
  | @done m e e' h h' =>
    refine ⟨[], e, e', rfl, rfl, ?_⟩
    by_cases hn : e' = []
    · subst hn; exact nil _
    · obtain ⟨d, r, rfl, hd⟩ := h'.head hn
      exact stop hd
  | @more m g g' s s' t ts hg hg' hgg hf h ih =>
    by_cases hn : g' = []
    · subst hn
      have : g = [] := by
        by_cases h0 : g = []
        · exact h0
        · exact absurd rfl (hgg h0)
      subst this
      rw [List.nil_append] at hl ⊢
      obtain ⟨hne, hk, ho, hr⟩ := lexM_first hl
      by_cases hb : m = .extensions ∧ t.kind = .leftBrace
      · obtain ⟨rfl, hb⟩ := hb
        refine ⟨[], _, _, rfl, rfl, ?_⟩
        rw [hb] at ho
        have h1 := lexExtensions_kind ho
        cases htx : t.text with
        | nil => exact absurd htx hne
        | cons d tx =>
          rw [htx] at h1
          simp at h1
          subst h1
          intro e he
          simp at he
          subst he
          decide
      · obtain ⟨c, y, y', rfl, rfl, hy⟩ := ih hr
        refine ⟨t.text ++ c, y, y', by simp, by simp, ?_⟩
        cases m with
        | default => exact hy.stop
        | extensions =>
          have : nextMode .extensions t.kind = .extensions := by
            cases hkk : t.kind <;> first | rfl | exact absurd ⟨rfl, hkk⟩ hb
          rw [this] at hy
          exact hy
    · refine ⟨[], _, _, rfl, rfl, ?_⟩
      obtain ⟨d, r, rfl, hd⟩ := hg'.head hn
      exact stop hd

theorem relaid_lex {m : Mode} {s s' : Str} {ts : List Token} (h : Relaid m s s' ts)
    (hl : lexM m s = some ts) : lexM m s' = some ts := by
  induction h with
  | done _ h' => exact lexM_lastGap h'
  | @more m g g' s s' t ts hg hg' hgg hf h ih =>
    rw [List.append_assoc, lexM_gap hg] at hl
    rw [List.append_assoc, lexM_gap hg']
    obtain ⟨hne, hk, ho, hr⟩ := lexM_first hl
    obtain ⟨c, y, y', rfl, rfl, hy⟩ := relaid_common h hr
    rw [lexM_step m t.text _ t.kind hne (lexOne_same hne hf hk ho hy), ih hr]
    unfold seen
    rw [if_neg (by simp [hk])]
    rfl

/-! ## Every text has gaps and tokens -/

theorem Gap.append {m : Mode} {g g' : Str} (h : Gap m g) (h' : Gap m g') : Gap m (g ++ g') := by
  induction h with
  | none => exact h'
  | blank hc _ ih => exact .blank hc (ih h')
  | @comment c e g h1 h2 he _ ih =>
    have := Gap.comment h1 h2 he (ih h')
    simp only [List.append_assoc] at *
    exact this

theorem LastGap.after {m : Mode} {g g' : Str} (h : Gap m g) (h' : LastGap m g') : LastGap m (g ++ g') := by
  cases h' with
  | gap h' => exact .gap (h.append h')
  | @comment g' c h' h1 h2 =>
    have := LastGap.comment (h.append h') h1 h2
    simp only [List.append_assoc] at *
    exact this

/-- A text as gaps and tokens. -/
inductive Laid : Mode → Str → List Token → Prop
  | done {m e} : LastGap m e → Laid m e []
  | more {m g s t ts} : Gap m g → Laid (nextMode m t.kind) s ts → Laid m (g ++ t.text ++ s) (t :: ts)

theorem Laid.after {m : Mode} {g s : Str} {ts : List Token} (h : Gap m g) (h' : Laid m s ts) :
    Laid m (g ++ s) ts := by
  cases h' with
  | done h1 => exact .done (.after h h1)
  | more h1 h2 =>
    have := Laid.more (h.append h1) h2
    simp only [List.append_assoc] at *
    exact this

theorem Laid.relaid {m : Mode} {s : Str} {ts : List Token} (h : Laid m s ts)
    (hf : ∀ t ∈ ts, t.kind = .string → FirmString t.text) : Relaid m s (spaced ts) ts := by
  induction h with
  | done h1 => exact .done h1 (.gap (.none _))
  | @more m g s t ts h1 _ ih =>
    exact Relaid.more (g' := [' ']) h1 (.blank (by simp) (.none _)) (by simp) (hf t (by simp))
      (ih fun u hu => hf u (by simp [hu]))

theorem takeWhile_mem (f : Char → Bool) : ∀ (s : Str), ∀ c ∈ s.takeWhile f, f c = true
  | [], c, h => by simp at h
  | d :: s, c, h => by
    rw [List.takeWhile_cons] at h
    split at h
    · rcases List.mem_cons.mp h with rfl | h
      · assumption
      · exact takeWhile_mem f s c h
    · simp at h

/-- What a comment is made of. -/
theorem commentRule_parts (s : Str) (n : Nat) (h : commentRule s = some (.comment, n)) :
    ∃ c, '\r' ∉ c ∧ '\n' ∉ c ∧ ((s = "//".toList ++ c ∧ n = s.length) ∨
      ∃ e r, e ∈ ["\n".toList, "\r\n".toList] ∧ s = "//".toList ++ c ++ e ++ r ∧
        n = ("//".toList ++ c ++ e).length) := by
  unfold commentRule at h
  split at h
  · rename_i r
    simp only at h
    obtain ⟨l, v, rfl, h1, h2⟩ := takeWhile_spec (fun c => c ≠ '\r' && c ≠ '\n') r
    rw [takeWhile_of _ l v h1 h2, List.drop_left] at h
    have hr : '\r' ∉ l := fun hm => by have := h1 _ hm; simp at this
    have hn : '\n' ∉ l := fun hm => by have := h1 _ hm; simp at this
    refine ⟨l, hr, hn, ?_⟩
    split at h
    · injection h with h; injection h with _ h; subst h
      left
      simp
    · injection h with h; injection h with _ h; subst h
      right
      rename_i v _
      exact ⟨"\n".toList, v, by simp, by simp, by simp⟩
    · injection h with h; injection h with _ h; subst h
      right
      rename_i v _
      exact ⟨"\r\n".toList, v, by simp, by simp, by simp⟩
    · cases h
  · cases h

/-- What is hidden is a gap, or a comment at the end. -/
theorem hidden_gap {m : Mode} {c : Char} {r : Str} {k : Tk} {n : Nat}
    (h : lexOne m (c :: r) = some (k, n)) (hk : hidden k = true) :
    Gap m ((c :: r).take n) ∨ (LastGap m (c :: r) ∧ (c :: r).drop n = []) := by
  rcases (hidden_head h).mp hk with hb | ⟨rfl, rfl⟩
  · rw [lexOne_blank m c r hb] at h
    injection h with h
    injection h with _ h
    subst h
    left
    refine Gap.blank ?_ (.none _)
    unfold isBlank at hb
    simp only [Bool.or_eq_true, decide_eq_true_eq] at hb
    simp only [List.mem_cons, List.not_mem_nil, or_false]
    rcases hb with (((h | h) | h) | h) | h <;> simp [h]
  · have h' : lexDefault ('/' :: r) = some (k, n) := h
    rw [lexDefault_slash] at h'
    have hc := commentRule_kind _ _ h'
    simp only at hc
    subst hc
    obtain ⟨c, h1, h2, ⟨e, rfl⟩ | ⟨e, r', he, e2, rfl⟩⟩ := commentRule_parts _ _ h'
    · right
      rw [e]
      exact ⟨LastGap.comment (.none _) h1 h2, by simp⟩
    · left
      rw [e2, List.take_left]
      have := Gap.comment h1 h2 he (.none .default)
      rw [List.append_nil] at this
      exact this

theorem lexF_laid : ∀ (f : Nat) (m : Mode) (s : Str) (ts : List Token), lexF f m s = some ts →
    Laid m s ts
  | _, m, [], _, h => by
    simp [lexF] at h
    subst h
    exact .done (.gap (.none m))
  | 0, _, _ :: _, _, h => by simp [lexF] at h
  | f + 1, m, c :: cs, ts, h => by
    simp only [lexF] at h
    cases ho : lexOne m (c :: cs) with
    | none => rw [ho] at h; cases h
    | some q =>
      obtain ⟨k, n⟩ := q
      rw [ho] at h
      simp only at h
      cases hr : lexF f (nextMode m k) ((c :: cs).drop n) with
      | none => rw [hr] at h; cases h
      | some us =>
        rw [hr] at h
        simp only at h
        have ih := lexF_laid f _ _ _ hr
        by_cases hk : hidden k = true
        · rw [if_pos hk] at h
          injection h with h
          subst h
          rw [nextMode_hidden m k hk] at ih hr
          rcases hidden_gap ho hk with hg | ⟨hg, hd⟩
          · have := Laid.after hg ih
            rw [List.take_append_drop] at this
            exact this
          · rw [hd] at hr
            simp [lexF] at hr
            subst hr
            exact .done hg
        · rw [if_neg hk] at h
          injection h with h
          subst h
          have := Laid.more (t := ⟨k, (c :: cs).take n⟩) (Gap.none m) ih
          rw [List.nil_append] at this
          simp only [List.take_append_drop] at this
          exact this

end Verif.Lex
