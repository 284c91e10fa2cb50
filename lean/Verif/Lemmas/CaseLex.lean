import Verif.Lemmas.LayoutSteps
import Verif.Lemmas.Layout
import Verif.Lemmas.TypeSplit

/-!
The lexer does not look at the case of letters: a text in lower case has the tokens of the text,
in lower case.
-/

namespace Verif.Lex

open Verif

/-- A text in lower case. -/
def lowS (s : Str) : Str := s.map toLower

/-- A token in lower case. -/
def Token.low (t : Token) : Token := ⟨t.kind, lowS t.text⟩

/-- The tokens in lower case. -/
def lows (ts : List Token) : List Token := ts.map Token.low

@[simp] theorem low_kind (t : Token) : t.low.kind = t.kind := rfl
@[simp] theorem low_text (t : Token) : t.low.text = lowS t.text := rfl
@[simp] theorem lows_nil : lows [] = [] := rfl
@[simp] theorem lows_cons (t : Token) (ts : List Token) : lows (t :: ts) = t.low :: lows ts := rfl
@[simp] theorem lows_length (ts : List Token) : (lows ts).length = ts.length := by simp [lows]
@[simp] theorem lows_tail (ts : List Token) : (lows ts).tail = lows ts.tail := by
  cases ts <;> rfl
@[simp] theorem lowS_nil : lowS [] = [] := rfl
@[simp] theorem lowS_length (s : Str) : (lowS s).length = s.length := by simp [lowS]
@[simp] theorem lowS_cons (c : Char) (s : Str) : lowS (c :: s) = toLower c :: lowS s := rfl
@[simp] theorem lowS_append (s t : Str) : lowS (s ++ t) = lowS s ++ lowS t := by simp [lowS]
theorem lowS_drop (s : Str) (n : Nat) : lowS (s.drop n) = (lowS s).drop n := by simp [lowS, List.map_drop]
theorem lowS_take (s : Str) (n : Nat) : lowS (s.take n) = (lowS s).take n := by simp [lowS, List.map_take]
@[simp] theorem lowS_idem (s : Str) : lowS (lowS s) = lowS s := Ty.map_lower_lower s

/-- A sign in lower case is itself, and nothing else becomes it. -/
theorem sign_iff {c d : Char} (h : isLetter d = false) : toLower c = d ↔ c = d := by
  apply toLower_eq_iff <;>
  · simp [isLetter] at h
    omega

theorem lower_digit {p : Char → Bool} (h : ∀ c, p (toLower c) = p c) (s : Str) :
    ((lowS s).takeWhile p).length = (s.takeWhile p).length := by
  induction s with
  | nil => rfl
  | cons c cs ih =>
    simp only [lowS_cons, List.takeWhile_cons, h c]
    cases p c <;> simp [ih]

/-- What is a letter in lower case is one. -/
theorem lower_same {c : Char} (h : isLetter c = false) : toLower c = c := by
  apply toLower_eq_self
  simp [isLetter] at h
  omega

theorem fixedRule_low (s w : Str) (k : Tk) : fixedRule (lowS s) w k = fixedRule s w k := by
  unfold fixedRule
  rw [← lowS_take]
  show (if lowS (lowS _) = w then _ else _) = _
  rw [lowS_idem]
  rfl

theorem keywordRule_low (s : Str) : keywordRule (lowS s) = keywordRule s := by
  unfold keywordRule
  simp only [fixedRule_low]

theorem symbolRule_letter {c : Char} (h : isLetter c = true) (r : Str) : symbolRule (c :: r) = none := by
  apply symbolRule_other
  intro hc
  revert h
  simp only [List.mem_cons, List.not_mem_nil, or_false] at hc
  rcases hc with h | h | h | h | h | h | h | h | h | h | h | h | h | h | h | h | h <;> subst h <;> decide

theorem symbolRule_low (s : Str) : symbolRule (lowS s) = symbolRule s := by
  cases s with
  | nil => rfl
  | cons c r =>
    rw [lowS_cons]
    cases hl : isLetter c with
    | true => rw [symbolRule_letter hl, symbolRule_letter (by rw [isLetter_toLower]; exact hl)]
    | false =>
      rw [lower_same hl]
      by_cases hc : c = '-'
      · subst hc
        cases r with
        | nil => rfl
        | cons d r =>
          by_cases hd : d = '>'
          · subst hd; rfl
          · rw [symbolRule_minus (d :: r) (by simpa using hd), symbolRule_minus]
            have := (sign_iff (c := d) (d := '>') (by decide)).1
            simp only [lowS_cons, List.head?_cons, Option.some.injEq, ne_eq]
            exact fun h => hd (this h)
      · rw [symbolRule_one c _ hc, symbolRule_one c r hc]

theorem isWordChar_lower (c : Char) : isWordChar (toLower c) = isWordChar c := by
  unfold isWordChar
  rw [isLetter_toLower, isDigit_toLower]
  simp only [sign_iff (c := c) (d := '$') (by decide)]

theorem identifierRule_low (s : Str) : identifierRule (lowS s) = identifierRule s := by
  cases s with
  | nil => rfl
  | cons c r => simp only [identifierRule, lowS_cons, isLetter_toLower, lower_digit isWordChar_lower]

theorem digitsLen_low (s : Str) : digitsLen (lowS s) = digitsLen s := lower_digit isDigit_toLower s

theorem fractionLen_low (s : Str) : fractionLen (lowS s) = fractionLen s := by
  cases s with
  | nil => rfl
  | cons c r =>
    rw [lowS_cons]
    by_cases hc : c = '.'
    · subst hc; simp only [fractionLen, show toLower '.' = '.' from rfl, digitsLen_low]
    · have : toLower c ≠ '.' := fun h => hc ((sign_iff (by decide)).1 h)
      simp [fractionLen, hc, this]

theorem lower_e {c : Char} : (toLower c = 'e' ∨ toLower c = 'E') ↔ (c = 'e' ∨ c = 'E') := by
  have h := toLower_toNat c
  constructor
  · rintro (h' | h')
    · rw [h'] at h
      split at h
      · right; exact char_ext_nat (by simp at h ⊢; omega)
      · left; exact char_ext_nat (by simp at h ⊢; omega)
    · rw [h'] at h
      split at h <;> simp at h
      · omega
      · right; exact char_ext_nat (by simp; omega)
  · rintro (rfl | rfl) <;> decide

theorem exponentLen_low (s : Str) : exponentLen (lowS s) = exponentLen s := by
  cases s with
  | nil => rfl
  | cons c r =>
    cases r with
    | nil => rfl
    | cons d r =>
      simp only [exponentLen, lowS_cons, lower_e, sign_iff (c := d) (d := '+') (by decide),
        sign_iff (c := d) (d := '-') (by decide), digitsLen_low]

theorem unsignedLen_low (s : Str) : unsignedLen (lowS s) = unsignedLen s := by
  simp only [unsignedLen, digitsLen_low, ← lowS_drop, fractionLen_low, exponentLen_low]

theorem numberRule_low (s : Str) : numberRule (lowS s) = numberRule s := by
  cases s with
  | nil => rfl
  | cons c r =>
    by_cases hc : c = '-'
    · subst hc
      rw [lowS_cons, show toLower '-' = '-' from rfl, numberRule_minus, numberRule_minus, unsignedLen_low]
    · have : toLower c ≠ '-' := fun h => hc ((sign_iff (by decide)).1 h)
      rw [lowS_cons, numberRule_plain _ _ this, numberRule_plain _ _ hc, ← lowS_cons, unsignedLen_low]

theorem stringLen_low (s : Str) : ∀ (slash : Bool) (n : Nat),
    stringLen slash n (lowS s) = stringLen slash n s := by
  induction s with
  | nil => intros; rfl
  | cons c r ih =>
    intro slash n
    simp only [stringLen, lowS_cons, sign_iff (c := c) (d := '"') (by decide),
      sign_iff (c := c) (d := '\\') (by decide), ih]

theorem stringRule_low (s : Str) : stringRule (lowS s) = stringRule s := by
  cases s with
  | nil => rfl
  | cons c r =>
    by_cases hc : c = '"'
    · subst hc
      simp only [stringRule, lowS_cons, show toLower '"' = '"' from rfl, stringLen_low]
    · have : toLower c ≠ '"' := fun h => hc ((sign_iff (by decide)).1 h)
      simp [stringRule, hc, this]

/-- A text without letters is in front of a text, whatever the case of its letters. -/
theorem isPrefixOf_low : ∀ (q s : Str), (∀ c ∈ q, isLetter c = false) →
    q.isPrefixOf (lowS s) = q.isPrefixOf s
  | [], _, _ => by simp
  | _ :: _, [], _ => rfl
  | d :: q, c :: s, h => by
    simp only [lowS_cons, List.isPrefixOf]
    rw [isPrefixOf_low q s fun c hc => h c (by simp [hc])]
    congr 1
    rw [Bool.eq_iff_iff]
    simp only [beq_iff_eq]
    rw [eq_comm, sign_iff (h d (by simp)), eq_comm]

theorem rawLen_low (one : Bool) (q : Str) (hq : ∀ c ∈ q, isLetter c = false) (s : Str) :
    ∀ n : Nat, rawLen one q n (lowS s) = rawLen one q n s := by
  induction s with
  | nil => intros; rfl
  | cons c r ih =>
    intro n
    simp only [rawLen, lowS_cons, sign_iff (c := c) (d := '`') (by decide), isPrefixOf_low q r hq, ih]

theorem rawRule_low (q : Str) (hq : ∀ c ∈ q, isLetter c = false) (one : Bool) (s : Str) :
    rawRule q one (lowS s) = rawRule q one s := by
  simp only [rawRule, isPrefixOf_low q s hq, ← lowS_drop, rawLen_low one q hq]

/-- A character that does not end a line. -/
def lineChar (c : Char) : Bool := c ≠ '\r' && c ≠ '\n'

theorem lineChar_lower (c : Char) : lineChar (toLower c) = lineChar c := by
  unfold lineChar
  simp only [ne_eq, sign_iff (c := c) (d := '\r') (by decide), sign_iff (c := c) (d := '\n') (by decide)]

/-- The end of a comment. -/
def commentEnd (n : Nat) (r : Str) : Option Match :=
  match r with
  | [] => some (.comment, n + 2)
  | '\n' :: _ => some (.comment, n + 3)
  | '\r' :: '\n' :: _ => some (.comment, n + 4)
  | _ => none

theorem commentEnd_low (n : Nat) (r : Str) : commentEnd n (lowS r) = commentEnd n r := by
  cases r with
  | nil => rfl
  | cons c r =>
    by_cases hn : c = '\n'
    · subst hn; rfl
    by_cases hr : c = '\r'
    · subst hr
      cases r with
      | nil => rfl
      | cons d r =>
        by_cases hd : d = '\n'
        · subst hd; rfl
        · have : toLower d ≠ '\n' := fun h => hd ((sign_iff (by decide)).1 h)
          simp [commentEnd, show toLower '\r' = '\r' from rfl, this, hd]
    · have h1 : toLower c ≠ '\n' := fun h => hn ((sign_iff (by decide)).1 h)
      have h2 : toLower c ≠ '\r' := fun h => hr ((sign_iff (by decide)).1 h)
      simp [commentEnd, hn, hr, h1, h2]

theorem commentRule_low (s : Str) : commentRule (lowS s) = commentRule s := by
  cases s with
  | nil => rfl
  | cons c r =>
    by_cases hc : c = '/'
    · subst hc
      cases r with
      | nil => rfl
      | cons d r =>
        by_cases hd : d = '/'
        · subst hd
          show commentEnd ((lowS r).takeWhile lineChar).length
              ((lowS r).drop ((lowS r).takeWhile lineChar).length) =
            commentEnd (r.takeWhile lineChar).length (r.drop (r.takeWhile lineChar).length)
          rw [lower_digit lineChar_lower, ← lowS_drop, commentEnd_low]
        · have : toLower d ≠ '/' := fun h => hd ((sign_iff (by decide)).1 h)
          simp [commentRule, this, hd]
    · have : toLower c ≠ '/' := fun h => hc ((sign_iff (by decide)).1 h)
      simp [commentRule, this, hc]

theorem isBlank_lower (c : Char) : isBlank (toLower c) = isBlank c := by
  unfold isBlank
  simp only [sign_iff (c := c) (d := ' ') (by decide), sign_iff (c := c) (d := '\x0b') (by decide),
    sign_iff (c := c) (d := '\t') (by decide), sign_iff (c := c) (d := '\r') (by decide),
    sign_iff (c := c) (d := '\n') (by decide)]

theorem spaceRule_low (s : Str) : spaceRule (lowS s) = spaceRule s := by
  cases s with
  | nil => rfl
  | cons c r => simp only [spaceRule, lowS_cons, isBlank_lower]

theorem lexDefault_low (s : Str) : lexDefault (lowS s) = lexDefault s := by
  simp only [lexDefault, keywordRule_low, symbolRule_low, identifierRule_low, numberRule_low,
    stringRule_low, commentRule_low, spaceRule_low]
  rw [rawRule_low _ (by decide), rawRule_low _ (by decide), rawRule_low _ (by decide)]

theorem isFileChar_lower (c : Char) : isFileChar (toLower c) = isFileChar c := by
  unfold isFileChar
  simp only [isLetter_toLower, isDigit_toLower, sign_iff (c := c) (d := '-') (by decide),
    sign_iff (c := c) (d := '.') (by decide), sign_iff (c := c) (d := '_') (by decide)]

theorem isHostChar_lower (c : Char) : isHostChar (toLower c) = isHostChar c := by
  unfold isHostChar
  simp only [isLetter_toLower, isDigit_toLower, sign_iff (c := c) (d := '-') (by decide),
    sign_iff (c := c) (d := '.') (by decide)]

theorem pathLen_low (s : Str) : ∀ inName : Bool, pathLen inName (lowS s) = pathLen inName s := by
  induction s with
  | nil => intros; rfl
  | cons c r ih =>
    intro inName
    simp only [pathLen, lowS_cons, isFileChar_lower, sign_iff (c := c) (d := '/') (by decide), ih]

/-- What follows the scheme of a URI. -/
def afterScheme (a : Nat) (t : Str) : Nat :=
  match t with
  | ':' :: '/' :: '/' :: r =>
    let h := (r.takeWhile isHostChar).length
    match r.drop h with
    | '/' :: r' => if h = 0 ∨ pathLen false r' = 0 then 0 else a + h + 4 + pathLen false r'
    | _ => 0
  | ':' :: r => if pathLen false r = 0 then 0 else a + 1 + pathLen false r
  | _ => 0

/-- What follows the host of a URI. -/
def afterHost (a h : Nat) (t : Str) : Nat :=
  match t with
  | '/' :: r' => if h = 0 ∨ pathLen false r' = 0 then 0 else a + h + 4 + pathLen false r'
  | _ => 0

theorem afterHost_low (a h : Nat) (t : Str) : afterHost a h (lowS t) = afterHost a h t := by
  cases t with
  | nil => rfl
  | cons c r =>
    by_cases hc : c = '/'
    · subst hc; simp only [afterHost, lowS_cons, show toLower '/' = '/' from rfl, pathLen_low]
    · have : toLower c ≠ '/' := fun h => hc ((sign_iff (by decide)).1 h)
      simp [afterHost, this, hc]

theorem afterScheme_one (a : Nat) (r : Str) (h : ∀ r', r ≠ '/' :: '/' :: r') :
    afterScheme a (':' :: r) = if pathLen false r = 0 then 0 else a + 1 + pathLen false r := by
  unfold afterScheme
  split
  · rename_i r' e; injection e with _ e; exact absurd e (h _)
  · rename_i e; injection e with _ e; subst e; rfl
  · rename_i e; exact absurd rfl (e _)

theorem afterScheme_low (a : Nat) (t : Str) : afterScheme a (lowS t) = afterScheme a t := by
  cases t with
  | nil => rfl
  | cons c r =>
    by_cases hc : c = ':'
    · subst hc
      by_cases h : ∃ r', r = '/' :: '/' :: r'
      · obtain ⟨r', rfl⟩ := h
        show afterHost a ((lowS r').takeWhile isHostChar).length
            ((lowS r').drop ((lowS r').takeWhile isHostChar).length) =
          afterHost a (r'.takeWhile isHostChar).length (r'.drop (r'.takeWhile isHostChar).length)
        rw [lower_digit isHostChar_lower, ← lowS_drop, afterHost_low]
      · have h1 : ∀ r', r ≠ '/' :: '/' :: r' := fun r' e => h ⟨r', e⟩
        have h2 : ∀ r', lowS r ≠ '/' :: '/' :: r' := by
          clear h
          have h := h1
          clear h1
          intro r' e
          match r, h, e with
          | [], _, e => cases e
          | [_], _, e => simp at e
          | c :: d :: r, h, e =>
            simp only [lowS_cons, List.cons.injEq] at e
            exact h r (by rw [(sign_iff (by decide)).1 e.1, (sign_iff (by decide)).1 e.2.1])
        rw [lowS_cons, show toLower ':' = ':' from rfl, afterScheme_one a _ h1, afterScheme_one a _ h2,
          pathLen_low]
    · have : toLower c ≠ ':' := fun h => hc ((sign_iff (by decide)).1 h)
      simp [afterScheme, this, hc]

theorem schemeLen_low (s : Str) : schemeLen (lowS s) = schemeLen s := by
  show (let a := ((lowS s).takeWhile isLetter).length
    if a = 0 then 0 else afterScheme a ((lowS s).drop a)) =
    (let a := (s.takeWhile isLetter).length
    if a = 0 then 0 else afterScheme a (s.drop a))
  simp only [lower_digit isLetter_toLower, ← lowS_drop, afterScheme_low]

/-- A URI without a scheme. -/
def noSchemeLen (s : Str) : Nat :=
  match s with
  | '/' :: r => if pathLen false r = 0 then 0 else pathLen false r + 1
  | _ => pathLen false s

theorem noSchemeLen_low (s : Str) : noSchemeLen (lowS s) = noSchemeLen s := by
  cases s with
  | nil => rfl
  | cons c r =>
    by_cases hc : c = '/'
    · subst hc; simp only [noSchemeLen, lowS_cons, show toLower '/' = '/' from rfl, pathLen_low]
    · have : toLower c ≠ '/' := fun h => hc ((sign_iff (by decide)).1 h)
      have h1 : noSchemeLen (c :: r) = pathLen false (c :: r) := by
        unfold noSchemeLen; split
        · rename_i e; injection e with e _; exact absurd e hc
        · rfl
      have h2 : noSchemeLen (lowS (c :: r)) = pathLen false (lowS (c :: r)) := by
        unfold noSchemeLen; split
        · rename_i e; injection e with e _; exact absurd e this
        · rfl
      rw [h1, h2, pathLen_low]

theorem uriRule_low (s : Str) : uriRule (lowS s) = uriRule s := by
  show (if max (noSchemeLen (lowS s)) (schemeLen (lowS s)) = 0 then none
    else some (Tk.uri, max (noSchemeLen (lowS s)) (schemeLen (lowS s)))) =
    (if max (noSchemeLen s) (schemeLen s) = 0 then none else some (Tk.uri, max (noSchemeLen s) (schemeLen s)))
  rw [noSchemeLen_low, schemeLen_low]

/-- The brace after a URI. -/
theorem braceRule_low (s : Str) : braceRule (lowS s) = braceRule s := by
  cases s with
  | nil => rfl
  | cons c r =>
    by_cases hc : c = '{'
    · subst hc; rfl
    · have : toLower c ≠ '{' := fun h => hc ((sign_iff (by decide)).1 h)
      simp [braceRule, this, hc]

theorem lexExtensions_low (s : Str) : lexExtensions (lowS s) = lexExtensions s := by
  show longest [uriRule (lowS s), braceRule (lowS s), spaceRule (lowS s)] =
    longest [uriRule s, braceRule s, spaceRule s]
  rw [uriRule_low, braceRule_low, spaceRule_low]

theorem lexOne_low (m : Mode) (s : Str) : lexOne m (lowS s) = lexOne m s := by
  cases m
  · exact lexDefault_low s
  · exact lexExtensions_low s

theorem lexF_low (fuel : Nat) : ∀ (m : Mode) (s : Str),
    lexF fuel m (lowS s) = (lexF fuel m s).map lows := by
  induction fuel with
  | zero => intro m s; cases s <;> rfl
  | succ fuel ih =>
    intro m s
    cases s with
    | nil => rfl
    | cons c r =>
      have h := lexOne_low m (c :: r)
      rw [lowS_cons] at h
      simp only [lexF, lowS_cons, h]
      cases lexOne m (c :: r) with
      | none => rfl
      | some k =>
        obtain ⟨k, n⟩ := k
        simp only
        rw [← lowS_cons, ← lowS_drop, ih]
        cases lexF fuel (nextMode m k) ((c :: r).drop n) with
        | none => rfl
        | some ts =>
          simp only [Option.map_some]
          cases hidden k <;> simp [Token.low, lowS_take]

/-- **The tokens of a text in lower case** are its tokens in lower case. -/
theorem lex_low (s : Str) : lex (lowS s) = (lex s).map lows := by
  unfold lex
  rw [lowS_length, lexF_low]

end Verif.Lex
