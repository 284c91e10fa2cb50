import Verif.Model.Parser
import Verif.Lemmas.LexSteps

/-!
# Lexing and parsing names, numbers and types piece by piece
-/

namespace Verif.Parse

open Verif Lex Tree

/-! ## Names -/

/-- A text that is an identifier of the grammar, with its tokens. -/
structure Name (s : Str) (ts : List Token) : Prop where
  chars : ∀ c ∈ s, isNameChar c = true
  lexes : lex s = some ts
  kinds : ∀ t ∈ ts, idKind t.kind = true
  parses : parseId ts = some (s, [])

instance (s : Str) (ts : List Token) : Decidable (Name s ts) :=
  decidable_of_iff ((∀ c ∈ s, isNameChar c = true) ∧ lex s = some ts ∧
      (∀ t ∈ ts, idKind t.kind = true) ∧ parseId ts = some (s, []))
    ⟨fun ⟨a, b, c, d⟩ => ⟨a, b, c, d⟩, fun ⟨a, b, c, d⟩ => ⟨a, b, c, d⟩⟩

/-- A name in front of something that does not continue it. -/
theorem Name.lex_append {s : Str} {ts : List Token} (h : Name s ts) (rest : Str)
    (hr : NameEnd rest) : lex (s ++ rest) = (lex rest).map (ts ++ ·) :=
  lex_name s.length s rest ts (Nat.le_refl _) h.chars h.lexes h.kinds hr

theorem idTail_append : ∀ (ts : List Token) (acc pend : Str) (back : List Token) (s : Str)
    (rest : List Token), idTail acc pend back ts = (s, []) → ts.length ≤ back.length →
    (pend ≠ [] → ts.length < back.length) → nextIs .underscore rest = false →
    idTail acc pend (back ++ rest) (ts ++ rest) = (s, rest)
  | [], acc, pend, back, s, rest, h, _, hp, hr => by
    simp only [idTail, Prod.mk.injEq] at h
    obtain ⟨rfl, rfl⟩ := h
    have hpe : pend = [] := by
      cases pend with
      | nil => rfl
      | cons c p => have := hp (by simp); simp at this
    subst hpe
    cases rest with
    | nil => rfl
    | cons t r =>
      have hu : ¬ t.kind = .underscore := by simpa [nextIs] using hr
      simp [idTail, hu]
  | t :: ts, acc, pend, back, s, rest, h, hl, hp, hr => by
    simp only [List.cons_append, idTail] at h ⊢
    by_cases hu : t.kind = .underscore
    · simp only [hu, if_true] at h ⊢
      exact idTail_append ts acc _ back s rest h (by simp at hl; omega)
        (fun _ => by simp at hl; omega) hr
    · simp only [hu, if_false] at h ⊢
      by_cases hs : (isSimpleId t.kind && !pend.isEmpty) = true
      · simp only [hs, if_true] at h ⊢
        exact idTail_append ts _ [] ts s rest h (Nat.le_refl _) (by simp) hr
      · simp only [hs] at h ⊢
        simp only [Bool.false_eq_true, if_false, Prod.mk.injEq] at h
        obtain ⟨-, hb⟩ := h
        subst hb
        simp at hl

theorem Name.parse_append {s : Str} {ts : List Token} (h : Name s ts) (rest : List Token)
    (hr : nextIs .underscore rest = false) : parseId (ts ++ rest) = some (s, rest) := by
  have hp := h.parses
  cases ts with
  | nil => simp [parseId] at hp
  | cons t ts =>
    simp only [List.cons_append, parseId] at hp ⊢
    split at hp
    · rename_i hk
      simp only [Option.some.injEq] at hp
      rw [if_pos hk, idTail_append ts t.text [] ts s rest hp (Nat.le_refl _) (by simp) hr]
    · simp at hp

theorem Name.head {s : Str} {ts : List Token} (h : Name s ts) :
    ∃ t r, ts = t :: r ∧ isSimpleId t.kind = true := by
  have hp := h.parses
  cases ts with
  | nil => simp [parseId] at hp
  | cons t r =>
    simp only [parseId] at hp
    split at hp
    · exact ⟨t, r, rfl, by assumption⟩
    · simp at hp

/-! ## Texts cut into tokens -/

/-- In front of every text that `ok` allows, `a` gives the tokens `ts`. -/
def Lexes (a : Str) (ts : List Token) (ok : Str → Prop) : Prop :=
  ∀ rest, ok rest → lex (a ++ rest) = (lex rest).map (ts ++ ·)

theorem Lexes.nil (ok : Str → Prop) : Lexes [] [] ok := by
  intro rest _
  simp

/-- One piece after the other. -/
theorem Lexes.append {a b : Str} {ts us : List Token} {p q : Str → Prop} (h : Lexes a ts p)
    (h' : Lexes b us q) (hp : ∀ rest, q rest → p (b ++ rest)) : Lexes (a ++ b) (ts ++ us) q := by
  intro rest hr
  rw [List.append_assoc, h _ (hp rest hr), h' rest hr, Option.map_map]
  congr 1
  funext x
  simp

theorem Lexes.mono {a : Str} {ts : List Token} {p q : Str → Prop} (h : Lexes a ts p)
    (hq : ∀ rest, q rest → p rest) : Lexes a ts q := fun rest hr => h rest (hq rest hr)

theorem lexes_sign (c : Char) (k : Tk) (h : (c, k) ∈ signs) (hk : hidden k = false)
    (ok : Str → Prop) : Lexes [c] [⟨k, [c]⟩] ok := by
  intro rest _
  rw [lex_step [c] rest k (step_sign c rest k h), seen, hk]
  rfl

theorem lexes_blank (c : Char) (h : c = ' ' ∨ c = '\n') (ok : Str → Prop) : Lexes [c] [] ok := by
  intro rest _
  rw [lex_step [c] rest .spaces (step_blank c rest h)]
  rfl

theorem lexes_arrow (ok : Str → Prop) : Lexes "->".toList [⟨.arrow, "->".toList⟩] ok := by
  intro rest _
  rw [lex_step _ rest .arrow (step_arrow rest)]
  rfl

theorem lexes_int (i : Int) : Lexes (intText i) [⟨.number, intText i⟩] NumEnd := by
  intro rest hr
  rw [lex_step _ rest .number (step_int i rest hr)]
  rfl

theorem Name.lexes_ {s : Str} {ts : List Token} (h : Name s ts) : Lexes s ts NameEnd :=
  fun rest hr => h.lex_append rest hr

/-! ## Numbers -/

theorem fractionLen_append (f rest : Str) (hf : f = [] ∨ ∃ d, f = '.' :: d ∧ TyPb.IsDigits d)
    (hr : ∀ c ∈ rest.head?, isDigit c = false ∧ c ≠ '.') : fractionLen (f ++ rest) = f.length := by
  rcases hf with rfl | ⟨d, rfl, hd⟩
  · unfold fractionLen
    split
    · rename_i heq
      have := hr '.' (by simp only [List.nil_append] at heq; rw [heq]; simp)
      exact absurd rfl this.2
    · rfl
  · have h := digitsLen_append d rest hd.2 (fun c hc => (hr c hc).1)
    have hl : d.length ≠ 0 := by simp [hd.1]
    simp [fractionLen, h, hl]

theorem exponentLen_append (x rest : Str) (hx : x = [] ∨ ∃ e sg d, x = e :: sg :: d ∧
    (e = 'e' ∨ e = 'E') ∧ (sg = '+' ∨ sg = '-') ∧ TyPb.IsDigits d)
    (hr : NumEnd rest) : exponentLen (x ++ rest) = x.length := by
  rcases hx with rfl | ⟨e, sg, d, rfl, he, hs, hd⟩
  · unfold exponentLen
    split
    · rename_i e sg r heq
      have := hr e (by simp only [List.nil_append] at heq; rw [heq]; simp)
      simp [this.2.2.1, this.2.2.2]
    · rfl
  · have h := digitsLen_append d rest hd.2 (fun c hc => (hr c hc).1)
    have hl : d.length ≠ 0 := by simp [hd.1]
    simp [exponentLen, h, hl, he, hs]

theorem unsignedLen_number (d f x rest : Str) (hd : TyPb.IsDigits d)
    (hf : f = [] ∨ ∃ d, f = '.' :: d ∧ TyPb.IsDigits d)
    (hx : x = [] ∨ ∃ e sg d, x = e :: sg :: d ∧ (e = 'e' ∨ e = 'E') ∧ (sg = '+' ∨ sg = '-') ∧
      TyPb.IsDigits d) (hr : NumEnd rest) :
    unsignedLen (d ++ f ++ x ++ rest) = (d ++ f ++ x).length := by
  have hxr : ∀ c ∈ (x ++ rest).head?, isDigit c = false ∧ c ≠ '.' := by
    intro c hc
    rcases hx with rfl | ⟨e, sg, d', rfl, he, -, -⟩
    · exact ⟨(hr c hc).1, (hr c hc).2.1⟩
    · simp at hc; subst hc; rcases he with rfl | rfl <;> decide
  have hfr : ∀ c ∈ (f ++ (x ++ rest)).head?, isDigit c = false := by
    intro c hc
    rcases hf with rfl | ⟨d', rfl, -⟩
    · exact (hxr c hc).1
    · simp at hc; subst hc; decide
  have e1 : digitsLen (d ++ f ++ x ++ rest) = d.length := by
    rw [List.append_assoc, List.append_assoc]
    exact digitsLen_append d _ hd.2 hfr
  have d1 : (d ++ f ++ x ++ rest).drop d.length = f ++ (x ++ rest) := by
    rw [List.append_assoc, List.append_assoc]; simp
  have d2 : (d ++ f ++ x ++ rest).drop (d.length + f.length) = x ++ rest := by
    rw [List.append_assoc, ← List.length_append]; simp
  have hl : d.length ≠ 0 := by simp [hd.1]
  unfold unsignedLen
  simp only [e1, if_neg hl, d1, fractionLen_append f _ hf hxr, d2, exponentLen_append x rest hx hr]
  simp [Nat.add_assoc]

theorem step_number (t rest : Str) (h : TyPb.IsNumberText t) (hr : NumEnd rest) :
    Step t rest .number := by
  obtain ⟨sign, d, f, x, rfl, hs, hd, hf, hx⟩ := h
  have hu := unsignedLen_number d f x rest hd hf hx hr
  obtain ⟨c, d', rfl⟩ : ∃ c d', d = c :: d' := by
    cases d with
    | nil => exact absurd rfl hd.1
    | cons c d' => exact ⟨c, d', rfl⟩
  have hc := hd.2 c (by simp)
  rcases hs with rfl | rfl
  · refine ⟨by simp, ?_, by simp⟩
    have hu' : unsignedLen (c :: (d' ++ f ++ x ++ rest)) = (c :: d' ++ f ++ x).length := by
      simpa using hu
    have hg : lexDefault (c :: (d' ++ f ++ x ++ rest)) = some (.number, (c :: d' ++ f ++ x).length) := by
      rw [lexDefault_digit c _ hc]
      unfold numberRule
      split
      · rename_i heq; simp at heq; rw [heq.1] at hc; exact absurd hc (by decide)
      · rw [hu']; simp
    simpa using hg
  · refine ⟨by simp, ?_, by simp⟩
    have hu' : unsignedLen (c :: (d' ++ f ++ x ++ rest)) = (c :: d' ++ f ++ x).length := by
      simpa using hu
    have e1 : keywordRule ('-' :: c :: (d' ++ f ++ x ++ rest)) = none :=
      keywordRule_none _ _ (by decide)
    have e2 : symbolRule ('-' :: c :: (d' ++ f ++ x ++ rest)) = some (.minus, 1) := by
      have : c ≠ '>' := digit_ne c hc '>' (by decide)
      simp [symbolRule, this]
    have e3 : numberRule ('-' :: c :: (d' ++ f ++ x ++ rest)) =
        some (.number, (c :: d' ++ f ++ x).length + 1) := by
      simp only [numberRule, hu']
      simp
    have e : lexDefault ('-' :: c :: (d' ++ f ++ x ++ rest)) =
        longest [keywordRule ('-' :: c :: (d' ++ f ++ x ++ rest)),
        symbolRule ('-' :: c :: (d' ++ f ++ x ++ rest)), none,
        numberRule ('-' :: c :: (d' ++ f ++ x ++ rest)), none, none, none, none, none, none] := by
      simp only [lexDefault]
      congr 1
    have hg : lexDefault ('-' :: c :: (d' ++ f ++ x ++ rest)) =
        some (.number, (c :: d' ++ f ++ x).length + 1) := by
      rw [e, e1, e2, e3]
      simp [longest]
    simpa using hg

theorem lexes_number (t : Str) (h : TyPb.IsNumberText t) : Lexes t [⟨.number, t⟩] NumEnd := by
  intro rest hr
  rw [lex_step _ rest .number (step_number t rest h hr)]
  rfl

/-! ## Types -/

/-- The tokens of numbers separated by commas. -/
def numberToks : List Str → List Token
  | [] => []
  | [n] => [⟨.number, n⟩]
  | n :: m :: r => ⟨.number, n⟩ :: ⟨.comma, [',']⟩ :: numberToks (m :: r)

/-- The tokens of an optional question mark. -/
def questionToks (q : Bool) : List Token := if q then [⟨.question, ['?']⟩] else []

/-- The tokens of a `literal_specifier`. -/
def specToks (numbers : List Str) : List Token :=
  if numbers.isEmpty then []
  else ⟨.leftAngle, ['<']⟩ :: numberToks numbers ++ [⟨.rightAngle, ['>']⟩]

/-- The tokens of a basic type whose name has the tokens `ts`. -/
def basicToks (ts : List Token) (q : Bool) (numbers : List Str) : List Token :=
  ts ++ (questionToks q ++ specToks numbers)

theorem numEnd_cons (c : Char) (r : Str) (h : isDigit c = false) (h1 : c ≠ '.') (h2 : c ≠ 'e')
    (h3 : c ≠ 'E') : NumEnd (c :: r) := by
  intro x hx; simp at hx; subst hx; exact ⟨h, h1, h2, h3⟩

theorem lexes_numbers : ∀ (numbers : List Str), (∀ n ∈ numbers, TyPb.IsNumberText n) →
    Lexes (commaText numbers) (numberToks numbers) NumEnd
  | [], _ => Lexes.nil _
  | [n], h => lexes_number n (h n (by simp))
  | n :: m :: r, h => by
    have h1 := lexes_number n (h n (by simp))
    have h2 : Lexes [','] [⟨.comma, [',']⟩] (fun _ => True) :=
      lexes_sign ',' .comma (by simp [signs]) rfl _
    have h3 := lexes_numbers (m :: r) (fun x hx => h x (by simp [hx]))
    have h4 := Lexes.append h2 h3 (fun _ _ => trivial)
    exact Lexes.append h1 h4 (fun rest _ => by
      show NumEnd (',' :: _)
      exact numEnd_cons _ _ (by decide) (by decide) (by decide) (by decide))

theorem lexes_question (q : Bool) (ok : Str → Prop) :
    Lexes (questionText q) (questionToks q) ok := by
  cases q
  · exact Lexes.nil _
  · exact lexes_sign '?' .question (by simp [signs]) rfl _

theorem nameEnd_cons (c : Char) (r : Str) (h : isNameChar c = false) : NameEnd (c :: r) := by
  intro x hx; simp at hx; subst hx; exact h

/-- The text of a `literal_specifier`. -/
def specText (numbers : List Str) : Str :=
  if numbers.isEmpty then [] else '<' :: commaText numbers ++ ['>']

theorem lexes_spec (numbers : List Str) (h : ∀ n ∈ numbers, TyPb.IsNumberText n)
    (ok : Str → Prop) : Lexes (specText numbers) (specToks numbers) ok := by
  unfold specText specToks
  cases hn : numbers.isEmpty
  · have h1 : Lexes ['<'] [⟨.leftAngle, ['<']⟩] (fun _ => True) :=
      lexes_sign '<' .leftAngle (by simp [signs]) rfl _
    have h2 := lexes_numbers numbers h
    have h3 : Lexes ['>'] [⟨.rightAngle, ['>']⟩] ok := lexes_sign '>' .rightAngle (by simp [signs]) rfl _
    have h4 := Lexes.append (Lexes.append h1 h2 (fun _ _ => trivial)) h3 (fun rest _ => by
      show NumEnd ('>' :: _)
      exact numEnd_cons _ _ (by decide) (by decide) (by decide) (by decide))
    exact h4
  · exact Lexes.nil _

/-- A basic type in front of something that does not continue its name. -/
theorem lexes_basic {id : Str} {ts : List Token} (hid : Name id ts) (q : Bool)
    (numbers : List Str) (h : ∀ n ∈ numbers, TyPb.IsNumberText n) :
    Lexes (TypeTree.basic id q numbers).text (basicToks ts q numbers) NameEnd := by
  have h1 := Lexes.append (lexes_question q (fun _ => True)) (lexes_spec numbers h NameEnd)
    (fun _ _ => trivial)
  have h2 := Lexes.append hid.lexes_ h1 (fun rest hr => by
    cases q
    · show NameEnd (specText numbers ++ rest)
      unfold specText
      cases numbers.isEmpty
      · exact nameEnd_cons _ _ (by decide)
      · exact hr
    · exact nameEnd_cons _ _ (by decide))
  have e : (TypeTree.basic id q numbers).text = id ++ (questionText q ++ specText numbers) := by
    simp only [TypeTree.text, specText, List.append_assoc]
  rw [e]
  exact h2

/-- No type goes on here. -/
def TyEnd (rest : List Token) : Prop :=
  nextIs .underscore rest = false ∧ nextIs .question rest = false ∧ nextIs .leftAngle rest = false

theorem parseNumbers_toks : ∀ (numbers : List Str) (rest : List Token), numbers ≠ [] →
    parseNumbers (numberToks numbers ++ ⟨.rightAngle, ['>']⟩ :: rest) = some (numbers, rest)
  | [], _, h => absurd rfl h
  | [n], rest, _ => by simp [numberToks, parseNumbers]
  | n :: m :: r, rest, _ => by
    have ih := parseNumbers_toks (m :: r) rest (by simp)
    simp [numberToks, parseNumbers, ih]

theorem parseBasic_toks {id : Str} {ts : List Token} (hid : Name id ts) (q : Bool)
    (numbers : List Str) (rest : List Token) (hr : numbers = [] → TyEnd rest) :
    parseBasic (basicToks ts q numbers ++ rest) = some (.basic id q numbers, rest) := by
  have hu : nextIs .underscore (questionToks q ++ specToks numbers ++ rest) = false := by
    cases q
    · cases numbers with
      | nil => exact (hr rfl).1
      | cons _ _ => simp [questionToks, specToks, nextIs]
    · simp [questionToks, nextIs]
  have hid' := hid.parse_append _ hu
  unfold parseBasic
  rw [basicToks, List.append_assoc, hid']
  simp only [Option.bind_some]
  have hq : parseQuestion (questionToks q ++ specToks numbers ++ rest) =
      (q, specToks numbers ++ rest) := by
    cases q
    · cases numbers with
      | nil => simp [questionToks, specToks, parseQuestion, (hr rfl).2.1]
      | cons _ _ => simp [questionToks, specToks, parseQuestion, nextIs]
    · simp [questionToks, parseQuestion, nextIs]
  simp only [hq]
  cases numbers with
  | nil => simp [specToks, (hr rfl).2.2]
  | cons n r =>
    have := parseNumbers_toks (n :: r) rest (by simp)
    simp [specToks, nextIs, this]

theorem parseType_toks {id : Str} {ts : List Token} (hid : Name id ts) (q : Bool)
    (numbers : List Str) (rest : List Token) (hr : numbers = [] → TyEnd rest) (f : Nat) :
    parseType (f + 1) (basicToks ts q numbers ++ rest) = some (.basic id q numbers, rest) := by
  obtain ⟨t, r, rfl, ht⟩ := hid.head
  have hb := parseBasic_toks hid q numbers rest hr
  rw [basicToks, List.cons_append, List.cons_append] at hb ⊢
  have h1 : t.kind ≠ .list := by intro h; rw [h] at ht; exact absurd ht (by decide)
  have h2 : t.kind ≠ .map := by intro h; rw [h] at ht; exact absurd ht (by decide)
  have h3 : t.kind ≠ .struct := by intro h; rw [h] at ht; exact absurd ht (by decide)
  rw [parseType, if_neg h1, if_neg h2, if_neg h3, hb]

end Verif.Parse
