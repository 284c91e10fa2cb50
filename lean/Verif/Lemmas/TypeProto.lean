import Verif.Spec.TypeProto
import Verif.Lemmas.TypeText
import Verif.Lemmas.TypeSplit

/-! Helper lemmas on type text in text plans. -/

namespace Verif.TyPb

open Verif Verif.Ty Verif.Tree StringUtils

/-! ## One level of brackets, for any name -/

/-- A name: not empty, no blanks, brackets, commas or question marks. -/
structure Word (w : Str) : Prop where
  ne : w ≠ []
  chars : ∀ c ∈ w, 33 ≤ c.toNat ∧ c ≠ '<' ∧ c ≠ '>' ∧ c ≠ ',' ∧ c ≠ '?'

theorem bracketHead_word {name : Str} (hn : Word name) (n : Bool) (inner : Str) :
    bracketHead (name ++ mark n ++ '<' :: inner ++ ['>']) (name ++ mark n).length =
      (if n = true ∧ '?' ∈ inner then name.map toLower ++ ['?'] else name.map toLower, n) := by
  have hlen : 0 < name.length := List.length_pos_iff.mpr hn.ne
  have hq : '?' ∉ name := fun h => (hn.chars _ h).2.2.2.2 rfl
  unfold bracketHead
  dsimp only
  rw [findLast_map_toLower (by decide) (by decide)]
  cases n with
  | false =>
    obtain ⟨name', c, rfl⟩ : ∃ l c, name = l ++ [c] := by
      exact ⟨_, _, (List.dropLast_concat_getLast hn.ne).symm⟩
    have hc : c ≠ '?' := by rintro rfl; simp at hq
    have : toLower c ≠ '?' := by
      rw [Ne, toLower_eq_iff (by decide) (by decide)]; exact hc
    have hnone : ¬ (1 < (name' ++ [c] ++ mark false).length ∧
        ((name' ++ [c] ++ mark false ++ '<' :: inner ++ ['>']).map toLower)[
          (name' ++ [c] ++ mark false).length - 1]? = some '?') := by
      rintro ⟨_, h2⟩
      simp [mark, this] at h2
    simp only [hnone, decide_false, if_false, Bool.false_eq_true, false_and]
    simp only [mark, List.append_nil, List.map_append]
    congr 1
    rw [show ∀ a b c d : Str, a ++ b ++ c ++ d = (a ++ b) ++ (c ++ d) from by simp]
    rw [List.take_left' (by simp)]
  | true =>
    have h1 : (1 < (name ++ mark true).length ∧
        ((name ++ mark true ++ '<' :: inner ++ ['>']).map toLower)[
          (name ++ mark true).length - 1]? = some '?') := by
      refine ⟨by simp [mark]; omega, ?_⟩
      simp [mark]
      decide
    simp only [h1, and_self, decide_true, if_true, true_and]
    by_cases hin : '?' ∈ inner
    · obtain ⟨a, b, rfl, hb, _⟩ : ∃ a b, inner = a ++ '?' :: b ∧ '?' ∉ b ∧ True := by
        cases hl : findLast '?' inner with
        | none => exact absurd hin (findLast_eq_none.mp hl)
        | some i => obtain ⟨a, b, e, hb, _⟩ := findLast_some hl; exact ⟨a, b, e, hb, trivial⟩
      have e : name ++ mark true ++ '<' :: (a ++ '?' :: b) ++ ['>'] =
          (name ++ mark true ++ '<' :: a) ++ '?' :: (b ++ ['>']) := by simp
      rw [e, findLast_append (by simp [hb])]
      simp only [hin, if_true]
      rw [Nat.min_eq_left (by simp), ← e]
      simp only [mark, List.map_append]
      congr 1
      rw [show ∀ a b c d : Str, a ++ b ++ c ++ d = (a ++ b) ++ (c ++ d) from by simp]
      rw [List.take_left' (by simp)]
      simp; decide
    · have e : name ++ mark true ++ '<' :: inner ++ ['>'] =
          name ++ '?' :: ('<' :: inner ++ ['>']) := by simp [mark]
      rw [e, findLast_append (by simp [hin])]
      simp only [hin, if_false]
      rw [Nat.min_eq_right (by simp), List.map_append, List.take_left' (by simp)]

theorem decode_word_angle {name : Str} (hn : Word name) (n p : Bool) {ws : List Str}
    (hne : ws ≠ []) (hin : ∀ w ∈ ws, Inert w) :
    decode p (name ++ mark n ++ '<' :: commas ws ++ ['>']) =
      (Outcome.mapM (decode p) ws).bind fun ps =>
        decodeByName (if n = true ∧ '?' ∈ commas ws then name.map toLower ++ ['?']
          else name.map toLower) p n ps := by
  have htrim : trim (name ++ mark n ++ '<' :: commas ws ++ ['>']) =
      name ++ mark n ++ '<' :: commas ws ++ ['>'] := by
    apply trim_eq_self
    · intro c hc
      cases name with
      | nil => exact absurd rfl hn.ne
      | cons d ds =>
        simp at hc; subst hc
        exact isSpace_letter (hn.chars d (by simp)).1
    · intro c hc
      rw [List.getLast?_concat] at hc
      cases hc; decide
  have hlt : '<' ∉ name ++ mark n := by
    have : '<' ∉ name := fun h => (hn.chars _ h).2.1 rfl
    cases n <;> simp [mark, this]
  have hfirst : findFirst '<' (name ++ mark n ++ '<' :: commas ws ++ ['>']) =
      some (name ++ mark n).length := by
    rw [List.append_assoc, List.cons_append]
    exact findFirst_append hlt
  have hlast : findLast '>' (name ++ mark n ++ '<' :: commas ws ++ ['>']) =
      some ((name ++ mark n ++ ['<']).length + (commas ws).length) := by
    rw [findLast_append (by simp)]
    simp; omega
  have htok : tokens (name ++ mark n ++ '<' :: commas ws ++ ['>'])
      (some ((name ++ mark n ++ ['<']).length + (commas ws).length))
      ((name ++ mark n).length + 1) = ws := by
    have := tokens_commas hne hin (name ++ mark n ++ ['<'])
    rw [show name ++ mark n ++ '<' :: commas ws ++ ['>'] =
      name ++ mark n ++ ['<'] ++ commas ws ++ ['>'] by simp]
    simpa [Nat.add_assoc] using this
  rw [decode_eq, htrim, hfirst]
  simp only
  rw [hlast, htok, bracketHead_word hn]

theorem inert_wordMark {w : Str} (hw : Word w) (n : Bool) : Inert (w ++ mark n) := by
  apply inert_of_plain
  intro c hc
  rcases List.mem_append.mp hc with hc | hc
  · have := hw.chars c hc; exact ⟨this.2.1, this.2.2.1, this.2.2.2.1⟩
  · cases n <;> simp [mark] at hc; subst hc; decide

theorem inert_word_angle {w : Str} (hw : Word w) (n : Bool) {inner : Str}
    (h : InertIn inner) : Inert (w ++ mark n ++ '<' :: inner ++ ['>']) := by
  rw [List.append_assoc]
  exact (inert_wordMark hw n).append (inert_angle h)

/-! ## Names and numbers -/

theorem isLetter_nat {c : Char} (h : Lex.isLetter c = true) :
    (65 ≤ c.toNat ∧ c.toNat ≤ 90) ∨ (97 ≤ c.toNat ∧ c.toNat ≤ 122) := by
  simpa [Lex.isLetter] using h

theorem word_of_idText {s : Str} (h : IsIdText s) : Word s := by
  refine ⟨h.1, fun c hc => ?_⟩
  rcases h.2 c hc with hl | hd | rfl | rfl
  · have := isLetter_nat hl
    refine ⟨by omega, ?_, ?_, ?_, ?_⟩ <;> (rintro rfl; revert this; decide)
  · have := (isDigit_iff c).mp hd
    refine ⟨by omega, ?_, ?_, ?_, ?_⟩ <;> (rintro rfl; revert this; decide)
  · decide
  · decide

theorem word_of_lower {w : Str} {name : Str} (hn : IsName name) (h : w.map toLower = name) :
    Word w := by
  refine ⟨?_, fun c hc => ?_⟩
  · rintro rfl; exact hn.ne (by simpa using h.symm)
  · have hm : toLower c ∈ name := by rw [← h]; exact List.mem_map_of_mem hc
    have hl := hn.letters _ hm
    have ht := toLower_toNat c
    refine ⟨by split at ht <;> omega, ?_, ?_, ?_, ?_⟩ <;>
      (rintro rfl; revert hl; decide)

/-- Letters, digits, `$`, `_` and the further characters of numbers. -/
theorem numberText_chars {s : Str} (h : IsNumberText s) :
    ∀ c ∈ s, isDigit c = true ∨ c = '-' ∨ c = '.' ∨ c = 'e' ∨ c = 'E' ∨ c = '+' := by
  obtain ⟨sign, digits, frac, exp, rfl, hs, hd, hf, he⟩ := h
  intro c hc
  simp only [List.mem_append] at hc
  rcases hc with ((hc | hc) | hc) | hc
  · rcases hs with rfl | rfl <;> simp at hc; simp [hc]
  · exact .inl (hd.2 c hc)
  · rcases hf with rfl | ⟨f, rfl, hf⟩
    · simp at hc
    · rcases List.mem_cons.mp hc with rfl | hc
      · simp
      · exact .inl (hf.2 c hc)
  · rcases he with rfl | ⟨e, sg, x, rfl, he, hg, hx⟩
    · simp at hc
    · rcases List.mem_cons.mp hc with rfl | hc
      · rcases he with rfl | rfl <;> simp
      · rcases List.mem_cons.mp hc with rfl | hc
        · rcases hg with rfl | rfl <;> simp
        · exact .inl (hx.2 c hc)

theorem numberText_head {s : Str} (h : IsNumberText s) :
    ∃ c r, s = c :: r ∧ (isDigit c = true ∨ c = '-') := by
  obtain ⟨sign, digits, frac, exp, rfl, hs, hd, _, _⟩ := h
  rcases hs with rfl | rfl
  · cases digits with
    | nil => exact absurd rfl hd.1
    | cons c r => exact ⟨c, r ++ frac ++ exp, by simp, .inl (hd.2 c (by simp))⟩
  · exact ⟨'-', digits ++ frac ++ exp, by simp, .inr rfl⟩

theorem numberText_of_digits {s : Str} (h : IsDigits s) : IsNumberText s :=
  ⟨[], s, [], [], by simp, .inl rfl, h, .inl rfl, .inl rfl⟩

theorem numberText_word {s : Str} (h : IsNumberText s) : Word s := by
  refine ⟨?_, fun c hc => ?_⟩
  · obtain ⟨c, r, rfl, _⟩ := numberText_head h; simp
  · rcases numberText_chars h c hc with hd | rfl | rfl | rfl | rfl | rfl
    · have := (isDigit_iff c).mp hd
      refine ⟨by omega, ?_, ?_, ?_, ?_⟩ <;> (rintro rfl; revert this; decide)
    all_goals decide

theorem word_trim {s : Str} (h : Word s) (n : Bool) : trim (s ++ mark n) = s ++ mark n := by
  have : ∀ c ∈ s ++ mark n, isSpace c = false := by
    intro c hc
    rcases List.mem_append.mp hc with hc | hc
    · exact isSpace_letter (h.chars c hc).1
    · cases n <;> simp [mark] at hc; subst hc; decide
  apply trim_eq_self <;> intro c hc
  · exact this c (List.mem_of_head? hc)
  · exact this c (List.mem_of_getLast? hc)

theorem scalarOfName_letter {base : Str} {k : Scalar} (h : scalarOfName base = some k) :
    ∃ c r, base = c :: r ∧ Lex.isLetter c = true := by
  have hall : ∀ e ∈ scalarTable, ∃ c, e.1.head? = some c ∧ Lex.isLetter c = true := by
    decide +revert
  unfold scalarOfName at h
  cases hf : scalarTable.find? (fun e => e.1 = base) with
  | none => rw [hf] at h; cases h
  | some e =>
    have h1 := List.mem_of_find?_eq_some hf
    have h2 := List.find?_some hf
    obtain rfl : e.1 = base := by simpa using h2
    obtain ⟨c, hc, hl⟩ := hall e h1
    cases hb : e.1 with
    | nil => rw [hb] at hc; simp at hc
    | cons d r => rw [hb] at hc; simp at hc; subst hc; exact ⟨d, r, rfl, hl⟩

/-- A number decodes to a string literal with its text. -/
theorem decode_number (p : Bool) {s : Str} (h : IsNumberText s) :
    ∃ w q, decode p s = .ok (.lit s w q) := by
  have hw := numberText_word h
  have ht : trim s = s := by simpa [mark] using word_trim hw false
  have hlt : '<' ∉ s := fun hm => (hw.chars _ hm).2.1 rfl
  rw [decode_simple p (by rw [ht]; exact hlt), ht]
  have hl : (s.map toLower).getLast? ≠ some '?' := by
    intro hg
    have := List.mem_of_getLast? hg
    rw [List.mem_map] at this
    obtain ⟨c, hc, he⟩ := this
    rw [toLower_eq_iff (by decide) (by decide)] at he
    exact (hw.chars c hc).2.2.2.2 he
  have hs : scalarOfName (s.map toLower) = none := by
    cases hs : scalarOfName (s.map toLower) with
    | none => rfl
    | some k =>
      obtain ⟨c, r, he, hc⟩ := scalarOfName_letter hs
      obtain ⟨d, r', rfl, hd⟩ := numberText_head h
      simp only [List.map_cons, List.cons.injEq] at he
      rw [← he.1] at hc
      have hx : Lex.isLetter (toLower d) = false := by
        rcases hd with hd | rfl
        · have := (isDigit_iff d).mp hd
          rw [toLower_eq_self (by omega)]
          simp [Lex.isLetter]; omega
        · decide
      rw [hx] at hc; cases hc
  unfold decodeSimple
  simp only [hl, decide_false, Bool.false_eq_true, if_false, hs]
  exact ⟨_, _, rfl⟩

theorem simpleType_eq (id : Str) : simpleType id = scalarOfName (id.map toLower) := by
  have h1 : ∀ e ∈ simpleNames, scalarOfName e.1.toList = some e.2 := by decide
  have h2 : ∀ e ∈ scalarTable, (simpleNames.find? fun x => x.1.toList = e.1).isSome = true := by
    decide
  unfold simpleType
  cases hf : simpleNames.find? (fun e => e.1.toList = id.map toLower) with
  | some e =>
    have hm := List.mem_of_find?_eq_some hf
    have he : e.1.toList = id.map toLower := by simpa using List.find?_some hf
    rw [← he, h1 e hm]; rfl
  | none =>
    cases hs : scalarOfName (id.map toLower) with
    | none => rfl
    | some k =>
      unfold scalarOfName at hs
      cases hf2 : scalarTable.find? (fun e => e.1 = id.map toLower) with
      | none => rw [hf2] at hs; cases hs
      | some e =>
        have hm := List.mem_of_find?_eq_some hf2
        have he : e.1 = id.map toLower := by simpa using List.find?_some hf2
        have := h2 e hm
        rw [he, hf] at this; cases this

theorem decode_id (p : Bool) {id : Str} (h : Word id) (q : Bool) :
    (∃ k, simpleType id = some k ∧ decode p (id ++ mark q) = .ok (.scalar k q)) ∨
    (simpleType id = none ∧ ∃ v a b, decode p (id ++ mark q) = .ok (.lit v a b)) := by
  have ht := word_trim h q
  have hlt : '<' ∉ id ++ mark q := by
    have : '<' ∉ id := fun hm => (h.chars _ hm).2.1 rfl
    cases q <;> simp [mark, this]
  rw [decode_simple p (by rw [ht]; exact hlt), ht, simpleType_eq]
  have hbase : (if ((id ++ mark q).map toLower).getLast? = some '?' then
      ((id ++ mark q).map toLower).dropLast else (id ++ mark q).map toLower) = id.map toLower ∧
      (decide (((id ++ mark q).map toLower).getLast? = some '?')) = q := by
    cases q with
    | true =>
      have : (mark true).map toLower = ['?'] := by decide
      simp [this]
    | false =>
      have hl : (id.map toLower).getLast? ≠ some '?' := by
        intro hg
        have := List.mem_of_getLast? hg
        rw [List.mem_map] at this
        obtain ⟨c, hc, he⟩ := this
        rw [toLower_eq_iff (by decide) (by decide)] at he
        exact (h.chars c hc).2.2.2.2 he
      simp only [mark, List.append_nil]
      rw [if_neg hl]
      exact ⟨rfl, decide_eq_false hl⟩
  unfold decodeSimple
  simp only [decide_eq_true_eq, hbase.1, hbase.2]
  cases hs : scalarOfName (id.map toLower) with
  | some k => exact .inl ⟨k, rfl, rfl⟩
  | none => exact .inr ⟨rfl, _, _, _, rfl⟩

theorem leadDigits_append {s t : Str} (h : ∀ c ∈ s, isDigit c = true)
    (ht : ∀ c, t.head? = some c → isDigit c = false) : leadDigits (s ++ t) = s := by
  unfold leadDigits
  rw [List.takeWhile_append_of_pos h]
  cases t with
  | nil => simp
  | cons c r => simp [ht c rfl]

theorem signDigits_digits {s t : Str} (h : IsDigits s)
    (ht : ∀ c, t.head? = some c → isDigit c = false) : signDigits (s ++ t) = (false, s) := by
  have hl := leadDigits_append h.2 ht
  obtain ⟨c, r, rfl⟩ : ∃ c r, s = c :: r := by
    cases s with
    | nil => exact absurd rfl h.1
    | cons c r => exact ⟨c, r, rfl⟩
  have hc := h.2 c (by simp)
  unfold signDigits
  split
  · rename_i heq; simp at heq; rw [heq.1] at hc; exact absurd hc (by decide)
  · rename_i heq; simp at heq; rw [heq.1] at hc; exact absurd hc (by decide)
  · rw [hl]

/-- Reading a numeral, whatever follows it. -/
theorem stoBound_digits (b : Nat) {s t : Str} (h : IsDigits s)
    (ht : ∀ c, t.head? = some c → isDigit c = false) :
    stoBound b (s ++ t) = if digitsVal s ≤ b then .ok (digitsVal s : Int)
      else .throw .outOfRange := by
  have hsp : (s ++ t).dropWhile isSpace = s ++ t := by
    apply dropWhile_head
    intro c hc
    cases s with
    | nil => exact absurd rfl h.1
    | cons d r => simp at hc; subst hc; exact isSpace_digit (h.2 d (by simp))
  have hne : s.isEmpty = false := by simpa using h.1
  simp [stoBound, hsp, signDigits_digits h ht, hne]

/-- Reading a numeral with a minus sign, whatever follows it. -/
theorem stoBound_neg (b : Nat) {s t : Str} (h : IsDigits s)
    (ht : ∀ c, t.head? = some c → isDigit c = false) :
    stoBound b ('-' :: s ++ t) = if digitsVal s ≤ b + 1 then .ok (-(digitsVal s : Int))
      else .throw .outOfRange := by
  have hsp : ('-' :: s ++ t).dropWhile isSpace = '-' :: s ++ t := by
    apply dropWhile_head
    intro c hc
    simp at hc; subst hc; decide
  have hne : s.isEmpty = false := by simpa using h.1
  have hs : signDigits ('-' :: s ++ t) = (true, s) := by
    simp [signDigits, leadDigits_append h.2 ht]
  rw [stoBound, hsp, hs]
  simp [hne]

theorem stoi32_digits {s : Str} (h : IsDigits s) :
    stoi32 s = if digitsVal s ≤ 2147483647 then .ok (digitsVal s : Int)
      else .throw .outOfRange := by
  simpa [stoi32] using stoBound_digits 2147483647 h (t := []) (by simp)

theorem isDigits_natText (n : Nat) : IsDigits (natText n) :=
  ⟨natText_ne_nil n, natText_digits n⟩

/-- Printing a 32-bit integer and reading it back. -/
theorem stoBound_intText {b : Nat} {i : Int} (h1 : -(b : Int) - 1 ≤ i) (h2 : i ≤ b) {t : Str}
    (ht : ∀ c, t.head? = some c → isDigit c = false) :
    stoBound b (intText i ++ t) = .ok i := by
  cases i with
  | ofNat n =>
    rw [intText, stoBound_digits b (isDigits_natText n) ht, digitsVal_natText, if_pos]
    · rfl
    · have : (n : Int) ≤ b := h2
      omega
  | negSucc n =>
    rw [intText, stoBound_neg b (isDigits_natText _) ht, digitsVal_natText, if_pos]
    · rfl
    · have := h1
      omega

theorem stoi32_intText {i : Int} (h : Int32 i) : stoi32 (intText i) = .ok i := by
  obtain ⟨h1, h2⟩ := h
  unfold stoi32
  rw [← List.append_nil (intText i)]
  exact stoBound_intText (by omega) (by omega) (by simp)

theorem isNumberText_intText (i : Int) : IsNumberText (intText i) := by
  cases i with
  | ofNat n => exact numberText_of_digits (isDigits_natText n)
  | negSucc n =>
    exact ⟨['-'], natText (n + 1), [], [], by simp [intText], .inr rfl, isDigits_natText _,
      .inl rfl, .inl rfl⟩

theorem isInteger_intText (i : Int) : NumberUtils.isInteger (intText i) = true := by
  cases i with
  | ofNat n => simp [intText, NumberUtils.isInteger, isNonNegativeInteger_natText]
  | negSucc n =>
    simp [intText, NumberUtils.isInteger, NumberUtils.isNegativeInteger,
      isNonNegativeInteger_natText]

theorem isInteger_digits {s : Str} (h : IsDigits s) : NumberUtils.isInteger s = true := by
  have : s.isEmpty = false := by simpa using h.1
  simp only [NumberUtils.isInteger, NumberUtils.isNonNegativeInteger, this]
  simp [List.all_eq_true.mpr h.2]

/-! ## Printed texts -/

theorem printType_decimal (p s : Int) (n : Nullability) : printType (.decimal p s n) =
    ("decimal".toList ++ nullMark n ++ '<' :: intText p ++ ',' :: intText s ++ ['>'], []) := rfl

theorem printType_varchar (l : Int) (n : Nullability) : printType (.varchar l n) =
    ("varchar".toList ++ nullMark n ++ '<' :: intText l ++ ['>'], []) := rfl

theorem printType_fixedchar (l : Int) (n : Nullability) : printType (.fixedChar l n) =
    ("fixedchar".toList ++ nullMark n ++ '<' :: intText l ++ ['>'], []) := rfl

/-! ## Results of reading a text -/

/-- The result of reading a text: `none` when the decoder throws, otherwise the message and
the errors. -/
def Res (inside : Bool) (s : Str) : Option Typed → Prop
  | none => ∃ e, decode true s = .throw e
  | some r => ∃ o, decode true s = .ok o ∧ o.isNull = false ∧ typeToProto inside o = .ok r

/-- The same for a list of texts. -/
def ResAll (inside : Bool) (ws : List Str) : Option (List PbType × List TypeErr) → Prop
  | none => ∃ e, Outcome.mapM (decode true) ws = .throw e
  | some r => ∃ os, Outcome.mapM (decode true) ws = .ok os ∧ typesToProto inside os = .ok r

theorem res_text {inside : Bool} {s : Str} {x : Option Typed} (h : Res inside s x) :
    textToTypeProto inside s = .ok (x.getD (.notSet, [.cannotDecode])) := by
  cases x with
  | none => obtain ⟨e, he⟩ := h; simp [textToTypeProto, he]
  | some r => obtain ⟨o, ho, _, hr⟩ := h; simp [textToTypeProto, ho, hr]

theorem decode_ne_ub (s : Str) : decode true s ≠ .ub := decode_param_ne_ub _ s (Nat.lt_succ_self _)

theorem mapM_decode_cases (ws : List Str) :
    (∃ e, Outcome.mapM (decode true) ws = .throw e) ∨
    ∃ os, Outcome.mapM (decode true) ws = .ok os := by
  induction ws with
  | nil => exact .inr ⟨[], rfl⟩
  | cons w ws ih =>
    rw [Outcome.mapM_cons]
    cases h : decode true w with
    | ub => exact absurd h (decode_ne_ub w)
    | throw e => exact .inl ⟨e, rfl⟩
    | ok o =>
      rcases ih with ⟨e, he⟩ | ⟨os, hos⟩
      · exact .inl ⟨e, by simp [he]⟩
      · exact .inr ⟨o :: os, by simp [hos]⟩

theorem decodeByName_marked {name : Str} (hn : IsName name) (p n : Bool) (ps : List PType) :
    decodeByName (name ++ ['?']) p n ps = .throw .unsupported := by
  have h : ∀ m : Str, '?' ∉ m → name ++ ['?'] ≠ m := by
    rintro m hm rfl; simp at hm
  unfold decodeByName
  rw [if_neg (h _ (by decide)), if_neg (h _ (by decide)), if_neg (h _ (by decide)),
    if_neg (h _ (by decide)), if_neg (h _ (by decide)), if_neg (h _ (by decide)),
    if_neg (h _ (by decide))]

/-- A nullable type with a further question mark inside is not decoded. -/
theorem decode_marked {kw name : Str} (hn : IsName name) (hk : kw.map toLower = name)
    {ws : List Str} (hne : ws ≠ []) (hin : ∀ w ∈ ws, Inert w) (hq : '?' ∈ commas ws) :
    ∃ e, decode true (kw ++ mark true ++ '<' :: commas ws ++ ['>']) = .throw e := by
  rw [decode_word_angle (word_of_lower hn hk) true true hne hin, if_pos ⟨rfl, hq⟩, hk]
  rcases mapM_decode_cases ws with ⟨e, he⟩ | ⟨os, hos⟩
  · exact ⟨e, by simp [he]⟩
  · exact ⟨.unsupported, by simp [hos, decodeByName_marked hn]⟩

theorem decode_kw {kw name : Str} (hn : IsName name) (hk : kw.map toLower = name) (q : Bool)
    {ws : List Str} (hne : ws ≠ []) (hin : ∀ w ∈ ws, Inert w)
    (hq : ¬ (q = true ∧ '?' ∈ commas ws)) :
    decode true (kw ++ mark q ++ '<' :: commas ws ++ ['>']) =
      (Outcome.mapM (decode true) ws).bind fun ps => decodeByName name true q ps := by
  rw [decode_word_angle (word_of_lower hn hk) q true hne hin, if_neg hq, hk]

theorem res_list {inside : Bool} {kw e : Str} (hk : kw.map toLower = "list".toList) (q : Bool)
    (he : Inert e) {x : Option Typed} (h : Res inside e x) :
    Res inside (kw ++ mark q ++ '<' :: e ++ ['>'])
      (if q = true ∧ '?' ∈ e then none
       else x.map fun r => (.list r.1 (nullValue q), r.2)) := by
  have hin : ∀ w ∈ [e], Inert w := by simpa using he
  split
  · rename_i hq
    have := decode_marked isName_list hk (ws := [e]) (by simp) hin (by simpa [commas] using hq.2)
    rw [hq.1]; simpa [commas, Res] using this
  · rename_i hq
    have hd := decode_kw isName_list hk q (ws := [e]) (by simp) hin (by simpa [commas] using hq)
    simp only [commas, Outcome.mapM_cons, Outcome.mapM_nil] at hd
    cases x with
    | none =>
      obtain ⟨err, herr⟩ := h
      exact ⟨err, by rw [hd, herr]; rfl⟩
    | some r =>
      obtain ⟨o, ho, _, hr⟩ := h
      refine ⟨.pList o q, ?_, rfl, ?_⟩
      · rw [hd, ho]; rfl
      · simp [typeToProto, hr]

theorem res_map {inside : Bool} {kw k v : Str} (hkw : kw.map toLower = "map".toList) (q : Bool)
    (hk : Inert k) (hv : Inert v) {x y : Option Typed} (h : Res inside k x)
    (h' : Res inside v y) :
    Res inside (kw ++ mark q ++ '<' :: (k ++ [','] ++ v) ++ ['>'])
      (if q = true ∧ '?' ∈ k ++ [','] ++ v then none
       else x.bind fun a => y.map fun b => (.map a.1 b.1 (nullValue q), a.2 ++ b.2)) := by
  have hin : ∀ w ∈ [k, v], Inert w := by
    intro w hw; simp at hw; rcases hw with rfl | rfl <;> assumption
  have hc : k ++ [','] ++ v = commas [k, v] := by simp [commas]
  rw [hc]
  split
  · rename_i hq
    have := decode_marked isName_map hkw (ws := [k, v]) (by simp) hin hq.2
    rw [hq.1]; exact this
  · rename_i hq
    have hd := decode_kw isName_map hkw q (ws := [k, v]) (by simp) hin hq
    simp only [Outcome.mapM_cons, Outcome.mapM_nil] at hd
    cases x with
    | none =>
      obtain ⟨err, herr⟩ := h
      exact ⟨err, by rw [hd, herr]; rfl⟩
    | some r =>
      obtain ⟨o, ho, hon, hr⟩ := h
      cases y with
      | none =>
        obtain ⟨err, herr⟩ := h'
        exact ⟨err, by rw [hd, ho, herr]; rfl⟩
      | some r' =>
        obtain ⟨o', ho', hon', hr'⟩ := h'
        refine ⟨.pMap o o' q, ?_, rfl, ?_⟩
        · rw [hd, ho, ho']; rfl
        · simp [typeToProto, hon, hon', hr, hr']

/-- The reading of a map with one component only. -/
def mapOneOut (q : Bool) (inner : Str) : Option Typed :=
  if q = true ∧ '?' ∈ inner then none
  else
    match decode true inner with
    | .ok _ => some (.notSet, [.mapParts])
    | _ => none

theorem res_map_one {inside : Bool} {kw inner : Str} (hkw : kw.map toLower = "map".toList)
    (q : Bool) (hi : Inert inner) :
    Res inside (kw ++ mark q ++ '<' :: inner ++ ['>']) (mapOneOut q inner) := by
  have hin : ∀ w ∈ [inner], Inert w := by simpa using hi
  unfold mapOneOut
  split
  · rename_i hq
    have := decode_marked isName_map hkw (ws := [inner]) (by simp) hin
      (by simpa [commas] using hq.2)
    rw [hq.1]; simpa [commas, Res] using this
  · rename_i hq
    have hd := decode_kw isName_map hkw q (ws := [inner]) (by simp) hin
      (by simpa [commas] using hq)
    simp only [commas, Outcome.mapM_cons, Outcome.mapM_nil] at hd
    cases hi' : decode true inner with
    | ub => exact absurd hi' (decode_ne_ub _)
    | throw e => exact ⟨e, by rw [hd, hi']; rfl⟩
    | ok o =>
      refine ⟨.pMap o .null q, ?_, rfl, ?_⟩
      · rw [hd, hi']; rfl
      · simp [typeToProto, PType.isNull]

theorem res_struct {inside : Bool} {kw : Str} (hkw : kw.map toLower = "struct".toList) (q : Bool)
    {ws : List Str} (hne : ws ≠ []) (hin : ∀ w ∈ ws, Inert w)
    {x : Option (List PbType × List TypeErr)} (h : ResAll inside ws x) :
    Res inside (kw ++ mark q ++ '<' :: commas ws ++ ['>'])
      (if q = true ∧ '?' ∈ commas ws then none
       else x.map fun r => (.struct r.1 (nullValue q), r.2)) := by
  split
  · rename_i hq
    have := decode_marked isName_struct hkw hne hin hq.2
    rw [hq.1]; exact this
  · rename_i hq
    have hd := decode_kw isName_struct hkw q hne hin hq
    cases x with
    | none =>
      obtain ⟨err, herr⟩ := h
      exact ⟨err, by rw [hd, herr]; rfl⟩
    | some r =>
      obtain ⟨os, hos, hr⟩ := h
      refine ⟨.pStruct os q, ?_, rfl, ?_⟩
      · rw [hd, hos]; rfl
      · simp [typeToProto, hr]

theorem resAll_nil (inside : Bool) : ResAll inside [] (some ([], [])) := ⟨[], rfl, rfl⟩

theorem resAll_cons {inside : Bool} {w : Str} {ws : List Str} {x : Option Typed}
    {y : Option (List PbType × List TypeErr)} (h : Res inside w x) (h' : ResAll inside ws y) :
    ResAll inside (w :: ws)
      (x.bind fun a => y.map fun b => (a.1 :: b.1, a.2 ++ b.2)) := by
  cases x with
  | none =>
    obtain ⟨e, he⟩ := h
    exact ⟨e, by simp [he]⟩
  | some r =>
    obtain ⟨o, ho, _, hr⟩ := h
    cases y with
    | none =>
      obtain ⟨e, he⟩ := h'
      exact ⟨e, by simp [ho, he]⟩
    | some r' =>
      obtain ⟨os, hos, hr'⟩ := h'
      exact ⟨o :: os, by simp [ho, hos], by simp [typesToProto, hr, hr']⟩

/-- The result for a name with parameters: what `typeToProto` makes of the object. -/
def basicOut (inside : Bool) (id : Str) (q : Bool) (numbers : List Str) : Option Typed :=
  match numbers with
  | [] =>
    match simpleType id with
    | some k => some (.scalar k (nullValue q), [])
    | none => some (.notSet, if inside then [] else [.unrecognized])
  | x :: rest =>
    if id.map toLower = "fixedchar".toList then
      some (match stoi32 x with
        | .ok l => (.fixedChar l (nullValue q), [])
        | _ => (.fixedChar 0 (nullValue q), [.fixedCharLength]))
    else if id.map toLower = "varchar".toList then
      some (if NumberUtils.isInteger x then
          match stoi32 x with
          | .ok l => (.varchar l (nullValue q), [])
          | _ => (.varchar 0 (nullValue q), [.varcharLength])
        else (.notSet, [.varcharMissing]))
    else if id.map toLower = "fixedbinary".toList then
      some (.fixedBinary 0 (nullValue q), [])
    else if id.map toLower = "decimal".toList then
      match rest with
      | [y] =>
        some (match stoi32 x with
          | .ok p =>
            match stoi32 y with
            | .ok s => (.decimal p s (nullValue q), [])
            | _ => (.decimal 0 0 (nullValue q), [.decimalParams])
          | _ => (.decimal 0 0 (nullValue q), [.decimalParams]))
      | _ => none
    else none

theorem mapM_numbers {ns : List Str} (h : ∀ x ∈ ns, IsNumberText x) :
    ∃ os, Outcome.mapM (decode true) ns = .ok os ∧ os.length = ns.length ∧
      ∀ (i : Nat) (x : Str), ns[i]? = some x → ∃ a b, os[i]? = some (PType.lit x a b) := by
  induction ns with
  | nil => exact ⟨[], rfl, rfl, by simp⟩
  | cons n ns ih =>
    obtain ⟨os, ho, hl, hi⟩ := ih (fun x hx => h x (by simp [hx]))
    obtain ⟨a, b, hn⟩ := decode_number true (h n (by simp))
    refine ⟨.lit n a b :: os, by simp [hn, ho], by simp [hl], ?_⟩
    intro i x hx
    cases i with
    | zero => simp at hx; subst hx; exact ⟨a, b, by simp⟩
    | succ i => simp at hx; simpa using hi i x hx

theorem inert_number {x : Str} (h : IsNumberText x) : Inert x := by
  simpa [mark] using inert_wordMark (numberText_word h) false

theorem q_number {x : Str} (h : IsNumberText x) : '?' ∉ x :=
  fun hm => ((numberText_word h).chars _ hm).2.2.2.2 rfl

theorem questionText_eq (q : Bool) : questionText q = mark q := by cases q <;> rfl

theorem commaText_eq : ∀ ws : List Str, commaText ws = commas ws
  | [] => rfl
  | [_] => rfl
  | s :: t :: rest => by rw [commaText, commas, commaText_eq (t :: rest)]

theorem res_basic (inside : Bool) {id : Str} (q : Bool) {numbers : List Str} (hid : IsIdText id)
    (hkw : id.map toLower ∉ typeKeywords) (hn : ∀ x ∈ numbers, IsNumberText x) :
    Res inside (TypeTree.basic id q numbers).text (basicOut inside id q numbers) := by
  simp only [TypeTree.text, questionText_eq, commaText_eq]
  cases numbers with
  | nil =>
    simp only [List.isEmpty_nil, if_true, List.append_nil, basicOut]
    rcases decode_id true (word_of_idText hid) q with ⟨k, hk, hd⟩ | ⟨hk, v, a, b, hd⟩
    · rw [hk]; exact ⟨_, hd, rfl, by simp [typeToProto]⟩
    · rw [hk]; exact ⟨_, hd, rfl, by simp [typeToProto]⟩
  | cons x rest =>
    have hq : ¬ (q = true ∧ '?' ∈ commas (x :: rest)) := by
      rintro ⟨_, h⟩
      obtain ⟨w, hw, hm⟩ := (q_commas _).mp h
      exact q_number (hn w hw) hm
    have hd := decode_word_angle (word_of_idText hid) q true (ws := x :: rest) (by simp)
      (fun w hw => inert_number (hn w hw))
    rw [if_neg hq] at hd
    obtain ⟨os, ho, hlen, hget⟩ := mapM_numbers hn
    rw [ho, Outcome.bind_ok] at hd
    obtain ⟨a, b, h0⟩ := hget 0 x (by simp)
    obtain ⟨o, os', rfl⟩ : ∃ o os', os = o :: os' := by
      cases os with
      | nil => simp at hlen
      | cons o os' => exact ⟨o, os', rfl⟩
    simp at h0; subst h0
    simp only [typeKeywords, List.mem_cons, List.not_mem_nil, or_false, not_or] at hkw
    simp only [List.isEmpty_cons, Bool.false_eq_true, if_false]
    rw [← List.append_assoc]
    unfold basicOut
    simp only
    unfold decodeByName at hd
    rw [if_neg hkw.1, if_neg hkw.2.1, if_neg hkw.2.2] at hd
    by_cases h1 : id.map toLower = "fixedchar".toList
    · rw [if_pos h1]
      rw [if_neg (by rw [h1]; decide), if_neg (by rw [h1]; decide), if_pos h1] at hd
      refine ⟨_, hd, rfl, ?_⟩
      simp only [typeToProto, fixedCharToProto, castLit]
      cases stoi32 x <;> rfl
    · rw [if_neg h1]
      by_cases h2 : id.map toLower = "varchar".toList
      · rw [if_pos h2]
        rw [if_neg (by rw [h2]; decide), if_pos h2] at hd
        refine ⟨_, hd, rfl, ?_⟩
        simp only [typeToProto, varcharToProto, castLit]
        split
        · cases stoi32 x <;> rfl
        · rfl
      · rw [if_neg h2]
        by_cases h3 : id.map toLower = "fixedbinary".toList
        · rw [if_pos h3]
          rw [if_neg (by rw [h3]; decide), if_neg h2, if_neg h1, if_pos h3] at hd
          exact ⟨_, hd, rfl, by simp [typeToProto]⟩
        · rw [if_neg h3]
          by_cases h4 : id.map toLower = "decimal".toList
          · rw [if_pos h4]
            rw [if_pos h4] at hd
            cases rest with
            | nil =>
              obtain rfl : os' = [] := by simpa using hlen
              exact ⟨.fail, hd⟩
            | cons y rest =>
              obtain ⟨a', b', h1'⟩ := hget 1 y (by simp)
              cases rest with
              | nil =>
                obtain ⟨o1, rfl⟩ : ∃ o1, os' = [o1] := by
                  cases os' with
                  | nil => simp at hlen
                  | cons o1 t =>
                    cases t with
                    | nil => exact ⟨o1, rfl⟩
                    | cons _ _ => simp at hlen
                simp at h1'; subst h1'
                refine ⟨_, hd, rfl, ?_⟩
                simp only [typeToProto, decimalToProto, castLit]
                cases stoi32 x with
                | ok p => cases stoi32 y <;> rfl
                | throw e => rfl
                | ub => rfl
              | cons z rest =>
                obtain ⟨o1, o2, t, rfl⟩ : ∃ o1 o2 t, os' = o1 :: o2 :: t := by
                  cases os' with
                  | nil => simp at hlen
                  | cons o1 t =>
                    cases t with
                    | nil => simp at hlen
                    | cons o2 t => exact ⟨o1, o2, t, rfl⟩
                exact ⟨.fail, hd⟩
          · rw [if_neg h4]
            rw [if_neg h4, if_neg h2, if_neg h1, if_neg h3] at hd
            exact ⟨_, hd⟩

/-! ## Trees -/

theorem texts_map (ts : List TypeTree) : TypeTree.texts ts = ts.map TypeTree.text := by
  induction ts with
  | nil => rfl
  | cons t ts ih => simp [TypeTree.texts, ih]

theorem inert_nil : Inert [] := by
  intro rest cnt i _; simp

mutual
theorem inert_tree : ∀ t : TypeTree, WellFormed t → Inert t.text
  | .absent, _ => inert_nil
  | .basic id q numbers, h => by
    simp only [WellFormed] at h
    simp only [TypeTree.text, questionText_eq, commaText_eq]
    split
    · simpa using inert_wordMark (word_of_idText h.1) q
    · rw [← List.append_assoc]
      exact inert_word_angle (word_of_idText h.1) q
        (inertIn_commas fun w hw => inert_number (h.2.2 w hw))
  | .list kw q e, h => by
    simp only [WellFormed] at h
    simp only [TypeTree.text, questionText_eq]
    exact inert_word_angle (word_of_lower isName_list h.1) q (inert_tree e h.2).inertIn
  | .map kw q k c v, h => by
    simp only [WellFormed] at h
    simp only [TypeTree.text, questionText_eq]
    refine inert_word_angle (word_of_lower isName_map h.1) q ?_
    refine ((inert_tree k h.2.1).inertIn.append ?_).append (inert_tree v h.2.2).inertIn
    cases c
    · exact inert_nil.inertIn
    · exact inertIn_comma
  | .struct kw q items, h => by
    simp only [WellFormed] at h
    simp only [TypeTree.text, questionText_eq, commaText_eq]
    exact inert_word_angle (word_of_lower isName_struct h.1) q
      (inertIn_commas (inert_trees items h.2.2))
theorem inert_trees : ∀ ts : List TypeTree, AllWellFormed ts → ∀ w ∈ TypeTree.texts ts, Inert w
  | [], _, w, hw => by simp [TypeTree.texts] at hw
  | t :: ts, h, w, hw => by
    simp only [AllWellFormed] at h
    simp only [TypeTree.texts, List.mem_cons] at hw
    rcases hw with rfl | hw
    · exact inert_tree t h.1
    · exact inert_trees ts h.2 w hw
end

mutual
/-- The result of reading a tree, by recursion over the tree. -/
def out (inside : Bool) : TypeTree → Option Typed
  | .absent => some (.notSet, if inside then [] else [.unrecognized])
  | .basic id q numbers => basicOut inside id q numbers
  | .list _ q e =>
    if q = true ∧ '?' ∈ e.text then none
    else (out inside e).map fun r => (.list r.1 (nullValue q), r.2)
  | .map _ q k c v =>
    if c then
      if q = true ∧ '?' ∈ k.text ++ [','] ++ v.text then none
      else (out inside k).bind fun a => (out inside v).map fun b =>
        (.map a.1 b.1 (nullValue q), a.2 ++ b.2)
    else mapOneOut q (k.text ++ v.text)
  | .struct _ q items =>
    if q = true ∧ '?' ∈ commas (TypeTree.texts items) then none
    else (outs inside items).map fun r => (.struct r.1 (nullValue q), r.2)
def outs (inside : Bool) : List TypeTree → Option (List PbType × List TypeErr)
  | [] => some ([], [])
  | t :: ts =>
    (out inside t).bind fun a => (outs inside ts).map fun b => (a.1 :: b.1, a.2 ++ b.2)
end

theorem res_absent (inside : Bool) :
    Res inside [] (some (.notSet, if inside then [] else [.unrecognized])) := by
  refine ⟨.lit [] false true, rfl, rfl, by simp [typeToProto]⟩

mutual
theorem res_tree (inside : Bool) : ∀ t : TypeTree, WellFormed t →
    Res inside t.text (out inside t)
  | .absent, _ => res_absent inside
  | .basic id q numbers, h => by
    simp only [WellFormed] at h
    exact res_basic inside q h.1 h.2.1 h.2.2
  | .list kw q e, h => by
    simp only [WellFormed] at h
    simp only [TypeTree.text, questionText_eq, out]
    exact res_list h.1 q (inert_tree e h.2) (res_tree inside e h.2)
  | .map kw q k c v, h => by
    simp only [WellFormed] at h
    simp only [TypeTree.text, questionText_eq, out]
    cases c with
    | true =>
      simp only [optComma, if_true]
      exact res_map h.1 q (inert_tree k h.2.1) (inert_tree v h.2.2)
        (res_tree inside k h.2.1) (res_tree inside v h.2.2)
    | false =>
      simp only [optComma, Bool.false_eq_true, if_false, List.append_nil]
      exact res_map_one h.1 q ((inert_tree k h.2.1).append (inert_tree v h.2.2))
  | .struct kw q items, h => by
    simp only [WellFormed] at h
    simp only [TypeTree.text, questionText_eq, commaText_eq, out]
    exact res_struct h.1 q (by rw [texts_map]; simpa using h.2.1) (inert_trees items h.2.2)
      (res_trees inside items h.2.2)
theorem res_trees (inside : Bool) : ∀ ts : List TypeTree, AllWellFormed ts →
    ResAll inside (TypeTree.texts ts) (outs inside ts)
  | [], _ => resAll_nil inside
  | t :: ts, h => by
    simp only [AllWellFormed] at h
    simp only [TypeTree.texts, outs]
    exact resAll_cons (res_tree inside t h.1) (res_trees inside ts h.2)
end

/-! ## Trees that stand for a type -/

mutual
/-- What the reader makes of a concrete type: the length of a `fixedbinary` is lost. -/
def pbRead : CType → PbType
  | .scalar k n => .scalar k (nullValue n)
  | .decimal p s n => .decimal p s (nullValue n)
  | .fixedBinary _ n => .fixedBinary 0 (nullValue n)
  | .fixedChar l n => .fixedChar l (nullValue n)
  | .varchar l n => .varchar l (nullValue n)
  | .list e n => .list (pbRead e) (nullValue n)
  | .struct cs n => .struct (pbReads cs) (nullValue n)
  | .map k v n => .map (pbRead k) (pbRead v) (nullValue n)
def pbReads : List CType → List PbType
  | [] => []
  | c :: cs => pbRead c :: pbReads cs
end

mutual
theorem pbRead_eq : ∀ c : CType, noFixedBinary c = true → pbRead c = pbOf c
  | .scalar k n, _ => rfl
  | .decimal p s n, _ => rfl
  | .fixedBinary l n, h => by simp [noFixedBinary] at h
  | .fixedChar l n, _ => rfl
  | .varchar l n, _ => rfl
  | .list e n, h => by
    simp only [noFixedBinary] at h
    simp only [pbRead, pbOf, pbRead_eq e h]; rfl
  | .struct cs n, h => by
    simp only [noFixedBinary] at h
    simp only [pbRead, pbOf, pbReads_eq cs h]; rfl
  | .map k v n, h => by
    simp only [noFixedBinary, Bool.and_eq_true] at h
    simp only [pbRead, pbOf, pbRead_eq k h.1, pbRead_eq v h.2]; rfl
theorem pbReads_eq : ∀ cs : List CType, noFixedBinaries cs = true → pbReads cs = pbsOf cs
  | [], _ => rfl
  | c :: cs, h => by
    simp only [noFixedBinaries, Bool.and_eq_true] at h
    simp only [pbReads, pbsOf, pbRead_eq c h.1, pbReads_eq cs h.2]
end

theorem param_some {x : Str} {l : Int} (h : param x = some l) :
    IsDigits x ∧ digitsVal x ≤ 2147483647 ∧ l = digitsVal x := by
  unfold param at h
  split at h
  · rename_i hx; simp at h; exact ⟨hx.1, hx.2, h.symm⟩
  · cases h

theorem param_none {x : Str} (h : param x = none) (hd : IsDigits x) :
    ¬ digitsVal x ≤ 2147483647 := by
  unfold param at h
  split at h
  · cases h
  · rename_i hx; exact fun hle => hx ⟨hd, hle⟩

theorem stoi32_param {x : Str} {l : Int} (h : param x = some l) : stoi32 x = .ok l := by
  obtain ⟨h1, h2, rfl⟩ := param_some h
  rw [stoi32_digits h1, if_pos h2]

theorem basicMeaning_some {id : Str} {q : Bool} {numbers : List Str} {c : CType}
    (h : basicMeaning id q numbers = some c) (inside : Bool) :
    basicOut inside id q numbers = some (pbRead c, []) ∧ c.noNullInNull = true ∧
      c.hasNullable = q := by
  unfold basicMeaning at h
  split at h
  · cases hs : simpleType id with
    | none => rw [hs] at h; cases h
    | some k =>
      rw [hs] at h; simp at h; subst h
      exact ⟨by simp [basicOut, hs, pbRead], rfl, rfl⟩
  · rename_i x
    cases hp : param x with
    | none => rw [hp] at h; cases h
    | some l =>
      rw [hp] at h
      simp only [Option.bind_some] at h
      have hs := stoi32_param hp
      have hi := isInteger_digits (param_some hp).1
      unfold basicOut
      simp only
      split at h
      · rename_i h1; cases h; rw [if_pos h1, hs]; exact ⟨rfl, rfl, rfl⟩
      · rename_i h1
        rw [if_neg h1]
        split at h
        · rename_i h2; cases h; rw [if_pos h2, hs, hi]; exact ⟨rfl, rfl, rfl⟩
        · rename_i h2
          rw [if_neg h2]
          split at h
          · rename_i h3; cases h; rw [if_pos h3]; exact ⟨rfl, rfl, rfl⟩
          · cases h
  · rename_i x y
    cases hp : param x with
    | none => rw [hp] at h; cases h
    | some p =>
      cases hp2 : param y with
      | none => rw [hp, hp2] at h; cases h
      | some s =>
        rw [hp, hp2] at h
        simp only [Option.bind_some] at h
        split at h
        · rename_i h1
          cases h
          unfold basicOut
          simp only
          rw [if_neg (by rw [h1]; decide), if_neg (by rw [h1]; decide),
            if_neg (by rw [h1]; decide), if_pos h1, stoi32_param hp, stoi32_param hp2]
          exact ⟨rfl, rfl, rfl⟩
        · cases h
  · cases h

theorem q_basic {id : Str} {q : Bool} {numbers : List Str} (hid : IsIdText id)
    (hn : ∀ x ∈ numbers, IsNumberText x) :
    '?' ∈ (TypeTree.basic id q numbers).text ↔ q = true := by
  have h1 : '?' ∉ id := fun hm => ((word_of_idText hid).chars _ hm).2.2.2.2 rfl
  have h2 : '?' ∉ commas numbers := by
    rw [q_commas]; rintro ⟨w, hw, hm⟩; exact q_number (hn w hw) hm
  simp only [TypeTree.text, questionText_eq, commaText_eq]
  cases q <;> split <;> simp [mark, h1, h2]

theorem q_kw {kw name : Str} (hn : IsName name) (hk : kw.map toLower = name) (q : Bool)
    (inner : Str) : '?' ∈ kw ++ mark q ++ '<' :: inner ++ ['>'] ↔ q = true ∨ '?' ∈ inner := by
  have h1 : '?' ∉ kw := fun hm => ((word_of_lower hn hk).chars _ hm).2.2.2.2 rfl
  cases q <;> simp [mark, h1]

mutual
theorem q_tree : ∀ (t : TypeTree) (c : CType), WellFormed t → meaning t = some c →
    ('?' ∈ t.text ↔ c.hasNullable = true)
  | .absent, c, _, hm => by simp [meaning] at hm
  | .basic id q numbers, c, h, hm => by
    simp only [WellFormed] at h
    simp only [meaning] at hm
    rw [q_basic h.1 h.2.2, (basicMeaning_some hm true).2.2]
  | .list kw q e, c, h, hm => by
    simp only [WellFormed] at h
    simp only [meaning, Option.map_eq_some_iff] at hm
    obtain ⟨a, ha, rfl⟩ := hm
    simp only [TypeTree.text, questionText_eq]
    rw [q_kw isName_list h.1, q_tree e a h.2 ha]
    simp [CType.hasNullable]
  | .map kw q k cm v, c, h, hm => by
    simp only [WellFormed] at h
    simp only [meaning] at hm
    split at hm
    · rename_i hc
      simp only [Option.bind_eq_some_iff, Option.map_eq_some_iff] at hm
      obtain ⟨a, ha, b, hb, rfl⟩ := hm
      simp only [TypeTree.text, questionText_eq, hc, optComma, if_true]
      rw [q_kw isName_map h.1]
      simp [q_tree k a h.2.1 ha, q_tree v b h.2.2 hb, CType.hasNullable, or_assoc]
    · cases hm
  | .struct kw q items, c, h, hm => by
    simp only [WellFormed] at h
    simp only [meaning, Option.map_eq_some_iff] at hm
    obtain ⟨cs, hcs, rfl⟩ := hm
    simp only [TypeTree.text, questionText_eq, commaText_eq]
    rw [q_kw isName_struct h.1, q_commas, q_trees items cs h.2.2 hcs]
    simp [CType.hasNullable]
theorem q_trees : ∀ (ts : List TypeTree) (cs : List CType), AllWellFormed ts →
    meanings ts = some cs →
    ((∃ w ∈ TypeTree.texts ts, '?' ∈ w) ↔ CType.anyNullable cs = true)
  | [], cs, _, hm => by
    simp [meanings] at hm; subst hm; simp [TypeTree.texts, CType.anyNullable]
  | t :: ts, cs, h, hm => by
    simp only [AllWellFormed] at h
    simp only [meanings, Option.bind_eq_some_iff, Option.map_eq_some_iff] at hm
    obtain ⟨a, ha, as, has, rfl⟩ := hm
    simp only [TypeTree.texts, List.mem_cons, exists_eq_or_imp, CType.anyNullable,
      Bool.or_eq_true]
    rw [q_tree t a h.1 ha, q_trees ts as h.2 has]
end

mutual
theorem out_some (inside : Bool) : ∀ (t : TypeTree) (c : CType), WellFormed t →
    meaning t = some c →
    out inside t = if c.noNullInNull = true then some (pbRead c, []) else none
  | .absent, c, _, hm => by simp [meaning] at hm
  | .basic id q numbers, c, h, hm => by
    simp only [meaning] at hm
    have := basicMeaning_some hm inside
    rw [out, if_pos this.2.1, this.1]
  | .list kw q e, c, h, hm => by
    simp only [WellFormed] at h
    simp only [meaning, Option.map_eq_some_iff] at hm
    obtain ⟨a, ha, rfl⟩ := hm
    rw [out, out_some inside e a h.2 ha]
    simp only [q_tree e a h.2 ha, CType.noNullInNull]
    rcases Bool.eq_false_or_eq_true a.noNullInNull with h1 | h1 <;>
      rcases Bool.eq_false_or_eq_true a.hasNullable with h2 | h2 <;>
      cases q <;> simp [pbRead, h1, h2]
  | .map kw q k cm v, c, h, hm => by
    simp only [WellFormed] at h
    simp only [meaning] at hm
    split at hm
    · rename_i hc
      simp only [Option.bind_eq_some_iff, Option.map_eq_some_iff] at hm
      obtain ⟨a, ha, b, hb, rfl⟩ := hm
      rw [out, if_pos hc, out_some inside k a h.2.1 ha, out_some inside v b h.2.2 hb]
      have hqq : '?' ∈ k.text ++ [','] ++ v.text ↔
          (a.hasNullable || b.hasNullable) = true := by
        simp [q_tree k a h.2.1 ha, q_tree v b h.2.2 hb]
      simp only [hqq, CType.noNullInNull]
      rcases Bool.eq_false_or_eq_true a.noNullInNull with h1 | h1 <;>
        rcases Bool.eq_false_or_eq_true b.noNullInNull with h2 | h2 <;>
        rcases Bool.eq_false_or_eq_true a.hasNullable with h3 | h3 <;>
        rcases Bool.eq_false_or_eq_true b.hasNullable with h4 | h4 <;>
        cases q <;> simp [pbRead, h1, h2, h3, h4]
    · cases hm
  | .struct kw q items, c, h, hm => by
    simp only [WellFormed] at h
    simp only [meaning, Option.map_eq_some_iff] at hm
    obtain ⟨cs, hcs, rfl⟩ := hm
    rw [out, outs_some inside items cs h.2.2 hcs]
    simp only [q_commas, q_trees items cs h.2.2 hcs, CType.noNullInNull]
    rcases Bool.eq_false_or_eq_true (CType.allNoNullInNull cs) with h1 | h1 <;>
      rcases Bool.eq_false_or_eq_true (CType.anyNullable cs) with h2 | h2 <;>
      cases q <;> simp [pbRead, h1, h2]
theorem outs_some (inside : Bool) : ∀ (ts : List TypeTree) (cs : List CType), AllWellFormed ts →
    meanings ts = some cs →
    outs inside ts = if CType.allNoNullInNull cs = true then some (pbReads cs, []) else none
  | [], cs, _, hm => by
    simp [meanings] at hm; subst hm; simp [outs, CType.allNoNullInNull, pbReads]
  | t :: ts, cs, h, hm => by
    simp only [AllWellFormed] at h
    simp only [meanings, Option.bind_eq_some_iff, Option.map_eq_some_iff] at hm
    obtain ⟨a, ha, as, has, rfl⟩ := hm
    rw [outs, out_some inside t a h.1 ha, outs_some inside ts as h.2 has]
    simp only [CType.allNoNullInNull]
    rcases Bool.eq_false_or_eq_true a.noNullInNull with h1 | h1 <;>
      rcases Bool.eq_false_or_eq_true (CType.allNoNullInNull as) with h2 | h2 <;>
      simp [pbReads, h1, h2]
end

/-! ## Trees that do not stand for a type -/

/-- The reading fails: the decoder throws or errors are reported. -/
def Fails {α : Type} (x : Option (α × List TypeErr)) : Prop := ∀ r, x = some r → r.2 ≠ []

theorem basic_none {id : Str} {q : Bool} {numbers : List Str}
    (h : basicMeaning id q numbers = none) (hp : PlainNumbers (.basic id q numbers)) :
    Fails (basicOut false id q numbers) := by
  simp only [PlainNumbers] at hp
  obtain ⟨hd, hl, hfb⟩ := hp
  intro r hr
  cases numbers with
  | nil =>
    simp only [basicMeaning, Option.map_eq_none_iff] at h
    simp [basicOut, h] at hr
    subst hr; simp
  | cons x rest =>
    have hx := hd x (by simp)
    have one : id.map toLower ∈ lengthNames → rest = [] := by
      intro hm
      have := hl hm
      cases rest with
      | nil => rfl
      | cons _ _ => simp at this
    have big : rest = [] → id.map toLower ∈ lengthNames → ¬ digitsVal x ≤ 2147483647 := by
      rintro rfl hm
      apply param_none _ hx
      cases hpx : param x with
      | none => rfl
      | some l =>
        simp only [basicMeaning, hpx, Option.bind_some] at h
        simp only [lengthNames, List.mem_cons, List.not_mem_nil, or_false] at hm
        split at h
        · cases h
        · split at h
          · cases h
          · split at h
            · cases h
            · rcases hm with h1 | h1 | h1 <;> contradiction
    simp only [basicOut] at hr
    split at hr
    · rename_i h1
      have hm : id.map toLower ∈ lengthNames := by rw [h1]; decide
      rw [stoi32_digits hx, if_neg (big (one hm) hm)] at hr
      cases hr; simp
    · split at hr
      · rename_i h1
        have hm : id.map toLower ∈ lengthNames := by rw [h1]; decide
        rw [stoi32_digits hx, if_neg (big (one hm) hm), isInteger_digits hx] at hr
        cases hr; simp
      · split at hr
        · rename_i h1
          have hm : id.map toLower ∈ lengthNames := by rw [h1]; decide
          exact absurd (hfb h1 x (by simp)) (big (one hm) hm)
        · split at hr
          · rename_i h1
            split at hr
            · rename_i y
              have hy := hd y (by simp)
              simp only [basicMeaning, h1, if_true] at h
              rw [stoi32_digits hx, stoi32_digits hy] at hr
              cases hpx : param x with
              | none =>
                rw [if_neg (param_none hpx hx)] at hr
                cases hr; simp
              | some p =>
                rw [hpx] at h
                cases hpy : param y with
                | none =>
                  obtain ⟨_, hle, _⟩ := param_some hpx
                  rw [if_pos hle, if_neg (param_none hpy hy)] at hr
                  cases hr; simp
                | some s => rw [hpy] at h; simp at h
            · cases hr
          · cases hr

theorem Fails.map {α β : Type} {x : Option (α × List TypeErr)} (h : Fails x)
    {f : α × List TypeErr → β × List TypeErr} (hf : ∀ r, r.2 ≠ [] → (f r).2 ≠ []) :
    Fails (x.map f) := by
  intro r hr
  simp only [Option.map_eq_some_iff] at hr
  obtain ⟨a, ha, rfl⟩ := hr
  exact hf a (h a ha)

theorem fails_none {α : Type} : Fails (none : Option (α × List TypeErr)) := by
  intro r hr; cases hr

theorem fails_bind {α β γ : Type} {x : Option (α × List TypeErr)} {y : Option (β × List TypeErr)}
    (h : Fails x ∨ Fails y) (f : α → β → γ) :
    Fails (x.bind fun a => y.map fun b => (f a.1 b.1, a.2 ++ b.2)) := by
  intro r hr
  simp only [Option.bind_eq_some_iff, Option.map_eq_some_iff] at hr
  obtain ⟨a, ha, b, hb, rfl⟩ := hr
  rcases h with h | h
  · have := h a ha; simp [this]
  · have := h b hb; simp [this]

mutual
theorem out_none : ∀ t : TypeTree, WellFormed t → PlainNumbers t → meaning t = none →
    Fails (out false t)
  | .absent, _, _, _ => by intro r hr; simp [out] at hr; subst hr; simp
  | .basic id q numbers, h, hp, hm => by
    simp only [meaning] at hm
    exact basic_none hm hp
  | .list kw q e, h, hp, hm => by
    simp only [WellFormed] at h
    simp only [PlainNumbers] at hp
    simp only [meaning, Option.map_eq_none_iff] at hm
    rw [out]
    split
    · exact fails_none
    · exact (out_none e h.2 hp hm).map fun r hr => hr
  | .map kw q k c v, h, hp, hm => by
    simp only [WellFormed] at h
    simp only [PlainNumbers] at hp
    simp only [meaning] at hm
    rw [out]
    split
    · rename_i hc
      rw [if_pos hc] at hm
      split
      · exact fails_none
      · apply fails_bind _ (fun a b => PbType.map a b (nullValue q))
        cases hk : meaning k with
        | none => exact .inl (out_none k h.2.1 hp.1 hk)
        | some a =>
          rw [hk] at hm
          simp only [Option.bind_some, Option.map_eq_none_iff] at hm
          exact .inr (out_none v h.2.2 hp.2 hm)
    · unfold mapOneOut
      split
      · exact fails_none
      · split
        · intro r hr; cases hr; simp
        · exact fails_none
  | .struct kw q items, h, hp, hm => by
    simp only [WellFormed] at h
    simp only [PlainNumbers] at hp
    simp only [meaning, Option.map_eq_none_iff] at hm
    rw [out]
    split
    · exact fails_none
    · exact (outs_none items h.2.2 hp hm).map fun r hr => hr
theorem outs_none : ∀ ts : List TypeTree, AllWellFormed ts → AllPlainNumbers ts →
    meanings ts = none → Fails (outs false ts)
  | [], _, _, hm => by simp [meanings] at hm
  | t :: ts, h, hp, hm => by
    simp only [AllWellFormed] at h
    simp only [AllPlainNumbers] at hp
    simp only [meanings] at hm
    rw [outs]
    apply fails_bind _ (fun a b => a :: b)
    cases ht : meaning t with
    | none => exact .inl (out_none t h.1 hp.1 ht)
    | some a =>
      rw [ht] at hm
      simp only [Option.bind_some, Option.map_eq_none_iff] at hm
      exact .inr (outs_none ts h.2 hp.2 hm)
end

end Verif.TyPb
