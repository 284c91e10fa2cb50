import Verif.Lemmas.CaseParse
import Verif.Spec.LetterCase
import Verif.Prop.TypeDecode

/-!
Types are read without looking at the case of letters.
-/

namespace Verif.Lex

open Verif

theorem takeWhile_low {p : Char → Bool} (h : ∀ c, p (toLower c) = p c) (s : Str) :
    (lowS s).takeWhile p = lowS (s.takeWhile p) := by
  induction s with
  | nil => rfl
  | cons c s ih =>
    rw [lowS_cons, List.takeWhile_cons, List.takeWhile_cons, h, ih]
    cases p c <;> rfl

theorem dropWhile_low {p : Char → Bool} (h : ∀ c, p (toLower c) = p c) (s : Str) :
    (lowS s).dropWhile p = lowS (s.dropWhile p) := by
  induction s with
  | nil => rfl
  | cons c s ih =>
    rw [lowS_cons, List.dropWhile_cons, List.dropWhile_cons, h, ih]
    cases p c <;> rfl

theorem isSpace_lower (c : Char) : StringUtils.isSpace (toLower c) = StringUtils.isSpace c := by
  simp [StringUtils.isSpace, sign_iff (c := c) (d := ' ') (by decide), sign_iff (c := c) (d := '\n') (by decide),
    sign_iff (c := c) (d := '\r') (by decide), sign_iff (c := c) (d := '\t') (by decide),
    sign_iff (c := c) (d := '\x0c') (by decide), sign_iff (c := c) (d := '\x0b') (by decide)]

theorem digit_not_letter {c : Char} (h : isDigit c = true) : isLetter c = false := by
  simp only [isDigit, isLetter, Bool.and_eq_true, decide_eq_true_eq, Bool.or_eq_false_iff] at h ⊢
  obtain ⟨h1, h2⟩ := h
  have a1 : (48 : Nat) ≤ c.toNat := h1
  have a2 : c.toNat ≤ 57 := h2
  constructor <;> simp <;> intro h3 <;> have := Nat.le_trans h3 a2 <;> exact absurd this (by decide)

theorem leadDigits_low (s : Str) : TyPb.leadDigits (lowS s) = TyPb.leadDigits s := by
  induction s with
  | nil => rfl
  | cons c s ih =>
    simp only [TyPb.leadDigits, lowS_cons, List.takeWhile_cons, isDigit_toLower] at ih ⊢
    cases h : isDigit c with
    | false => rfl
    | true => simp [ih, lower_same (digit_not_letter h)]

theorem signDigits_low (s : Str) : TyPb.signDigits (lowS s) = TyPb.signDigits s := by
  cases s with
  | nil => rfl
  | cons c s =>
    by_cases h1 : c = '-'
    · subst h1
      show TyPb.signDigits ('-' :: lowS s) = _
      simp only [TyPb.signDigits, leadDigits_low]
    · by_cases h2 : c = '+'
      · subst h2
        show TyPb.signDigits ('+' :: lowS s) = _
        simp only [TyPb.signDigits, leadDigits_low]
      · have e1 : toLower c ≠ '-' := fun h => h1 ((sign_iff (by decide)).1 h)
        have e2 : toLower c ≠ '+' := fun h => h2 ((sign_iff (by decide)).1 h)
        have := leadDigits_low (c :: s)
        simp only [lowS_cons] at this
        simp [TyPb.signDigits, lowS_cons, h1, h2, e1, e2, this]

theorem stoBound_low (n : Nat) (s : Str) : TyPb.stoBound n (lowS s) = TyPb.stoBound n s := by
  simp only [TyPb.stoBound, dropWhile_low isSpace_lower, signDigits_low]

theorem stoi32_low (s : Str) : TyPb.stoi32 (lowS s) = TyPb.stoi32 s := stoBound_low _ s

end Verif.Lex

namespace Verif.TyPb

open Verif Lex Ty

theorem lower_is (s : Str) : s.map toLower = lowS s := rfl

theorem all_digits_low (s : Str) : (lowS s).all isDigit = s.all isDigit := by
  induction s with
  | nil => rfl
  | cons c s ih => rw [lowS_cons, List.all_cons, List.all_cons, Lex.isDigit_toLower, ih]

theorem nonNegative_low (s : Str) : NumberUtils.isNonNegativeInteger (lowS s) = NumberUtils.isNonNegativeInteger s := by
  simp only [NumberUtils.isNonNegativeInteger, all_digits_low]
  cases s <;> rfl

theorem isInteger_low (s : Str) : NumberUtils.isInteger (lowS s) = NumberUtils.isInteger s := by
  have : NumberUtils.isNegativeInteger (lowS s) = NumberUtils.isNegativeInteger s := by
    cases s with
    | nil => rfl
    | cons c s =>
      by_cases h : c = '-'
      · subst h
        exact nonNegative_low s
      · have e1 : toLower c ≠ '-' := fun h' => h ((sign_iff (by decide)).1 h')
        simp [NumberUtils.isNegativeInteger, lowS_cons, h, e1]
  rw [NumberUtils.isInteger, nonNegative_low, this]
  rfl

theorem fixedChar_fold (l : PType) (n : Bool) : fixedCharToProto l.fold n = fixedCharToProto l n := by
  cases l <;> simp only [PType.fold, fixedCharToProto, lower_is, stoi32_low]

theorem varchar_fold (l : PType) (n : Bool) : varcharToProto l.fold n = varcharToProto l n := by
  cases l <;> simp only [PType.fold, varcharToProto, lower_is, stoi32_low, isInteger_low]

theorem decimal_fold (p s : PType) (n : Bool) : decimalToProto p.fold s.fold n = decimalToProto p s n := by
  cases p <;> cases s <;> simp only [PType.fold, decimalToProto, lower_is, stoi32_low]

theorem isNull_fold (t : PType) : t.fold.isNull = t.isNull := by cases t <;> rfl

mutual
theorem typeToProto_fold (inside : Bool) : ∀ t : PType, typeToProto inside t.fold = typeToProto inside t
  | .null => rfl
  | .scalar _ _ => rfl
  | .decimal _ _ _ => rfl
  | .fixedBinary _ _ => rfl
  | .fixedChar _ _ => rfl
  | .varchar _ _ => rfl
  | .list _ _ => by simp only [PType.fold, typeToProto]
  | .struct _ _ => by simp only [PType.fold, typeToProto]
  | .map _ _ _ => by simp only [PType.fold, typeToProto]
  | .lit _ _ _ => rfl
  | .pDecimal p s n => by simp only [PType.fold, typeToProto, decimal_fold]
  | .pFixedBinary _ _ => by simp only [PType.fold, typeToProto]
  | .pFixedChar l n => by simp only [PType.fold, typeToProto, fixedChar_fold]
  | .pVarchar l n => by simp only [PType.fold, typeToProto, varchar_fold]
  | .pStruct cs n => by simp only [PType.fold, typeToProto, typesToProto_folds inside cs]
  | .pList e n => by simp only [PType.fold, typeToProto, typeToProto_fold inside e]
  | .pMap k v n => by
    simp only [PType.fold, typeToProto, isNull_fold, typeToProto_fold inside k, typeToProto_fold inside v]
theorem typesToProto_folds (inside : Bool) : ∀ cs : List PType, typesToProto inside (PType.folds cs) = typesToProto inside cs
  | [] => rfl
  | c :: cs => by
    simp only [PType.folds, typesToProto, typeToProto_fold inside c, typesToProto_folds inside cs]
end

/-- The type of a text in lower case is the type of the text. -/
theorem textToTypeProto_low (inside : Bool) (s : Str) : textToTypeProto inside (lowS s) = textToTypeProto inside s := by
  have h := decode_caseInsensitive true (lowS s) s (lowS_idem s)
  rw [textToTypeProto, textToTypeProto]
  cases h1 : decode true (lowS s) with
  | ok t =>
    rw [h1] at h
    cases h2 : decode true s with
    | ok u =>
      rw [h2] at h
      have : t.fold = u.fold := by simpa using h
      show typeToProto inside t = typeToProto inside u
      rw [← typeToProto_fold, this, typeToProto_fold]
    | throw e => rw [h2] at h; simp at h
    | ub => rw [h2] at h; simp at h
  | throw e =>
    rw [h1] at h
    cases h2 : decode true s with
    | ok u => rw [h2] at h; simp at h
    | throw e => rfl
    | ub => rw [h2] at h; simp at h
  | ub =>
    rw [h1] at h
    cases h2 : decode true s with
    | ok u => rw [h2] at h; simp at h
    | throw e => rw [h2] at h; simp at h
    | ub => rfl

end Verif.TyPb

namespace Verif.Tree

open Verif Lex

@[simp] theorem lowS_sign {c : Char} (h : isLetter c = false) (s : Str) : lowS (c :: s) = c :: lowS s := by
  rw [lowS_cons, lower_same h]

theorem questionText_low (q : Bool) : lowS (questionText q) = questionText q := by cases q <;> rfl
theorem optComma_low (q : Bool) : lowS (optComma q) = optComma q := by cases q <;> rfl

theorem commaText_low (l : List Str) : lowS (commaText l) = commaText (l.map lowS) := by
  induction l with
  | nil => rfl
  | cons a l ih =>
    cases l with
    | nil => rfl
    | cons b l =>
      simp only [commaText, List.map_cons, lowS_append, lowS_cons] at ih ⊢
      rw [ih]
      rfl

theorem angle_low (s : Str) : lowS ('<' :: s ++ ['>']) = '<' :: lowS s ++ ['>'] := by
  rw [lowS_append]; rfl

mutual
theorem TypeTree.low_text : ∀ t : TypeTree, t.low.text = lowS t.text
  | .absent => rfl
  | .basic id q ns => by
    simp only [TypeTree.low, TypeTree.text, lowS_append, questionText_low]
    cases ns with
    | nil => rfl
    | cons n ns =>
      simp only [List.map_cons, List.isEmpty_cons, Bool.false_eq_true, if_false, lowS_append, lowS_cons, commaText_low]
      rfl
  | .list kw q e => by
    simp only [TypeTree.low, TypeTree.text, lowS_append, questionText_low, lowS_cons, TypeTree.low_text e]
    rfl
  | .map kw q k c v => by
    simp only [TypeTree.low, TypeTree.text, lowS_append, questionText_low, optComma_low, lowS_cons,
      TypeTree.low_text k, TypeTree.low_text v]
    rfl
  | .struct kw q items => by
    simp only [TypeTree.low, TypeTree.text, lowS_append, questionText_low, lowS_cons, commaText_low,
      TypeTree.low_texts items]
    rfl
theorem TypeTree.low_texts : ∀ ts : List TypeTree, TypeTree.texts (TypeTree.lowL ts) = (TypeTree.texts ts).map lowS
  | [] => rfl
  | t :: ts => by
    simp only [TypeTree.lowL, TypeTree.texts, List.map_cons, TypeTree.low_text t, TypeTree.low_texts ts]
end

end Verif.Tree
