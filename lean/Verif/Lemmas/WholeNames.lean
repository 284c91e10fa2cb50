import Verif.Spec.Whole
import Verif.Lemmas.Names
import Verif.Lemmas.Strings
import Verif.Lemmas.SectionsRead

/-! # The names the converter makes up -/

namespace Verif.Whole

open Verif Verif.Lex Verif.Parse Verif.Expr

/-- A word with a digit at its end is an identifier. -/
theorem lex_word (c : Char) (s : Str) (d : Char) (hc : isLetter c = true)
    (hs : ∀ x ∈ s, isWordChar x = true) (hd : isDigit d = true) :
    lex (c :: (s ++ [d])) = some [⟨.identifier, c :: (s ++ [d])⟩] := by
  have hw : isWordChar d = true := by simp [isWordChar, hd]
  have htw : (s ++ [d]).takeWhile isWordChar = s ++ [d] := by
    rw [List.takeWhile_append_of_pos hs]
    simp [hw]
  have hi : identifierRule (c :: (s ++ [d])) = some (.identifier, (s ++ [d]).length + 1) := by
    simp only [identifierRule, hc, if_true, htw]
  have hk : ∀ m, keywordRule (c :: (s ++ [d])) = some m → m.2 < (s ++ [d]).length + 1 := by
    intro m hm
    obtain ⟨w, hw', h1, h2⟩ := keywordRule_some _ _ hm
    rw [h1]
    rcases Nat.lt_or_ge w.length ((s ++ [d]).length + 1) with h | h
    · exact h
    · exfalso
      rw [List.take_of_length_le (by simpa using h)] at h2
      have hm : toLower d ∈ w := by rw [← h2]; simp
      have hl := (keyword_letters _ hw').2.2 _ hm
      have ht := toLower_toNat d
      simp only [isDigit, Bool.and_eq_true, decide_eq_true_eq] at hd
      rcases hl with hl | hl
      · split at ht <;> omega
      · rw [hl] at ht
        have : ('_' : Char).toNat = 95 := rfl
        split at ht <;> omega
  have hlex : lexDefault (c :: (s ++ [d])) = some (.identifier, (s ++ [d]).length + 1) := by
    rw [lexDefault_letter _ _ hc, hi]
    cases hkw : keywordRule (c :: (s ++ [d])) with
    | none => simp [longest]
    | some m =>
      have := hk m hkw
      simp only [longest]
      rw [if_pos (by simpa using this)]
  have hstep := step_word c (s ++ [d]) [] .identifier hc (by intro x hx; simp at hx) hlex (by decide)
  have h0 : lex ([] : Str) = some [] := by decide +kernel
  have := lex_cons _ _ _ _ hstep h0
  simpa [seen, hidden] using this

/-- What is used of the name parts: they are read as one identifier which is not `NULL`. -/
structure Base (b : Str) : Prop where
  head : ∃ c s, b = c :: s ∧ isLetter c = true ∧ ∀ x ∈ s, isLetter x = true
  word : ∃ k, isSimpleId k = true ∧ k ≠ .null ∧ lex b = some [⟨k, b⟩]
  notEnum : ¬ "_enum".toList <:+ b

/-- A test for this. -/
def baseTest (b : Str) : Bool :=
  (match b with
    | c :: s => isLetter c && s.all isLetter
    | [] => false) &&
  ((match lex b with
    | some [t] => isSimpleId t.kind && decide (t.kind ≠ .null) && decide (t.text = b)
    | _ => false) && !("_enum".toList.isSuffixOf b))

theorem Base.of_test {b : Str} (h : baseTest b = true) : Base b := by
  unfold baseTest at h
  rw [Bool.and_eq_true, Bool.and_eq_true] at h
  obtain ⟨h1, h2, h3⟩ := h
  refine ⟨?_, ?_, ?_⟩
  · cases b with
    | nil => simp at h1
    | cons c s =>
      simp only [Bool.and_eq_true, List.all_eq_true] at h1
      exact ⟨c, s, rfl, h1.1, h1.2⟩
  · split at h2
    · next t e =>
      simp only [Bool.and_eq_true, decide_eq_true_eq] at h2
      refine ⟨t.kind, h2.1.1, h2.1.2, ?_⟩
      rw [e, ← h2.2]
    · simp at h2
  · intro hs
    rw [← List.isSuffixOf_iff_suffix] at hs
    rw [hs] at h3
    simp at h3

theorem base_of_mem : ∀ b ∈ bases, Base b := by
  have h : bases.all baseTest = true := by decide +kernel
  rw [List.all_eq_true] at h
  exact fun b hb => .of_test (h b hb)

theorem natText_snoc (n : Nat) : ∃ s d, natText n = s ++ [d] ∧ isDigit d = true := by
  have h := natText_ne_nil n
  refine ⟨_, _, (List.dropLast_concat_getLast h).symm, natText_digits n _ (List.getLast_mem h)⟩

/-- A name that was made up, as one token. -/
theorem MadeUp.lex {s : Str} (h : MadeUp s) :
    ∃ k, isSimpleId k = true ∧ k ≠ .null ∧ Lex.lex s = some [⟨k, s⟩] := by
  obtain ⟨b, hb, n, rfl⟩ := h
  have hB := base_of_mem b hb
  unfold Sym.uniqueText
  split
  · exact hB.word
  · obtain ⟨c, t, rfl, hc, ht⟩ := hB.head
    obtain ⟨u, d, e, hd⟩ := natText_snoc (n + 1)
    have hu : ∀ x ∈ u, isDigit x = true := fun x hx => natText_digits (n + 1) x (by rw [e]; simp [hx])
    refine ⟨.identifier, rfl, by decide, ?_⟩
    rw [e]
    have := lex_word c (t ++ u) d hc (by
      intro x hx
      rcases List.mem_append.mp hx with hx | hx
      · simp [isWordChar, ht x hx]
      · simp [isWordChar, hu x hx]) hd
    simpa using this

theorem MadeUp.name {s : Str} (h : MadeUp s) : Ext.IsName s := by
  obtain ⟨k, h1, -, h2⟩ := h.lex
  exact ⟨_, h2, by simp [parseId, h1, idTail]⟩

theorem MadeUp.column {s : Str} (h : MadeUp s) : IsColumn s := by
  obtain ⟨k, h1, h0, h2⟩ := h.lex
  exact .inl ⟨_, h2, by simp [parseId, h1, idTail], by simp [nextIs, h0]⟩

theorem MadeUp.notEnum {s : Str} (h : MadeUp s) : ¬ "_enum".toList <:+ s := by
  obtain ⟨b, hb, n, rfl⟩ := h
  have hB := base_of_mem b hb
  unfold Sym.uniqueText
  split
  · exact hB.notEnum
  · obtain ⟨u, d, e, hd⟩ := natText_snoc (n + 1)
    rw [e]
    rintro ⟨x, hx⟩
    have e0 : "_enum".toList = "_enu".toList ++ ['m'] := by decide
    rw [e0, ← List.append_assoc, ← List.append_assoc] at hx
    have := List.append_inj_right' hx rfl
    simp only [List.cons.injEq, and_true] at this
    rw [← this] at hd
    exact absurd hd (by decide)

/-- All the characters of an identifier can be in one. -/
theorem name_chars {s : Str} (h : Ext.IsName s) : ∀ c ∈ s, isNameChar c = true := by
  obtain ⟨ts, h1, h2⟩ := h
  exact (Name.of_parse h1 h2).chars

theorem name_no_dot {s : Str} (h : Ext.IsName s) : '.' ∉ s := by
  intro hm
  exact absurd (name_chars h _ hm) (by decide)

theorem name_ne_nil {s : Str} (h : Ext.IsName s) : s ≠ [] := by
  rintro rfl
  obtain ⟨ts, h1, h2⟩ := h
  have h0 : Lex.lex ([] : Str) = some [] := by decide +kernel
  rw [h0] at h1
  injection h1 with h1
  subst h1
  simp [parseId] at h2

theorem MadeUp.ne_nil {s : Str} (h : MadeUp s) : s ≠ [] := name_ne_nil h.name

theorem MadeUp.ne_rootNames {s : Str} (h : MadeUp s) : s ≠ Sec.rootNamesName := by
  rintro rfl
  exact name_no_dot h.name (by decide)

theorem uniqueText_madeUp {b : Str} (hb : b ∈ bases) (n : Nat) : MadeUp (Sym.uniqueText b n) :=
  ⟨b, hb, n, rfl⟩

end Verif.Whole
