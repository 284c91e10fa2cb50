import Verif.Spec.FormedTypes
import Verif.Lemmas.Lexer
import Verif.Lemmas.TypeProto

/-! # What the lexer and the parser make of types -/

namespace Verif.Lex

open Verif TyPb

/-- What the parser of types needs to know of a token. -/
structure Good (t : Token) : Prop where
  id : Parse.isSimpleId t.kind = true → IsIdText t.text ∧ t.text.map toLower ∉ typeKeywords
  underscore : t.kind = .underscore → t.text = ['_']
  list : t.kind = .list → t.text.map toLower = "list".toList
  map : t.kind = .map → t.text.map toLower = "map".toList
  struct : t.kind = .struct → t.text.map toLower = "struct".toList
  number : t.kind = .number → IsNumberText t.text

theorem digits_take (s : Str) : s.take (digitsLen s) = s.takeWhile isDigit := by
  have := List.takeWhile_append_dropWhile (p := isDigit) (l := s)
  unfold digitsLen
  conv => lhs; rw [← this]
  rw [List.take_append_of_le_length (by rw [this]; exact Nat.le_refl _), this, List.take_length]

theorem isDigits_take {s : Str} (h : digitsLen s ≠ 0) : IsDigits (s.take (digitsLen s)) := by
  rw [digits_take]
  refine ⟨?_, fun c hc => ?_⟩
  · intro e
    apply h
    unfold digitsLen
    rw [e]
    rfl
  · have : (s.takeWhile isDigit).all isDigit = true := List.all_takeWhile
    exact List.all_eq_true.mp this c hc

theorem fraction_take (s : Str) : s.take (fractionLen s) = [] ∨
    ∃ f, s.take (fractionLen s) = '.' :: f ∧ IsDigits f := by
  unfold fractionLen
  split
  · rename_i r
    split
    · left; simp
    · rename_i h
      right
      exact ⟨_, by rw [List.take_succ_cons], isDigits_take h⟩
  · left; simp

theorem exponent_take (s : Str) : s.take (exponentLen s) = [] ∨
    ∃ e sg x, s.take (exponentLen s) = e :: sg :: x ∧ (e = 'e' ∨ e = 'E') ∧
      (sg = '+' ∨ sg = '-') ∧ IsDigits x := by
  unfold exponentLen
  split
  · rename_i e sg r
    split
    · rename_i h
      right
      exact ⟨e, sg, r.take (digitsLen r), by rw [List.take_succ_cons, List.take_succ_cons], h.1,
        h.2.1, isDigits_take h.2.2⟩
    · left; simp
  · left; simp

theorem unsigned_take {s : Str} (h : unsignedLen s ≠ 0) : ∃ digits frac exp : Str,
    s.take (unsignedLen s) = digits ++ frac ++ exp ∧ IsDigits digits ∧
    (frac = [] ∨ ∃ f, frac = '.' :: f ∧ IsDigits f) ∧
    (exp = [] ∨ ∃ e sg x, exp = e :: sg :: x ∧ (e = 'e' ∨ e = 'E') ∧ (sg = '+' ∨ sg = '-') ∧
      IsDigits x) := by
  unfold unsignedLen at h ⊢
  simp only at h ⊢
  split
  · rename_i h0; simp [h0] at h
  · rename_i h0
    exact ⟨_, _, _, by rw [List.take_add, List.take_add], isDigits_take h0, fraction_take _,
      exponent_take _⟩

theorem numberRule_text {s : Str} {m : Match} (h : numberRule s = some m) :
    m.1 = .number ∧ IsNumberText (s.take m.2) := by
  unfold numberRule at h
  split at h
  · split at h
    · simp at h
    · rename_i r h0
      simp only [Option.some.injEq] at h
      subst h
      obtain ⟨d, f, e, h1, h2, h3, h4⟩ := unsigned_take h0
      exact ⟨rfl, ['-'], d, f, e, by simp [List.take_succ_cons, h1], .inr rfl, h2, h3, h4⟩
  · split at h
    · simp at h
    · rename_i h0
      simp only [Option.some.injEq] at h
      subst h
      obtain ⟨d, f, e, h1, h2, h3, h4⟩ := unsigned_take h0
      exact ⟨rfl, [], d, f, e, by simp [h1], .inl rfl, h2, h3, h4⟩

theorem symbolRule_kind {s : Str} {m : Match} (h : symbolRule s = some m) :
    Parse.isSimpleId m.1 = false ∧ m.1 ≠ .list ∧ m.1 ≠ .map ∧ m.1 ≠ .struct ∧ m.1 ≠ .number ∧
    (m.1 = .underscore → s.take m.2 = ['_']) := by
  unfold symbolRule at h
  split at h <;> simp only [Option.some.injEq, reduceCtorEq] at h <;> subst h <;>
    simp [Parse.isSimpleId]

theorem identifierRule_text {s : Str} {m : Match} (h : identifierRule s = some m) :
    m.1 = .identifier ∧ IsIdText (s.take m.2) := by
  unfold identifierRule at h
  split at h
  · rename_i c cs
    split at h
    · rename_i hc
      simp only [Option.some.injEq] at h
      subst h
      refine ⟨rfl, by simp, fun x hx => ?_⟩
      rw [List.take_succ_cons, List.mem_cons] at hx
      rcases hx with rfl | hx
      · exact .inl hc
      · have e : cs.take (cs.takeWhile isWordChar).length = cs.takeWhile isWordChar := by
          have := List.takeWhile_append_dropWhile (p := isWordChar) (l := cs)
          conv => lhs; rw [← this]
          rw [List.take_append_of_le_length (by rw [this]; exact Nat.le_refl _), this,
            List.take_length]
        rw [e] at hx
        have hw := List.all_eq_true.mp (List.all_takeWhile (p := isWordChar) (l := cs)) x hx
        simp only [isWordChar, Bool.or_eq_true, decide_eq_true_eq] at hw
        rcases hw with (hw | hw) | hw
        · exact .inl hw
        · exact .inr (.inl hw)
        · exact .inr (.inr (.inl hw))
    · simp at h
  · simp at h

theorem simple_keywords : ∀ e ∈ keywords, (Parse.isSimpleId e.2 = true →
      e.1 ∉ typeKeywords ∧ ∀ c ∈ e.1, isLetter c = true) ∧
    (e.2 = .list → e.1 = "list".toList) ∧ (e.2 = .map → e.1 = "map".toList) ∧
    (e.2 = .struct → e.1 = "struct".toList) ∧ e.2 ≠ .number ∧ e.2 ≠ .underscore ∧
    e.2 ≠ .identifier := by
  decide

theorem typeKeyword_rules : ∀ w ∈ typeKeywords, ∃ k, (w, k) ∈ keywords := by
  intro w hw
  simp only [typeKeywords, List.mem_cons, List.not_mem_nil, or_false] at hw
  rcases hw with rfl | rfl | rfl
  · exact ⟨.list, by decide⟩
  · exact ⟨.map, by decide⟩
  · exact ⟨.struct, by decide⟩

theorem string_kinds {k : Tk} (h : k = .string ∨ k = .comment ∨ k = .spaces ∨ k = .uri ∨
    k = .leftBrace) (t : Str) : Good ⟨k, t⟩ := by
  rcases h with rfl | rfl | rfl | rfl | rfl <;>
    exact ⟨by simp [Parse.isSimpleId], by simp, by simp, by simp, by simp, by simp⟩

theorem keyword_good {s : Str} {m : Match} (h : keywordRule s = some m) : Good ⟨m.1, s.take m.2⟩ := by
  obtain ⟨w, hw, h1, h2⟩ := keywordRule_some s m h
  obtain ⟨k1, k2, k3, k4, k5, k6, k7⟩ := simple_keywords _ hw
  rw [h1]
  refine ⟨fun hk => ?_, fun hk => absurd hk k6, fun hk => ?_, fun hk => ?_, fun hk => ?_,
    fun hk => absurd hk k5⟩
  · simp only at hk ⊢
    rw [h2]
    refine ⟨⟨fun e => ?_, fun c hc => .inl ?_⟩, (k1 hk).1⟩
    · rw [e] at h2
      exact (keyword_letters _ hw).1 h2.symm
    · rw [← isLetter_toLower]
      exact (k1 hk).2 _ (by rw [← h2]; exact List.mem_map_of_mem hc)
  · exact h2.trans (k2 hk)
  · exact h2.trans (k3 hk)
  · exact h2.trans (k4 hk)

theorem longest_head {a m : Match} {l : List (Option Match)} (h : longest (some a :: l) = some m) :
    m = a ∨ a.2 < m.2 := by
  unfold longest at h
  cases hl : longest l with
  | none => rw [hl] at h; simp at h; exact .inl h.symm
  | some b =>
    rw [hl] at h
    simp only at h
    split at h
    · simp only [Option.some.injEq] at h; subst h; exact .inr ‹_›
    · simp only [Option.some.injEq] at h; exact .inl h.symm

theorem raw_kind {t : Str} {one : Bool} {s : Str} {m : Match} (h : rawRule t one s = some m) :
    m.1 = .string := by
  unfold rawRule at h
  split at h
  · cases hr : rawLen one t t.length (s.drop t.length) with
    | none => rw [hr] at h; simp at h
    | some n => rw [hr] at h; simp at h; subst h; rfl
  · simp at h

theorem stringRule_kind {s : Str} {m : Match} (h : stringRule s = some m) : m.1 = .string := by
  unfold stringRule at h
  split at h
  · rename_i r
    cases hr : stringLen false 1 r with
    | none => rw [hr] at h; simp at h
    | some n => rw [hr] at h; simp at h; subst h; rfl
  · simp at h

theorem uriRule_kind {s : Str} {m : Match} (h : uriRule s = some m) : m.1 = .uri := by
  unfold uriRule at h
  simp only [Option.ite_none_left_eq_some, Option.some.injEq] at h
  rw [← h.2]

theorem lexDefault_good {s : Str} {m : Match} (h : lexDefault s = some m) :
    Good ⟨m.1, s.take m.2⟩ := by
  have hm := longest_mem _ _ h
  simp only [List.mem_cons, List.not_mem_nil, or_false] at hm
  rcases hm with hm | hm | hm | hm | hm | hm | hm | hm | hm | hm
  · exact keyword_good hm.symm
  · obtain ⟨h1, h2, h3, h4, h5, h6⟩ := symbolRule_kind hm.symm
    exact ⟨fun hk => by simp [h1] at hk, h6, fun hk => absurd hk h2, fun hk => absurd hk h3,
      fun hk => absurd hk h4, fun hk => absurd hk h5⟩
  · obtain ⟨h1, h2⟩ := identifierRule_text hm.symm
    refine ⟨fun _ => ⟨h2, fun hw => ?_⟩, ?_, ?_, ?_, ?_, ?_⟩
    · obtain ⟨k, hk⟩ := typeKeyword_rules _ hw
      simp only at hk
      have hlen : ((s.take m.2).map toLower).length ≤ m.2 := by
        rw [List.length_map, List.length_take]; omega
      have hf : fixedRule s ((s.take m.2).map toLower) k =
          some (k, ((s.take m.2).map toLower).length) := by
        unfold fixedRule
        rw [if_pos]
        have : s.take ((s.take m.2).map toLower).length = s.take m.2 := by
          rw [List.length_map, List.length_take, List.take_eq_take_iff]
          omega
        rw [this]
      have hkr : ∃ a, keywordRule s = some a ∧ ((s.take m.2).map toLower).length ≤ a.2 := by
        cases hk' : keywordRule s with
        | none =>
          exfalso
          have : ∀ (l : List (Option Match)) x, some x ∈ l → longest l ≠ none := by
            intro l
            induction l with
            | nil => intro x hx; simp at hx
            | cons y l ih =>
              intro x hx hn
              cases y with
              | none =>
                rw [longest_cons_none] at hn
                exact ih x (by simpa using hx) hn
              | some y =>
                unfold longest at hn
                cases hl : longest l with
                | none => rw [hl] at hn; simp at hn
                | some b => rw [hl] at hn; simp only at hn; split at hn <;> simp at hn
          exact this _ _ (List.mem_map.mpr ⟨_, hk, hf⟩) hk'
        | some a =>
          exact ⟨a, rfl, longest_ge _ a _ hk' (List.mem_map.mpr ⟨_, hk, hf⟩)⟩
      obtain ⟨a, ha, hle⟩ := hkr
      have hne : a.1 ≠ .identifier := by
        obtain ⟨w, hw, -, -⟩ := keywordRule_some s a ha
        exact (simple_keywords _ hw).2.2.2.2.2.2
      unfold lexDefault at h
      rw [ha] at h
      have hs : m.2 ≤ s.length := by
        unfold identifierRule at hm
        split at hm
        · split at hm
          · simp only [Option.some.injEq] at hm
            subst hm
            simp only [List.length_cons]
            exact Nat.succ_le_succ (List.takeWhile_sublist _).length_le
          · simp at hm
        · simp at hm
      rw [List.length_map, List.length_take, Nat.min_eq_left hs] at hle
      rcases longest_head h with rfl | hlt
      · exact hne h1
      · omega
    all_goals (intro hk; simp only [h1] at hk; exact absurd hk (by decide))
  · obtain ⟨h1, h2⟩ := numberRule_text hm.symm
    refine ⟨?_, ?_, ?_, ?_, ?_, fun _ => h2⟩
    all_goals (intro hk; simp only [h1] at hk; exact absurd hk (by decide))
  · refine string_kinds (.inl ?_) _
    exact stringRule_kind hm.symm
  · exact string_kinds (.inl (raw_kind hm.symm)) _
  · exact string_kinds (.inl (raw_kind hm.symm)) _
  · exact string_kinds (.inl (raw_kind hm.symm)) _
  · refine string_kinds (.inr (.inl ?_)) _
    have hm := hm.symm
    unfold commentRule at hm
    split at hm
    · simp only at hm
      split at hm <;> simp only [Option.some.injEq, reduceCtorEq] at hm <;> subst hm <;> rfl
    · simp at hm
  · refine string_kinds (.inr (.inr (.inl ?_))) _
    have hm := hm.symm
    unfold spaceRule at hm
    split at hm
    · split at hm
      · simp only [Option.some.injEq] at hm; subst hm; rfl
      · simp at hm
    · simp at hm

theorem lexExtensions_good {s : Str} {m : Match} (h : lexExtensions s = some m) (t : Str) :
    Good ⟨m.1, t⟩ := by
  have hm := longest_mem _ _ h
  simp only [List.mem_cons, List.not_mem_nil, or_false] at hm
  rcases hm with hm | hm | hm
  · refine string_kinds (.inr (.inr (.inr (.inl ?_)))) _
    exact uriRule_kind hm.symm
  · refine string_kinds (.inr (.inr (.inr (.inr ?_)))) _
    have hm := hm.symm
    split at hm
    · simp only [Option.some.injEq] at hm; subst hm; rfl
    · simp at hm
  · refine string_kinds (.inr (.inr (.inl ?_))) _
    have hm := hm.symm
    unfold spaceRule at hm
    split at hm
    · split at hm
      · simp only [Option.some.injEq] at hm; subst hm; rfl
      · simp at hm
    · simp at hm

/-- All tokens are good. -/
def GoodL (ts : List Token) : Prop := ∀ t ∈ ts, Good t

theorem lexF_good : ∀ (f : Nat) (m : Mode) (s : Str) (ts : List Token),
    lexF f m s = some ts → GoodL ts
  | f, m, [], ts, h => by
    cases f <;> simp [lexF] at h <;> subst h <;> intro t ht <;> simp at ht
  | 0, m, c :: cs, ts, h => by simp [lexF] at h
  | f + 1, m, c :: cs, ts, h => by
    rw [lexF] at h
    split at h
    · simp at h
    · rename_i k n hk
      split at h
      · simp at h
      · rename_i us hu
        have ih := lexF_good f _ _ us hu
        simp only [Option.some.injEq] at h
        subst h
        split
        · exact ih
        · intro t ht
          rcases List.mem_cons.mp ht with rfl | ht
          · cases m with
            | default => exact lexDefault_good (m := (k, n)) hk
            | extensions => exact lexExtensions_good (m := (k, n)) hk _
          · exact ih t ht

end Verif.Lex
