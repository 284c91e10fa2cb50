import Verif.Lemmas.Parser

/-! # A text that is read as an identifier is a `Name` -/

namespace Verif.Parse

open Verif Lex

theorem idKind_of_simple (k : Tk) (h : isSimpleId k = true) : idKind k = true := by
  revert h; cases k <;> decide

theorem idTail_kinds : ∀ (ts : List Token) (acc pend : Str) (back : List Token) (s : Str),
    idTail acc pend back ts = (s, []) → ts.length ≤ back.length →
    (pend ≠ [] → ts.length < back.length) →
    (∀ t ∈ ts, idKind t.kind = true) ∧ s = acc ++ pend ++ (ts.map (·.text)).flatten
  | [], acc, pend, back, s, h, _, hp => by
    simp only [idTail, Prod.mk.injEq] at h
    obtain ⟨rfl, rfl⟩ := h
    have : pend = [] := by
      rcases pend with _ | ⟨c, p⟩
      · rfl
      · exact absurd (hp (by simp)) (by simp)
    simp [this]
  | t :: ts, acc, pend, back, s, h, hb, hp => by
    simp only [idTail] at h
    split at h
    · rename_i hk
      have hb' : ts.length < back.length := by simp at hb; omega
      obtain ⟨h1, h2⟩ := idTail_kinds ts _ _ _ _ h (by omega) (fun _ => hb')
      refine ⟨?_, by simp [h2]⟩
      intro u hu
      rcases List.mem_cons.mp hu with rfl | hu
      · rw [hk]; rfl
      · exact h1 u hu
    · split at h
      · rename_i hk
        rw [Bool.and_eq_true] at hk
        obtain ⟨h1, h2⟩ := idTail_kinds ts _ _ _ _ h (Nat.le_refl _) (fun hc => absurd rfl hc)
        refine ⟨?_, by simp [h2]⟩
        intro u hu
        rcases List.mem_cons.mp hu with rfl | hu
        · exact idKind_of_simple _ hk.1
        · exact h1 u hu
      · simp only [Prod.mk.injEq] at h
        rw [h.2] at hb; simp at hb

theorem nameChar_of_lower (c : Char)
    (h : 97 ≤ (toLower c).toNat ∧ (toLower c).toNat ≤ 122 ∨ toLower c = '_') :
    isNameChar c = true := by
  rcases h with h | h
  · have h3 : isLetter (toLower c) = true := by
      simp only [isLetter, Bool.or_eq_true, Bool.and_eq_true, decide_eq_true_eq]
      omega
    rw [isLetter_toLower] at h3
    simp [isNameChar, isWordChar, h3]
  · have h3 := toLower_toNat c
    rw [h] at h3
    have h4 : ('_' : Char).toNat = 95 := rfl
    split at h3
    · omega
    · have : c = '_' := Char.toNat_inj.mp (by rw [h4]; omega)
      simp [isNameChar, this]

theorem lexDefault_nameChars (s : Str) (k : Tk) (n : Nat) (h : lexDefault s = some (k, n))
    (hk : idKind k = true) : ∀ c ∈ s.take n, isNameChar c = true := by
  have hm := longest_mem _ _ h
  simp only [List.mem_cons, List.not_mem_nil, or_false] at hm
  rcases hm with h | h | h | h | h | h | h | h | h | h
  · obtain ⟨w, hw, h1, h2⟩ := keywordRule_some s _ h.symm
    simp only at h1
    subst h1
    intro c hc
    have hl := (keyword_letters _ hw).2.2
    apply nameChar_of_lower
    apply hl
    show toLower c ∈ w
    rw [← h2]
    exact List.mem_map_of_mem hc
  · have h := h.symm
    unfold symbolRule at h
    split at h <;> simp only [Option.some.injEq, Prod.mk.injEq, reduceCtorEq] at h <;>
      obtain ⟨rfl, rfl⟩ := h <;> revert hk <;> simp [idKind, isNameChar]
  · have h := h.symm
    unfold identifierRule at h
    split at h
    · rename_i c cs _ _
      split at h
      · rename_i hc
        simp only [Option.some.injEq, Prod.mk.injEq] at h
        obtain ⟨-, rfl⟩ := h
        intro d hd
        rw [List.take_succ_cons, List.mem_cons] at hd
        rcases hd with rfl | hd
        · simp [isNameChar, isWordChar, hc]
        · have : List.take (List.takeWhile isWordChar cs).length cs = cs.takeWhile isWordChar := by
            have := List.takeWhile_append_dropWhile (p := isWordChar) (l := cs)
            exact (List.append_inj_left (this.trans (List.take_append_drop _ cs).symm)
              (by simp [List.length_take, (List.takeWhile_sublist isWordChar).length_le])).symm
          rw [this] at hd
          have := List.all_takeWhile (p := isWordChar) (l := cs)
          rw [List.all_eq_true] at this
          simp [isNameChar, this d hd]
      · simp at h
    · simp at h
  all_goals exfalso
  · have h := h.symm
    have : k = .number := by
      unfold numberRule at h
      split at h <;> split at h <;> simp at h <;> exact h.1.symm
    subst this; simp [idKind] at hk
  · have h := h.symm
    unfold stringRule at h
    split at h
    · rw [Option.map_eq_some_iff] at h
      obtain ⟨m, -, h⟩ := h
      simp at h
      rw [← h.1] at hk; simp [idKind] at hk
    · simp at h
  iterate 3
    · have h := h.symm
      unfold rawRule at h
      split at h
      · rw [Option.map_eq_some_iff] at h
        obtain ⟨m, -, h⟩ := h
        simp at h
        rw [← h.1] at hk; simp [idKind] at hk
      · simp at h
  · have h := h.symm
    have : k = .comment := by
      unfold commentRule at h
      split at h
      · simp only at h
        split at h <;> simp at h <;> exact h.1.symm
      · simp at h
    subst this; simp [idKind] at hk
  · have h := h.symm
    unfold spaceRule at h
    split at h
    · split at h
      · simp at h; rw [← h.1] at hk; simp [idKind] at hk
      · simp at h
    · simp at h

theorem lexExtensions_kinds (s : Str) (k : Tk) (n : Nat) (h : lexExtensions s = some (k, n)) :
    idKind k = false := by
  have hm := longest_mem _ _ h
  simp only [List.mem_cons, List.not_mem_nil, or_false] at hm
  rcases hm with h | h | h
  · have h := h.symm
    unfold uriRule at h
    simp only at h
    have key : ∀ m : Nat, (if m = 0 then none else some (Tk.uri, m)) = some (k, n) → k = .uri := by
      intro m hm
      by_cases h0 : m = 0
      · simp [h0] at hm
      · rw [if_neg h0] at hm; simp at hm; exact hm.1.symm
    rw [key _ h]; rfl
  · split at h
    · simp at h; rw [h.1]; rfl
    · simp at h
  · have h := h.symm
    unfold spaceRule at h
    split at h
    · split at h
      · simp at h; rw [← h.1]; rfl
      · simp at h
    · simp at h

theorem lexF_nameChars : ∀ (f : Nat) (m : Mode) (s : Str) (ts : List Token),
    lexF f m s = some ts → ∀ t ∈ ts, idKind t.kind = true → ∀ c ∈ t.text, isNameChar c = true
  | _, _, [], ts, h => by simp [lexF] at h; subst h; simp
  | 0, _, _ :: _, ts, h => by simp [lexF] at h
  | f + 1, m, c :: cs, ts, h => by
    simp only [lexF] at h
    split at h
    · simp at h
    · rename_i k n hm
      split at h
      · simp at h
      · rename_i ts' hr
        have ih := lexF_nameChars f _ _ _ hr
        simp only [Option.some.injEq] at h
        split at h
        · subst h; exact ih
        · subst h
          intro t ht hk
          rcases List.mem_cons.mp ht with rfl | ht
          · cases m with
            | default => exact lexDefault_nameChars _ _ _ hm hk
            | extensions =>
              rw [lexExtensions_kinds _ _ _ hm] at hk; exact absurd hk (by simp)
          · exact ih t ht hk

/-- A text that is lexed and parsed as an identifier is a `Name`. -/
theorem Name.of_parse {s : Str} {ts : List Token} (h : lex s = some ts)
    (hp : parseId ts = some (s, [])) : Name s ts := by
  have hk : (∀ t ∈ ts, idKind t.kind = true) ∧ s = (ts.map (·.text)).flatten := by
    cases ts with
    | nil => simp [parseId] at hp
    | cons t ts =>
      simp only [parseId] at hp
      split at hp
      · rename_i hs
        simp only [Option.some.injEq] at hp
        obtain ⟨h1, h2⟩ := idTail_kinds ts _ _ _ _ hp (Nat.le_refl _) (fun hc => absurd rfl hc)
        refine ⟨?_, by simp [h2]⟩
        intro u hu
        rcases List.mem_cons.mp hu with rfl | hu
        · exact idKind_of_simple _ hs
        · exact h1 u hu
      · simp at hp
  refine ⟨?_, h, hk.1, hp⟩
  intro c hc
  rw [hk.2] at hc
  simp only [List.mem_flatten, List.mem_map] at hc
  obtain ⟨_, ⟨t, ht, rfl⟩, hc⟩ := hc
  exact lexF_nameChars _ _ _ _ h t ht (hk.1 t ht) c hc

end Verif.Parse
