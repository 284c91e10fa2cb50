import Verif.Lemmas.LayoutSteps
import Verif.Lemmas.FormedTypes
import Verif.Spec.Braces

/-! # The tokens of a text that is cut off somewhere -/

namespace Verif.Lex

open Verif Braces

/-! ## Strings and comments -/

theorem stringLen_cut : ∀ (p x : Str) (n m : Nat), '\\' ∉ p → stringLen false n (p ++ x) = some m →
    stringLen false n p = if m ≤ n + p.length then some m else none
  | [], x, n, m, _, h => by
    have := stringLen_pos _ _ _ _ h
    rw [if_neg (by simp; omega)]
    rfl
  | c :: p, x, n, m, hb, h => by
    simp only [List.mem_cons, not_or] at hb
    simp only [List.cons_append, stringLen, Bool.false_eq_true, if_false] at h ⊢
    split at h
    · rename_i hc
      simp only [Option.some.injEq] at h
      subst h
      rw [if_pos hc, if_pos (by simp)]
    · rename_i hc
      have hs : decide (c = '\\') = false := by
        rw [decide_eq_false_iff_not]
        exact fun e => hb.1 e.symm
      rw [hs] at h
      rw [if_neg hc, hs, stringLen_cut p x (n + 1) m hb.2 h]
      simp only [List.length_cons]
      congr 1
      rw [eq_iff_iff]
      omega

theorem stringRule_cut {p x : Str} {m : Match} (hp : p ≠ []) (hb : '\\' ∉ p)
    (h : stringRule (p ++ x) = some m) :
    stringRule p = if m.2 ≤ p.length then some m else none := by
  cases p with
  | nil => exact absurd rfl hp
  | cons c p =>
    simp only [List.mem_cons, not_or] at hb
    by_cases hc : c = '"'
    · subst hc
      simp only [List.cons_append, stringRule, Option.map_eq_some_iff] at h
      obtain ⟨n, hn, rfl⟩ := h
      simp only [stringRule, stringLen_cut p x 1 n hb.2 hn, List.length_cons, Nat.add_comm 1]
      split <;> rfl
    · simp only [List.cons_append] at h
      unfold stringRule at h
      split at h
      · rename_i e
        injection e with e
        exact absurd e hc
      · cases h

/-- Not the end of a line. -/
def inLine (c : Char) : Bool := c ≠ '\r' && c ≠ '\n'

/-- The comment with so many characters, by what is behind them. -/
def lineEnd (n : Nat) : Str → Option Match
  | [] => some (.comment, n + 2)
  | '\n' :: _ => some (.comment, n + 3)
  | '\r' :: '\n' :: _ => some (.comment, n + 4)
  | _ => none

theorem commentRule_split (l v : Str) (hl : ∀ c ∈ l, inLine c = true)
    (hv : ∀ c ∈ v.head?, inLine c = false) :
    commentRule ('/' :: '/' :: (l ++ v)) = lineEnd l.length v := by
  have e : (l ++ v).takeWhile (fun c => c ≠ '\r' && c ≠ '\n') = l := takeWhile_of inLine l v hl hv
  simp only [commentRule, e, List.drop_left]
  rfl

theorem lineEnd_cases {n : Nat} {v : Str} {m : Match} (h : lineEnd n v = some m) :
    (v = [] ∧ m = (.comment, n + 2)) ∨ (∃ w, v = '\n' :: w ∧ m = (.comment, n + 3)) ∨
      (∃ w, v = '\r' :: '\n' :: w ∧ m = (.comment, n + 4)) := by
  unfold lineEnd at h
  split at h <;> simp only [Option.some.injEq, reduceCtorEq] at h
  · exact .inl ⟨rfl, h.symm⟩
  · exact .inr (.inl ⟨_, rfl, h.symm⟩)
  · exact .inr (.inr ⟨_, rfl, h.symm⟩)

theorem commentRule_long {s : Str} {m : Match} (h : commentRule ('/' :: '/' :: s) = some m) :
    2 ≤ m.2 := by
  obtain ⟨l, v, e, hl, hv⟩ := takeWhile_spec inLine s
  rw [e, commentRule_split l v hl hv] at h
  rcases lineEnd_cases h with ⟨_, rfl⟩ | ⟨_, _, rfl⟩ | ⟨_, _, rfl⟩ <;> simp

theorem commentRule_two {s : Str} {m : Match} (h : commentRule s = some m) :
    ∃ r, s = '/' :: '/' :: r := by
  unfold commentRule at h
  split at h
  · exact ⟨_, rfl⟩
  · cases h

theorem commentRule_cut {p x : Str} {m : Match} (h : commentRule (p ++ x) = some m)
    (hm : m.2 ≤ p.length) : commentRule p = some m := by
  obtain ⟨s, hs⟩ := commentRule_two h
  have h2 : 2 ≤ p.length := by
    rw [hs] at h
    exact Nat.le_trans (commentRule_long h) hm
  cases p with
  | nil => simp at h2
  | cons a p =>
    cases p with
    | nil => simp at h2
    | cons b r =>
      simp only [List.cons_append, List.cons.injEq] at hs
      obtain ⟨rfl, rfl, rfl⟩ := hs
      obtain ⟨l, v, e, hl, hv⟩ := takeWhile_spec inLine (r ++ x)
      simp only [List.cons_append] at h
      rw [e, commentRule_split l v hl hv] at h
      simp only [List.length_cons] at hm
      rcases List.append_eq_append_iff.mp e with ⟨w, rfl, hx⟩ | ⟨w, rfl, rfl⟩
      · have hr : ∀ c ∈ r, inLine c = true := fun c hc => hl c (by simp [hc])
        have hc := commentRule_split r [] hr (by simp)
        rw [List.append_nil] at hc
        rw [hc]
        rcases lineEnd_cases h with ⟨_, rfl⟩ | ⟨_, _, rfl⟩ | ⟨_, _, rfl⟩ <;>
          simp only [List.length_append] at hm
        · have : w.length = 0 := by omega
          simp [lineEnd, this]
        · omega
        · omega
      · simp only [List.length_append] at hm
        cases w with
        | nil =>
          have hc := commentRule_split l [] hl (by simp)
          rw [hc]
          simp only [List.length_nil] at hm
          rcases lineEnd_cases h with ⟨_, rfl⟩ | ⟨_, _, rfl⟩ | ⟨_, _, rfl⟩
          · rfl
          · simp only at hm; omega
          · simp only at hm; omega
        | cons c w =>
          rw [commentRule_split l (c :: w) hl (by simpa using hv)]
          rw [List.cons_append] at h
          rcases lineEnd_cases h with ⟨e, _⟩ | ⟨u, e, rfl⟩ | ⟨u, e, rfl⟩
          · cases e
          · injection e with e _
            subst e
            rfl
          · injection e with e e'
            subst e
            cases w with
            | nil =>
              simp only [List.length_cons, List.length_nil] at hm
              omega
            | cons d w =>
              rw [List.cons_append] at e'
              injection e' with e' _
              subst e'
              rfl

theorem commentRule_whole {p x : Str} {m m' : Match} (h : commentRule (p ++ x) = some m)
    (hm : p.length < m.2) (h' : commentRule p = some m') : m'.2 = p.length := by
  obtain ⟨r, rfl⟩ := commentRule_two h'
  obtain ⟨l, v, e, hl, hv⟩ := takeWhile_spec inLine (r ++ x)
  simp only [List.cons_append] at h
  rw [e, commentRule_split l v hl hv] at h
  simp only [List.length_cons] at hm ⊢
  rcases List.append_eq_append_iff.mp e with ⟨w, rfl, hx⟩ | ⟨w, rfl, rfl⟩
  · have hr : ∀ c ∈ r, inLine c = true := fun c hc => hl c (by simp [hc])
    have hc := commentRule_split r [] hr (by simp)
    rw [List.append_nil] at hc
    rw [hc] at h'
    simp only [lineEnd, Option.some.injEq] at h'
    subst h'
    rfl
  · cases w with
    | nil =>
      rw [commentRule_split l [] hl (by simp)] at h'
      simp only [lineEnd, Option.some.injEq] at h'
      subst h'
      simp
    | cons c w =>
      rw [commentRule_split l (c :: w) hl (by simpa using hv)] at h'
      rw [List.cons_append] at h
      simp only [List.length_append, List.length_cons] at hm
      rcases lineEnd_cases h with ⟨e, _⟩ | ⟨u, e, rfl⟩ | ⟨u, e, rfl⟩
      · cases e
      · simp only at hm
        omega
      · injection e with e e'
        subst e
        cases w with
        | nil => simp [lineEnd] at h'
        | cons d w =>
          simp only [List.length_cons] at hm
          omega

/-! ## Braces in words -/

theorem wordRule_brace {s : Str} {m : Match} (h : wordRule s = some m) (h1 : m.2 ≠ 1) :
    '}' ∉ s.take m.2 := by
  have hm := longest_mem _ _ h
  simp only [wordRules, List.map_cons, List.map_nil, List.mem_cons, List.not_mem_nil, or_false] at hm
  rcases hm with hm | hm | hm | hm
  · obtain ⟨w, hw, e, ht⟩ := keywordRule_some s m hm.symm
    intro hb
    rw [e] at hb
    have : toLower '}' ∈ w := by
      rw [← ht]
      exact List.mem_map_of_mem hb
    rcases (keyword_letters _ hw).2.2 _ this with h | h
    · revert h; decide
    · revert h; decide
  · have hm := hm.symm
    unfold symbolRule at hm
    split at hm <;> simp only [Option.some.injEq, reduceCtorEq] at hm <;> subst hm
    · simp
    all_goals exact absurd rfl h1
  · intro hb
    rcases (identifierRule_text hm.symm).2.2 _ hb with h | h | h | h <;> revert h <;> decide
  · intro hb
    have := TyPb.numberText_chars (numberRule_text hm.symm).2 _ hb
    revert this
    decide

theorem lexOne_brace {md : Mode} {s : Str} {n : Nat} (h : lexOne md s = some (.rightBrace, n)) :
    md = .default ∧ s.head? = some '}' := by
  cases md with
  | extensions =>
    have hm := longest_mem _ _ h
    simp only [List.mem_cons, List.not_mem_nil, or_false] at hm
    rcases hm with hm | hm | hm
    · have := uriRule_kind hm.symm
      cases this
    · split at hm <;> simp at hm
    · have hm := hm.symm
      unfold spaceRule at hm
      split at hm
      · split at hm <;> simp at hm
      · cases hm
  | default =>
    refine ⟨rfl, ?_⟩
    have hm := longest_mem _ _ h
    simp only [List.mem_cons, List.not_mem_nil, or_false] at hm
    rcases hm with hm | hm | hm | hm | hm | hm | hm | hm | hm | hm
    · obtain ⟨w, hw, _⟩ := keywordRule_some s _ hm.symm
      have : ∀ e ∈ keywords, e.2 ≠ Tk.rightBrace := by decide
      exact absurd rfl (this _ hw)
    · have hm := hm.symm
      unfold symbolRule at hm
      split at hm <;> simp at hm
      rfl
    · cases (identifierRule_text hm.symm).1
    · cases (numberRule_text hm.symm).1
    · cases stringRule_kind hm.symm
    · cases raw_kind hm.symm
    · cases raw_kind hm.symm
    · cases raw_kind hm.symm
    · cases commentRule_kind _ _ hm.symm
    · have hm := hm.symm
      unfold spaceRule at hm
      split at hm
      · split at hm <;> simp at hm
      · cases hm

theorem extensions_mode {s : Str} {k : Tk} {n : Nat} (h : lexOne .extensions s = some (k, n))
    (hs : '{' ∉ s) : nextMode .extensions k = .extensions := by
  have hm := longest_mem _ _ h
  simp only [List.mem_cons, List.not_mem_nil, or_false] at hm
  rcases hm with hm | hm | hm
  · have := uriRule_kind hm.symm
    simp only at this
    subst this
    rfl
  · split at hm
    · simp at hs
    · cases hm
  · have hm := hm.symm
    unfold spaceRule at hm
    split at hm
    · split at hm <;> simp at hm
      rw [← hm.1]
      rfl
    · cases hm

theorem lexF_noBrace : ∀ (f : Nat) (md : Mode) (s : Str) (ts : List Token), lexF f md s = some ts →
    ('}' ∉ s ∨ (md = .extensions ∧ '{' ∉ s)) → ∀ t ∈ ts, t.kind ≠ .rightBrace
  | f, md, [], ts, h, _ => by
    cases f <;> simp [lexF] at h <;> subst h <;> intro t ht <;> simp at ht
  | 0, md, c :: cs, ts, h, _ => by simp [lexF] at h
  | f + 1, md, c :: cs, ts, h, hs => by
    rw [lexF] at h
    split at h
    · simp at h
    · rename_i k n hk
      split at h
      · simp at h
      · rename_i us hu
        have ih := lexF_noBrace f _ _ us hu (by
          rcases hs with hs | ⟨rfl, hs⟩
          · exact .inl fun hc => hs (List.mem_of_mem_drop hc)
          · exact .inr ⟨extensions_mode hk hs, fun hc => hs (List.mem_of_mem_drop hc)⟩)
        simp only [Option.some.injEq] at h
        subst h
        split
        · exact ih
        · intro t ht
          rcases List.mem_cons.mp ht with rfl | ht
          · intro e
            simp only at e
            subst e
            obtain ⟨hd, hh⟩ := lexOne_brace hk
            rcases hs with hs | ⟨he, _⟩
            · simp only [List.head?_cons, Option.some.injEq] at hh
              exact hs (by simp [hh])
            · rw [hd] at he
              cases he
          · exact ih t ht

/-! ## The cut -/

theorem lexOne_cut {md : Mode} {p x : Str} {k : Tk} {n : Nat} (hp : p ≠ []) (hc : Clean p)
    (h : lexOne md (p ++ x) = some (k, n)) (hn : n ≤ p.length) : lexOne md p = some (k, n) := by
  cases md with
  | extensions =>
    have := lexExtensions_cuts p x (by
      intro m hm
      have h : lexExtensions (p ++ x) = some (k, n) := h
      rw [h] at hm
      injection hm with hm
      subst hm
      exact hn)
    exact this.trans h
  | default =>
    cases p with
    | nil => exact absurd rfl hp
    | cons c p =>
      have h : lexDefault (c :: p ++ x) = some (k, n) := h
      show lexDefault (c :: p) = some (k, n)
      cases hb : isBlank c with
      | true =>
        rw [List.cons_append, lexDefault_blank _ _ hb] at h
        rw [lexDefault_blank _ _ hb]
        exact h
      | false =>
        by_cases h1 : c = '"'
        · subst h1
          rw [List.cons_append, lexDefault_quote, ← List.cons_append] at h
          rw [lexDefault_quote, stringRule_cut hp hc.1 h, if_pos hn]
        · by_cases h3 : c = '/'
          · subst h3
            rw [List.cons_append, lexDefault_slash, ← List.cons_append] at h
            rw [lexDefault_slash]
            exact commentRule_cut h hn
          · have h2 : c ≠ '`' := fun e => hc.2 (by simp [e])
            rw [List.cons_append, lexDefault_plain _ _ h1 h2 h3 hb, ← List.cons_append] at h
            rw [lexDefault_plain _ _ h1 h2 h3 hb]
            have := wordRule_cuts (c :: p) x (by
              intro m hm
              rw [h] at hm
              injection hm with hm
              subst hm
              exact hn)
            exact this.trans h

/-- What is left of a token that is cut. -/
theorem lexM_inside {md : Mode} {p x : Str} {k : Tk} {n : Nat} {ps : List Token} (hp : p ≠ [])
    (hc : Clean p) (h : lexOne md (p ++ x) = some (k, n)) (hn : p.length < n)
    (hl : lexM md p = some ps) : ∀ t ∈ ps, t.kind ≠ .rightBrace := by
  have hlen : 1 ≤ p.length := List.length_pos_iff.mpr hp
  cases p with
  | nil => exact absurd rfl hp
  | cons c p =>
    have hb : isBlank c = false := by
      cases hb : isBlank c with
      | false => rfl
      | true =>
        rw [List.cons_append, lexOne_blank _ _ _ hb] at h
        simp only [Option.some.injEq, Prod.mk.injEq] at h
        omega
    have none_ends : lexOne md (c :: p) = none → False := by
      intro e
      simp [lexM, lexF, e] at hl
    cases md with
    | extensions =>
      refine lexF_noBrace _ _ _ _ hl (.inr ⟨rfl, fun hbr => ?_⟩)
      obtain ⟨u, v, e⟩ := List.append_of_mem hbr
      have hm := longest_mem _ _ h
      simp only [List.mem_cons, List.not_mem_nil, or_false] at hm
      rcases hm with hm | hm | hm
      · have hu := hm.symm
        rw [e, List.append_assoc, uriRule_ends u _ (by
          intro d hd
          simp only [List.cons_append, List.head?_cons, Option.mem_def, Option.some.injEq] at hd
          subst hd
          decide)] at hu
        have := uriRule_le _ _ hu
        simp only at this
        rw [e] at hn
        simp only [List.length_append, List.length_cons] at hn
        omega
      · split at hm
        · simp only [Option.some.injEq, Prod.mk.injEq] at hm
          omega
        · cases hm
      · have hm := hm.symm
        simp [spaceRule, hb] at hm
    | default =>
      have h : lexDefault (c :: p ++ x) = some (k, n) := h
      by_cases h1 : c = '"'
      · subst h1
        rw [List.cons_append, lexDefault_quote, ← List.cons_append] at h
        refine (none_ends ?_).elim
        show lexDefault _ = none
        rw [lexDefault_quote, stringRule_cut hp hc.1 h, if_neg (by simpa using hn)]
      · by_cases h3 : c = '/'
        · subst h3
          rw [List.cons_append, lexDefault_slash, ← List.cons_append] at h
          cases hr : commentRule ('/' :: p) with
          | none =>
            refine (none_ends ?_).elim
            show lexDefault _ = none
            rw [lexDefault_slash, hr]
          | some m =>
            have hw := commentRule_whole h hn hr
            have hk := commentRule_kind _ _ hr
            have hs := lexM_step .default ('/' :: p) [] m.1 hp (by
              rw [List.append_nil]
              show lexDefault _ = _
              rw [lexDefault_slash, hr, ← hw])
            rw [List.append_nil, hl, lexM_nil, hk] at hs
            simp only [Option.map_some, Option.some.injEq] at hs
            subst hs
            intro t ht
            simp [seen, hidden] at ht
        · have h2 : c ≠ '`' := fun e => hc.2 (by simp [e])
          rw [List.cons_append, lexDefault_plain _ _ h1 h2 h3 hb, ← List.cons_append] at h
          have := wordRule_brace h (by simp only; omega)
          refine lexF_noBrace _ _ _ _ hl (.inl fun hbr => this ?_)
          simp only
          rw [List.take_append]
          exact List.mem_append_left _ (by rwa [List.take_of_length_le (Nat.le_of_lt hn)])

/-- The tokens of the start of a text are a start of its tokens, or they do not end with a brace. -/
theorem lexM_cut : ∀ (f : Nat) (md : Mode) (p x : Str) (ps ts : List Token), p.length ≤ f → Clean p →
    lexM md (p ++ x) = some ts → lexM md p = some ps →
    (∃ rest, ts = ps ++ rest) ∨ (ps ≠ [] ∧ ∀ t, ps.getLast? = some t → t.kind ≠ .rightBrace)
  | _, md, [], x, ps, ts, _, _, _, hl => by
    rw [lexM_nil, Option.some.injEq] at hl
    subst hl
    exact .inl ⟨ts, rfl⟩
  | 0, md, c :: p, x, ps, ts, hf, _, _, _ => by simp at hf
  | f + 1, md, c :: p, x, ps, ts, hf, hc, ht, hl => by
    cases ho : lexOne md (c :: p ++ x) with
    | none =>
      rw [List.cons_append] at ho ht
      simp [lexM, lexF, ho] at ht
    | some m =>
      obtain ⟨k, n⟩ := m
      by_cases hn : n ≤ (c :: p).length
      · have hpos := lexOne_pos _ _ _ ho
        have ho' := lexOne_cut (by simp) hc ho hn
        generalize hq : c :: p = q at *
        have hlen : (q.take n).length = n := by rw [List.length_take]; omega
        have hne : q.take n ≠ [] := by
          intro e
          rw [e] at hlen
          simp only [List.length_nil] at hlen
          simp only at hpos
          omega
        have e : q = q.take n ++ q.drop n := (List.take_append_drop n q).symm
        have s1 := lexM_step md (q.take n) (q.drop n ++ x) k hne (by
          rw [← List.append_assoc, ← e, hlen]; exact ho)
        have s2 := lexM_step md (q.take n) (q.drop n) k hne (by rw [← e, hlen]; exact ho')
        rw [← List.append_assoc, ← e, ht] at s1
        rw [← e, hl] at s2
        obtain ⟨ts', h1, h1'⟩ := Option.map_eq_some_iff.mp s1.symm
        obtain ⟨ps', h2, h2'⟩ := Option.map_eq_some_iff.mp s2.symm
        have ih := lexM_cut f _ (q.drop n) x ps' ts' (by
          rw [List.length_drop]
          rw [← hq] at hf ⊢
          simp only [List.length_cons] at hf ⊢
          simp only at hpos
          omega) ⟨fun hm => hc.1 (List.mem_of_mem_drop hm), fun hm => hc.2 (List.mem_of_mem_drop hm)⟩
          h1 h2
        subst h1' h2'
        rcases ih with ⟨rest, rfl⟩ | ⟨hne', hlast⟩
        · exact .inl ⟨rest, by simp⟩
        · refine .inr ⟨by simp [hne'], fun t ht => hlast t ?_⟩
          rw [List.getLast?_append] at ht
          cases hg : ps'.getLast? with
          | none => exact absurd (List.getLast?_eq_none_iff.mp hg) hne'
          | some y => rw [hg] at ht; simpa using ht
      · have hi := lexM_inside (by simp) hc ho (by omega) hl
        by_cases hps : ps = []
        · subst hps
          exact .inl ⟨ts, rfl⟩
        · exact .inr ⟨hps, fun t ht => hi t (List.mem_of_getLast? ht)⟩

end Verif.Lex
