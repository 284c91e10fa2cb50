import Verif.Lemmas.Braces

/-! # Where a section ends -/

namespace Verif.Braces

open Verif Lex Sec

theorem parsePlan_sections : ∀ (n : Nat) (ts : List Token) (ds : List PlanDetail),
    parsePlan n ts = some ds → Sections ds.length ts
  | n, [], ds, e => by
    unfold parsePlan at e
    simp only [Option.some.injEq] at e
    subst e
    exact .none
  | 0, _ :: _, ds, e => by simp [parsePlan] at e
  | n + 1, t :: ts, ds, e => by
    simp only [parsePlan] at e
    cases hp : parsePlanDetail (t :: ts) with
    | none => rw [hp] at e; simp at e
    | some x =>
      rw [hp, Option.bind_some] at e
      obtain ⟨r, hr, rfl⟩ := Option.map_eq_some_iff.mp e
      obtain ⟨s, hs, hsec⟩ := parsePlanDetail_takes x hp
      rw [hs]
      exact .more hsec (parsePlan_sections n x.2 r hr)

theorem paired_counts {a : List Token} (h : Paired a) :
    countOf .leftBrace a = countOf .rightBrace a := by
  induction h with
  | nil => rfl
  | plain ht _ ih =>
    unfold countOf at ih ⊢
    simp [List.countP_cons, ht.1, ht.2, ih]
  | pair ho hc _ _ ih1 ih2 =>
    unfold countOf at ih1 ih2 ⊢
    simp [List.countP_cons, List.countP_append, ho, hc, ih1, ih2]
    omega

theorem section_paired {s : List Token} (h : Section s) : Paired s := by
  obtain ⟨w, o, i, c, rfl, hw, ho, hc, hi⟩ := h
  exact (Paired.of_plain hw).append (.pair ho hc hi .nil)

theorem sections_paired {n : Nat} {ts : List Token} (h : Sections n ts) : Paired ts := by
  induction h with
  | none => exact .nil
  | more hs _ ih => exact (section_paired hs).append ih

theorem sections_last {n : Nat} {ts : List Token} (h : Sections n ts) :
    ∀ t, ts.getLast? = some t → t.kind = .rightBrace := by
  induction h with
  | none => simp
  | @more n s ts hs _ ih =>
    intro t ht
    rw [List.getLast?_append] at ht
    cases hl : ts.getLast? with
    | some x =>
      rw [hl] at ht
      exact ih t (by simpa [hl] using ht)
    | none =>
      rw [hl] at ht
      obtain ⟨w, o, i, c, rfl, hw, ho, hc, hi⟩ := hs
      simp [List.getLast?_append, List.getLast?_cons] at ht
      exact ht ▸ hc

/-- What follows the first section, at a depth in braces. -/
def strip : Nat → List Token → Option (List Token)
  | _, [] => none
  | d, t :: ts =>
    if t.kind = .leftBrace then strip (d + 1) ts
    else if t.kind = .rightBrace then
      match d with
      | 0 => none
      | 1 => some ts
      | d + 2 => strip (d + 1) ts
    else strip d ts

theorem strip_plain {t : Token} (ht : Plain t) (d : Nat) (ts : List Token) :
    strip d (t :: ts) = strip d ts := by
  simp [strip.eq_def d (t :: ts), ht.1, ht.2]

theorem strip_open {t : Token} (ht : t.kind = .leftBrace) (d : Nat) (ts : List Token) :
    strip d (t :: ts) = strip (d + 1) ts := by
  simp [strip.eq_def d (t :: ts), ht]

theorem strip_close {t : Token} (ht : t.kind = .rightBrace) (d : Nat) (ts : List Token) :
    strip (d + 2) (t :: ts) = strip (d + 1) ts := by
  simp [strip.eq_def (d + 2) (t :: ts), ht]

theorem strip_end {t : Token} (ht : t.kind = .rightBrace) (ts : List Token) :
    strip 1 (t :: ts) = some ts := by
  simp [strip.eq_def 1 (t :: ts), ht]

theorem strip_paired {a : List Token} (h : Paired a) :
    ∀ (d : Nat) (y : List Token), strip (d + 1) (a ++ y) = strip (d + 1) y := by
  induction h with
  | nil => intro d y; rfl
  | plain ht _ ih =>
    intro d y
    rw [List.cons_append, strip_plain ht]
    exact ih d y
  | @pair o c a b ho hc _ _ ih1 ih2 =>
    intro d y
    have e : (o :: (a ++ c :: b)) ++ y = o :: (a ++ (c :: (b ++ y))) := by simp
    rw [e, strip_open ho, ih1 (d + 1), strip_close hc]
    exact ih2 d y

theorem strip_words {w : List Token} (h : ∀ t ∈ w, Plain t) (d : Nat) (y : List Token) :
    strip d (w ++ y) = strip d y := by
  induction w with
  | nil => rfl
  | cons t w ih =>
    have ht := h t (by simp)
    rw [List.cons_append, strip_plain ht]
    exact ih fun x hx => h x (by simp [hx])

theorem strip_section {s : List Token} (h : Section s) (y : List Token) :
    strip 0 (s ++ y) = some y := by
  obtain ⟨w, o, i, c, rfl, hw, ho, hc, hi⟩ := h
  have e : (w ++ o :: (i ++ [c])) ++ y = w ++ (o :: (i ++ (c :: y))) := by simp
  rw [e, strip_words hw, strip_open ho, strip_paired hi 0, strip_end hc]

/-- Where the first section ends is clear. -/
theorem section_unique {s s' y y' : List Token} (h : Section s) (h' : Section s')
    (e : s ++ y = s' ++ y') : s = s' ∧ y = y' := by
  have hy : y = y' := by
    have := strip_section h y
    rw [e, strip_section h' y'] at this
    simpa using this.symm
  subst hy
  exact ⟨List.append_cancel_right e, rfl⟩

theorem section_ne {s : List Token} (h : Section s) : s ≠ [] := by
  obtain ⟨w, o, i, c, rfl, _⟩ := h
  simp

theorem sections_rest {m n : Nat} {p rest : List Token} (hp : Sections m p) :
    Sections n (p ++ rest) → m ≤ n ∧ Sections (n - m) rest := by
  induction hp generalizing n with
  | none => exact fun h => ⟨Nat.zero_le _, h⟩
  | @more m s p hs _ ih =>
    intro h
    generalize he : s ++ p ++ rest = all at h
    cases h with
    | none => simp [section_ne hs] at he
    | more hs' hr =>
      rw [List.append_assoc] at he
      obtain ⟨_, rfl⟩ := section_unique hs hs' he
      obtain ⟨hle, hsec⟩ := ih hr
      exact ⟨by omega, by rwa [Nat.add_sub_add_right]⟩

theorem Sections.append {m n : Nat} {a b : List Token} (ha : Sections m a) (hb : Sections n b) :
    Sections (m + n) (a ++ b) := by
  induction ha with
  | none => simpa using hb
  | @more m s ts hs _ ih =>
    have := Sections.more hs ih
    rw [List.append_assoc]
    rwa [show m + 1 + n = m + n + 1 by omega]

end Verif.Braces
