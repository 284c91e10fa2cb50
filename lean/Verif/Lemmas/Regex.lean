import Verif.Model.Regex

/-! Correctness of the regular expression matcher. -/

namespace Verif.Regex

open Verif

/-- The language of an expression. -/
inductive Lang : Re → Str → Prop where
  | eps : Lang .eps []
  | chr {p c} : p c = true → Lang (.chr p) [c]
  | seq {a b s t} : Lang a s → Lang b t → Lang (.seq a b) (s ++ t)
  | altL {a b s} : Lang a s → Lang (.alt a b) s
  | altR {a b s} : Lang b s → Lang (.alt a b) s
  | starNil {a} : Lang (.star a) []
  | starCons {a s t} : Lang a s → Lang (.star a) t → Lang (.star a) (s ++ t)

theorem nullable_iff (r : Re) : r.nullable = true ↔ Lang r [] := by
  induction r with
  | none => simp only [Re.nullable]; constructor <;> intro h <;> cases h
  | eps => simp [Re.nullable, Lang.eps]
  | chr p =>
    simp only [Re.nullable]
    constructor
    · intro h; cases h
    · intro h; generalize e : ([] : Str) = s at h; cases h; cases e
  | seq a b iha ihb =>
    simp only [Re.nullable, Bool.and_eq_true, iha, ihb]
    constructor
    · rintro ⟨h1, h2⟩; exact Lang.seq h1 h2
    · intro h
      generalize e : ([] : Str) = s at h
      cases h with
      | seq h1 h2 =>
        obtain ⟨rfl, rfl⟩ := List.append_eq_nil_iff.mp e.symm
        exact ⟨h1, h2⟩
  | alt a b iha ihb =>
    simp only [Re.nullable, Bool.or_eq_true, iha, ihb]
    constructor
    · rintro (h | h)
      · exact .altL h
      · exact .altR h
    · intro h; cases h with
      | altL h => exact Or.inl h
      | altR h => exact Or.inr h
  | star a => simp [Re.nullable, Lang.starNil]

theorem star_cons {r a : Re} {s : Str} (h : Lang r s) (hr : r = .star a) {c : Char} {t : Str}
    (hs : s = c :: t) : ∃ u v, t = u ++ v ∧ Lang a (c :: u) ∧ Lang (.star a) v := by
  induction h with
  | eps => cases hr
  | chr => cases hr
  | seq => cases hr
  | altL => cases hr
  | altR => cases hr
  | starNil => cases hs
  | @starCons b s' t' h1 h2 _ ih2 =>
    injection hr with hr
    subst hr
    cases s' with
    | nil => exact ih2 rfl (by simpa using hs)
    | cons d ds =>
      simp only [List.cons_append, List.cons.injEq] at hs
      obtain ⟨rfl, rfl⟩ := hs
      exact ⟨ds, t', rfl, h1, h2⟩

theorem deriv_iff (r : Re) (c : Char) (s : Str) : Lang (r.deriv c) s ↔ Lang r (c :: s) := by
  induction r generalizing s with
  | none => simp only [Re.deriv]; constructor <;> intro h <;> cases h
  | eps =>
    simp only [Re.deriv]
    constructor
    · intro h; cases h
    · intro h; generalize e : c :: s = t at h; cases h; cases e
  | chr p =>
    simp only [Re.deriv]
    constructor
    · intro h
      split at h
      · cases h; exact .chr ‹_›
      · cases h
    · intro h
      generalize e : c :: s = t at h
      cases h with
      | chr hp =>
        injection e with e1 e2
        subst e1 e2
        rw [if_pos hp]; exact .eps
  | seq a b iha ihb =>
    have hsplit : Lang (.seq a b) (c :: s) ↔
        (∃ u v, s = u ++ v ∧ Lang a (c :: u) ∧ Lang b v) ∨ (Lang a [] ∧ Lang b (c :: s)) := by
      constructor
      · intro h
        generalize e : c :: s = t at h
        cases h with
        | @seq _ _ u v h1 h2 =>
          cases u with
          | nil => right; exact ⟨h1, by simpa using h2⟩
          | cons d u =>
            simp only [List.cons_append, List.cons.injEq] at e
            obtain ⟨rfl, rfl⟩ := e
            left; exact ⟨u, v, rfl, h1, h2⟩
      · rintro (⟨u, v, rfl, h1, h2⟩ | ⟨h1, h2⟩)
        · exact Lang.seq h1 h2
        · exact Lang.seq h1 h2
    have hd : Lang (.seq (a.deriv c) b) s ↔ ∃ u v, s = u ++ v ∧ Lang a (c :: u) ∧ Lang b v := by
      constructor
      · intro h
        cases h with
        | @seq _ _ u v h1 h2 => exact ⟨u, v, rfl, (iha u).mp h1, h2⟩
      · rintro ⟨u, v, rfl, h1, h2⟩; exact Lang.seq ((iha u).mpr h1) h2
    rw [hsplit, ← hd, ← nullable_iff, ← ihb]
    simp only [Re.deriv]
    split
    · rename_i hn
      constructor
      · intro h
        cases h with
        | altL h => exact Or.inl h
        | altR h => exact Or.inr ⟨hn, h⟩
      · rintro (h | ⟨_, h⟩)
        · exact .altL h
        · exact .altR h
    · rename_i hn
      constructor
      · exact Or.inl
      · rintro (h | ⟨h, _⟩)
        · exact h
        · exact absurd h hn
  | alt a b iha ihb =>
    simp only [Re.deriv]
    constructor
    · intro h
      cases h with
      | altL h => exact .altL ((iha s).mp h)
      | altR h => exact .altR ((ihb s).mp h)
    · intro h
      cases h with
      | altL h => exact .altL ((iha s).mpr h)
      | altR h => exact .altR ((ihb s).mpr h)
  | star a iha =>
    simp only [Re.deriv]
    constructor
    · intro h
      cases h with
      | @seq _ _ u v h1 h2 => exact Lang.starCons ((iha u).mp h1) h2
    · intro h
      obtain ⟨u, v, rfl, h1, h2⟩ := star_cons h rfl rfl
      exact Lang.seq ((iha u).mpr h1) h2

theorem matchPrefix_iff (r : Re) (s : Str) :
    matchPrefix r s = true ↔ ∃ p, p <+: s ∧ Lang r p := by
  induction s generalizing r with
  | nil =>
    simp only [matchPrefix, nullable_iff]
    constructor
    · intro h; exact ⟨[], List.prefix_rfl, h⟩
    · rintro ⟨p, hp, h⟩; rw [List.prefix_nil.mp hp] at h; exact h
  | cons c cs ih =>
    simp only [matchPrefix, Bool.or_eq_true, nullable_iff, ih]
    constructor
    · rintro (h | ⟨p, hp, h⟩)
      · exact ⟨[], List.nil_prefix, h⟩
      · exact ⟨c :: p, (List.prefix_cons_inj c).mpr hp, (deriv_iff r c p).mp h⟩
    · rintro ⟨p, hp, h⟩
      cases p with
      | nil => exact Or.inl h
      | cons d p =>
        rw [List.cons_prefix_cons] at hp
        obtain ⟨rfl, hp⟩ := hp
        exact Or.inr ⟨p, hp, (deriv_iff r d p).mpr h⟩

theorem search_iff (r : Re) (s : Str) : search r s = true ↔ ∃ p, p <:+: s ∧ Lang r p := by
  induction s with
  | nil =>
    simp only [search, matchPrefix_iff]
    constructor
    · rintro ⟨p, hp, h⟩; exact ⟨p, hp.isInfix, h⟩
    · rintro ⟨p, hp, h⟩; rw [List.infix_nil.mp hp] at h; exact ⟨[], List.prefix_rfl, h⟩
  | cons c cs ih =>
    simp only [search, Bool.or_eq_true, ih, matchPrefix_iff]
    constructor
    · rintro (⟨p, hp, h⟩ | ⟨p, hp, h⟩)
      · exact ⟨p, hp.isInfix, h⟩
      · exact ⟨p, List.infix_cons hp, h⟩
    · rintro ⟨p, hp, h⟩
      rcases List.infix_cons_iff.mp hp with hp | hp
      · exact Or.inl ⟨p, hp, h⟩
      · exact Or.inr ⟨p, hp, h⟩

theorem searchLine_iff (r : Re) (s : Str) :
    searchLine r s = true ↔
      ∃ a b, s = a ++ b ∧ (a = [] ∨ a.getLast? = some '\n') ∧ ∃ p, p <+: b ∧ Lang r p := by
  unfold searchLine
  rw [Bool.or_eq_true, matchPrefix_iff, search_iff]
  constructor
  · rintro (⟨p, hp, h⟩ | ⟨p, ⟨u, v, e⟩, h⟩)
    · exact ⟨[], s, rfl, Or.inl rfl, p, hp, h⟩
    · cases h with
      | @seq _ _ x y h1 h2 =>
        cases h1 with
        | @chr _ c hc =>
          simp only [beq_iff_eq] at hc
          subst hc
          exact ⟨u ++ ['\n'], y ++ v, by rw [← e]; simp, Or.inr (by simp), y, ⟨v, rfl⟩, h2⟩
  · rintro ⟨a, b, rfl, rfl | ha, p, hp, h⟩
    · exact Or.inl ⟨p, hp, h⟩
    · right
      obtain ⟨v, rfl⟩ := hp
      obtain ⟨u, rfl⟩ := List.getLast?_eq_some_iff.mp ha
      refine ⟨['\n'] ++ p, ⟨u, v, by simp⟩, Lang.seq (.chr (by simp)) h⟩

theorem lang_lit (w s : Str) : Lang (lit w) s ↔ s = w := by
  induction w generalizing s with
  | nil =>
    simp only [lit]
    constructor
    · intro h; cases h; rfl
    · rintro rfl; exact .eps
  | cons c cs ih =>
    simp only [lit]
    constructor
    · intro h
      cases h with
      | @seq _ _ u v h1 h2 =>
        cases h1 with
        | chr hc =>
          simp only [beq_iff_eq] at hc
          rw [hc, (ih v).mp h2]; rfl
    · rintro rfl
      exact Lang.seq (s := [c]) (.chr (by simp)) ((ih cs).mpr rfl)

theorem lang_alt (a b : Re) (s : Str) : Lang (.alt a b) s ↔ Lang a s ∨ Lang b s := by
  constructor
  · intro h; cases h with
    | altL h => exact Or.inl h
    | altR h => exact Or.inr h
  · rintro (h | h)
    · exact .altL h
    · exact .altR h

theorem lang_seq (a b : Re) (s : Str) :
    Lang (.seq a b) s ↔ ∃ u v, s = u ++ v ∧ Lang a u ∧ Lang b v := by
  constructor
  · intro h; cases h with
    | @seq _ _ u v h1 h2 => exact ⟨u, v, rfl, h1, h2⟩
  · rintro ⟨u, v, rfl, h1, h2⟩; exact .seq h1 h2

theorem lang_star_chr_aux {r : Re} {s : Str} (h : Lang r s) {p : Char → Bool}
    (hr : r = .star (.chr p)) : ∀ c ∈ s, p c = true := by
  induction h with
  | eps => cases hr
  | chr => cases hr
  | seq => cases hr
  | altL => cases hr
  | altR => cases hr
  | starNil => simp
  | @starCons a s' t' h1 h2 _ ih2 =>
    injection hr with hr
    subst hr
    cases h1 with
    | chr hc =>
      intro c hcm
      simp only [List.cons_append, List.nil_append, List.mem_cons] at hcm
      rcases hcm with rfl | hcm
      · exact hc
      · exact ih2 rfl c hcm

theorem lang_star_chr (p : Char → Bool) (s : Str) :
    Lang (.star (.chr p)) s ↔ ∀ c ∈ s, p c = true := by
  constructor
  · intro h; exact lang_star_chr_aux h rfl
  · intro h
    induction s with
    | nil => exact .starNil
    | cons c cs ih =>
      exact Lang.starCons (s := [c]) (.chr (h c (by simp))) (ih fun d hd => h d (by simp [hd]))

theorem lang_plus_chr (p : Char → Bool) (s : Str) :
    Lang (plus (.chr p)) s ↔ s ≠ [] ∧ ∀ c ∈ s, p c = true := by
  unfold plus
  rw [lang_seq]
  constructor
  · rintro ⟨u, v, rfl, h1, h2⟩
    cases h1 with
    | chr hc =>
      refine ⟨by simp, ?_⟩
      intro c hcm
      simp only [List.cons_append, List.nil_append, List.mem_cons] at hcm
      rcases hcm with rfl | hcm
      · exact hc
      · exact (lang_star_chr p v).mp h2 c hcm
  · rintro ⟨hne, h⟩
    cases s with
    | nil => exact absurd rfl hne
    | cons c cs =>
      exact ⟨[c], cs, rfl, .chr (h c (by simp)),
        (lang_star_chr p cs).mpr fun d hd => h d (by simp [hd])⟩

end Verif.Regex
