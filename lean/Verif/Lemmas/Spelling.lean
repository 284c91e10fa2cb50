import Verif.Spec.Rename

/-! # Names with dots -/

namespace Verif.Whole

open Verif

/-- A name without dots, as all names of a text are. -/
def Plain (n : Str) : Prop := ∀ c ∈ n, c ≠ '.'

/-- The parts between dots. -/
def dotParts : Str → List Str
  | [] => [[]]
  | c :: s =>
    if c = '.' then [] :: dotParts s
    else match dotParts s with
      | p :: ps => (c :: p) :: ps
      | [] => [[c]]

/-- The parts with dots between them. -/
def joinDots : List Str → Str
  | [] => []
  | [p] => p
  | p :: q :: ps => p ++ '.' :: joinDots (q :: ps)

/-- Every part of a name gets its other name. -/
def spell (f : Str → Str) (n : Str) : Str := joinDots ((dotParts n).map f)

theorem dotParts_ne (s : Str) : dotParts s ≠ [] := by
  cases s with
  | nil => simp [dotParts]
  | cons c s =>
    unfold dotParts
    split
    · simp
    · split <;> simp

theorem dotParts_dot : ∀ a b : Str, dotParts (a ++ '.' :: b) = dotParts a ++ dotParts b
  | [], b => by simp [dotParts]
  | c :: a, b => by
    simp only [List.cons_append, dotParts]
    rw [dotParts_dot a b]
    split
    · rfl
    · cases h : dotParts a with
      | nil => exact absurd h (dotParts_ne a)
      | cons p ps => rfl

theorem joinDots_append : ∀ {a b : List Str}, a ≠ [] → b ≠ [] →
    joinDots (a ++ b) = joinDots a ++ '.' :: joinDots b
  | [], _, h, _ => absurd rfl h
  | [p], [], _, h => absurd rfl h
  | [p], q :: b, _, _ => rfl
  | p :: q :: a, b, _, hb => by
    have := joinDots_append (a := q :: a) (b := b) (by simp) hb
    simp only [List.cons_append] at this ⊢
    simp only [joinDots, this, List.append_assoc, List.cons_append]

theorem dotParts_plain : ∀ {n : Str}, Plain n → dotParts n = [n]
  | [], _ => rfl
  | c :: n, h => by
    have hc : c ≠ '.' := h c (by simp)
    have := dotParts_plain (n := n) fun x hx => h x (by simp [hx])
    unfold dotParts
    rw [if_neg hc, this]

theorem parts_plain : ∀ {n p : Str}, p ∈ dotParts n → Plain p
  | [], p, h => by
    simp only [dotParts, List.mem_singleton] at h
    subst h
    intro c hc
    cases hc
  | c :: n, p, h => by
    unfold dotParts at h
    split at h
    · rcases List.mem_cons.mp h with rfl | h
      · intro c hc; cases hc
      · exact parts_plain h
    · rename_i hc
      cases hd : dotParts n with
      | nil => exact absurd hd (dotParts_ne n)
      | cons q qs =>
        rw [hd] at h
        rcases List.mem_cons.mp h with rfl | h
        · intro x hx
          rcases List.mem_cons.mp hx with rfl | hx
          · exact hc
          · exact parts_plain (n := n) (p := q) (by simp [hd]) x hx
        · exact parts_plain (n := n) (by simp [hd, h])

theorem dotParts_join : ∀ {l : List Str}, l ≠ [] → (∀ p ∈ l, Plain p) → dotParts (joinDots l) = l
  | [], h, _ => absurd rfl h
  | [p], _, hp => dotParts_plain (hp p (by simp))
  | p :: q :: l, _, hp => by
    have ih := dotParts_join (l := q :: l) (by simp) fun x hx => hp x (by simp [hx])
    simp only [joinDots]
    rw [dotParts_dot, dotParts_plain (hp p (by simp)), ih]
    rfl

theorem joinDots_parts : ∀ n : Str, joinDots (dotParts n) = n
  | [] => rfl
  | c :: n => by
    have ih := joinDots_parts n
    unfold dotParts
    cases hd : dotParts n with
    | nil => exact absurd hd (dotParts_ne n)
    | cons q qs =>
      rw [hd] at ih
      split
      · rename_i hc
        subst hc
        simp only [joinDots, List.nil_append, ih]
      · cases qs with
        | nil => simp only [joinDots] at ih ⊢; rw [ih]
        | cons r rs => simp only [joinDots, List.cons_append] at ih ⊢; rw [ih]

theorem spell_plain (f : Str → Str) {n : Str} (h : Plain n) : spell f n = f n := by
  simp [spell, dotParts_plain h, joinDots]

/-- Other names for the names without dots are other names for all. -/
theorem spell_spelling {f : Str → Str} (hf : ∀ {a b}, f a = f b → a = b)
    (hp : ∀ {n}, Plain n → Plain (f n)) (h0 : f [] = []) : Spelling (spell f) where
  different := by
    intro a b h
    have h := congrArg dotParts h
    unfold spell at h
    have key : ∀ n : Str, dotParts (joinDots ((dotParts n).map f)) = (dotParts n).map f := by
      intro n
      apply dotParts_join
      · simpa using dotParts_ne n
      · intro p hm
        obtain ⟨q, hq, rfl⟩ := List.mem_map.mp hm
        exact hp (parts_plain hq)
    rw [key, key] at h
    have h : dotParts a = dotParts b := (List.map_inj_right fun _ _ e => hf e).mp h
    rw [← joinDots_parts a, h, joinDots_parts]
  dots := by
    intro a b
    simp only [spell, dotParts_dot, List.map_append]
    exact joinDots_append (by simpa using dotParts_ne a) (by simpa using dotParts_ne b)
  empty := by simp [spell, dotParts, joinDots, h0]

end Verif.Whole
