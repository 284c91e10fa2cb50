import Verif.Lemmas.TypeText
import Verif.Spec.TypeMatch

/-! Helper lemmas on matching and signatures. -/

namespace Verif.Ty

open Verif

theorem andThen_ok (a : Bool) (b : Outcome Bool) :
    (Outcome.ok a).andThen b = if a then b else .ok false := rfl

/-- `nullMatch` on a concrete object. -/
def nullOk (self actual : Bool) : Bool := self || !actual

theorem nullMatch_obj (n : Bool) (t : CType) : nullMatch n t.obj = .ok (nullOk n t.nullable) := by
  cases n <;> cases t <;> simp [nullMatch, CType.obj, PType.nullable, CType.nullable, nullOk]

theorem baseMatch_obj (k : Kind) (n : Bool) (t : CType) :
    baseMatch k n t.obj =
      .ok (decide (t.obj.kind = some k) && nullOk n t.nullable) := by
  unfold baseMatch
  have hk : ∃ k', t.obj.kind = some k' := by cases t <;> exact ⟨_, rfl⟩
  obtain ⟨k', hk'⟩ := hk
  rw [hk']
  simp only [nullMatch_obj]
  by_cases h : k = k'
  · subst h; simp
  · have : ¬ (some k' = some k) := fun e => h (Option.some.inj e).symm
    simp [h, this]

mutual
/-- Boolean form of matching between concrete types, as the code computes it. -/
def cMatch : CType → CType → Bool
  | .scalar k n, .scalar k' n' => k == k' && nullOk n n'
  | .decimal p s n, .decimal p' s' n' => nullOk n n' && p == p' && s == s'
  | .fixedBinary l n, .fixedBinary l' n' => nullOk n n' && l == l'
  | .fixedChar l n, .fixedChar l' n' => nullOk n n' && l == l'
  | .varchar l n, .varchar l' n' => nullOk n n' && l == l'
  | .list e n, .list e' n' => nullOk n n' && cMatch e e'
  | .struct cs _, .struct cs' _ => cMatchAll cs cs'
  | .map k v n, .map k' v' n' => nullOk n n' && cMatch k k' && cMatch v v'
  | _, _ => false
def cMatchAll : List CType → List CType → Bool
  | [], [] => true
  | c :: cs, c' :: cs' => cMatch c c' && cMatchAll cs cs'
  | _, _ => false
end

theorem cMatchAll_length : ∀ {cs cs' : List CType}, cs'.length ≠ cs.length →
    cMatchAll cs cs' = false
  | [], [], h => absurd rfl h
  | [], _ :: _, _ => rfl
  | _ :: _, [], _ => rfl
  | c :: cs, c' :: cs', h => by
    simp only [cMatchAll]
    rw [cMatchAll_length (by simpa using h)]; simp

theorem objs_length (cs : List CType) : (CType.objs cs).length = cs.length := by
  rw [objs_eq]; simp

mutual
theorem isMatch_obj : ∀ a b : CType, isMatch a.obj b.obj = .ok (cMatch a b)
  | .scalar k n, b => by
    rw [CType.obj, isMatch, baseMatch_obj]
    cases b <;> simp only [CType.obj, PType.kind, cMatch, CType.nullable] <;> try simp
    rename_i k' n'
    by_cases h : k = k'
    · subst h; simp
    · have h' : ¬ k' = k := fun e => h e.symm
      simp [h, h']
  | .decimal p s n, b => by
    cases b <;> simp only [CType.obj, isMatch, cMatch]
    rename_i p' s' n'
    have := baseMatch_obj .decimal n (.decimal p' s' n')
    simp only [CType.obj] at this
    rw [this, andThen_ok]
    simp only [PType.kind, decide_true, Bool.true_and, CType.nullable]
    cases nullOk n n' <;> simp
  | .fixedBinary l n, b => by
    cases b <;> simp only [CType.obj, isMatch, cMatch]
    rename_i l' n'
    have := baseMatch_obj .fixedBinary n (.fixedBinary l' n')
    simp only [CType.obj] at this
    rw [this, andThen_ok]
    simp only [PType.kind, decide_true, Bool.true_and, CType.nullable]
    cases nullOk n n' <;> simp
  | .fixedChar l n, b => by
    cases b <;> simp only [CType.obj, isMatch, cMatch]
    rename_i l' n'
    have := baseMatch_obj .fixedChar n (.fixedChar l' n')
    simp only [CType.obj] at this
    rw [this, andThen_ok]
    simp only [PType.kind, decide_true, Bool.true_and, CType.nullable]
    cases nullOk n n' <;> simp
  | .varchar l n, b => by
    cases b <;> simp only [CType.obj, isMatch, cMatch]
    rename_i l' n'
    have := baseMatch_obj .varchar n (.varchar l' n')
    simp only [CType.obj] at this
    rw [this, andThen_ok]
    simp only [PType.kind, decide_true, Bool.true_and, CType.nullable]
    cases nullOk n n' <;> simp
  | .list e n, b => by
    cases b <;> simp only [CType.obj, isMatch, cMatch]
    rename_i e' n'
    have := baseMatch_obj .list n (.list e' n')
    simp only [CType.obj] at this
    rw [this, andThen_ok, isMatch_obj e e']
    simp only [PType.kind, decide_true, Bool.true_and, CType.nullable]
    cases nullOk n n' <;> simp
  | .struct cs n, b => by
    cases b <;> simp only [CType.obj, isMatch, cMatch]
    rename_i cs' n'
    rw [objs_length, objs_length]
    by_cases h : cs'.length = cs.length
    · rw [if_pos h]; exact isMatchAll_objs cs cs' h.symm
    · rw [if_neg h, cMatchAll_length h]
  | .map k v n, b => by
    cases b <;> simp only [CType.obj, isMatch, cMatch]
    rename_i k' v' n'
    have := baseMatch_obj .map n (.map k' v' n')
    simp only [CType.obj] at this
    rw [this, andThen_ok, isMatch_obj k k', andThen_ok, isMatch_obj v v']
    simp only [PType.kind, decide_true, Bool.true_and, CType.nullable]
    cases nullOk n n' <;> cases cMatch k k' <;> simp
theorem isMatchAll_objs : ∀ cs cs' : List CType, cs.length = cs'.length →
    isMatchAll (CType.objs cs) (CType.objs cs') = .ok (cMatchAll cs cs')
  | [], [], _ => rfl
  | [], _ :: _, h => by simp at h
  | _ :: _, [], h => by simp at h
  | c :: cs, c' :: cs', h => by
    simp only [CType.objs, isMatchAll, cMatchAll]
    rw [isMatch_obj c c', isMatchAll_objs cs cs' (by simpa using h), andThen_ok]
    cases cMatch c c' <;> simp
end

/-! ## Concrete matching against the specification -/

theorem nullOk_iff (n n' : Bool) : nullOk n n' = true ↔ (n' = true → n = true) := by
  cases n <;> cases n' <;> simp [nullOk]

theorem flagsLe_append : ∀ {a a' b b' : List Bool}, a.length = a'.length →
    (FlagsLe (a ++ b) (a' ++ b') ↔ FlagsLe a a' ∧ FlagsLe b b')
  | [], [], b, b', _ => by simp [FlagsLe]
  | [], _ :: _, _, _, h => by simp at h
  | _ :: _, [], _, _, h => by simp at h
  | x :: a, x' :: a', b, b', h => by
    simp only [List.cons_append, FlagsLe]
    rw [flagsLe_append (by simpa using h), and_assoc]

mutual
theorem flags_length_erase : ∀ t : CType, t.erase.flags.length = t.flags.length
  | .scalar .. => rfl
  | .decimal .. => rfl
  | .fixedBinary .. => rfl
  | .fixedChar .. => rfl
  | .varchar .. => rfl
  | .list e n => by simp [CType.erase, CType.flags, flags_length_erase e]
  | .struct cs n => by simp [CType.erase, CType.flags, flagss_length_erases cs]
  | .map k v n => by simp [CType.erase, CType.flags, flags_length_erase k, flags_length_erase v]
theorem flagss_length_erases : ∀ cs : List CType,
    (CType.flagss (CType.erases cs)).length = (CType.flagss cs).length
  | [] => rfl
  | c :: cs => by
    simp [CType.erases, CType.flagss, flags_length_erase c, flagss_length_erases cs]
end

theorem flags_length_of_erase {a b : CType} (h : a.erase = b.erase) :
    a.flags.length = b.flags.length := by
  rw [← flags_length_erase a, h, flags_length_erase]

mutual
theorem forgetStruct_erase : ∀ t : CType, t.forgetStruct.erase = t.erase
  | .scalar .. => rfl
  | .decimal .. => rfl
  | .fixedBinary .. => rfl
  | .fixedChar .. => rfl
  | .varchar .. => rfl
  | .list e n => by simp [CType.forgetStruct, CType.erase, forgetStruct_erase e]
  | .struct cs n => by simp [CType.forgetStruct, CType.erase, forgetStructs_erases cs]
  | .map k v n => by
    simp [CType.forgetStruct, CType.erase, forgetStruct_erase k, forgetStruct_erase v]
theorem forgetStructs_erases : ∀ cs : List CType,
    CType.erases (CType.forgetStructs cs) = CType.erases cs
  | [] => rfl
  | c :: cs => by
    simp [CType.forgetStructs, CType.erases, forgetStruct_erase c, forgetStructs_erases cs]
end

/-- Acceptance of two parts next to each other. -/
theorem accepts_pair {a a' b b' : CType} :
    (a.erase = a'.erase ∧ b.erase = b'.erase ∧
      FlagsLe (a.flags ++ b.flags) (a'.flags ++ b'.flags)) ↔ Accepts a a' ∧ Accepts b b' := by
  constructor
  · rintro ⟨h1, h2, h3⟩
    rw [flagsLe_append (flags_length_of_erase h1)] at h3
    exact ⟨⟨h1, h3.1⟩, ⟨h2, h3.2⟩⟩
  · rintro ⟨⟨h1, h3⟩, ⟨h2, h4⟩⟩
    refine ⟨h1, h2, ?_⟩
    rw [flagsLe_append (flags_length_of_erase h1)]
    exact ⟨h3, h4⟩

mutual
theorem cMatch_iff : ∀ a b : CType,
    cMatch a b = true ↔ Accepts a.forgetStruct b.forgetStruct
  | .scalar k n, b => by
    cases b <;> simp [cMatch, Accepts, CType.forgetStruct, CType.erase, CType.flags, FlagsLe,
      nullOk_iff]
  | .decimal p s n, b => by
    cases b <;> simp [cMatch, Accepts, CType.forgetStruct, CType.erase, CType.flags, FlagsLe,
      nullOk_iff, and_assoc, and_comm, and_left_comm]
  | .fixedBinary l n, b => by
    cases b <;> simp [cMatch, Accepts, CType.forgetStruct, CType.erase, CType.flags, FlagsLe,
      nullOk_iff, and_comm]
  | .fixedChar l n, b => by
    cases b <;> simp [cMatch, Accepts, CType.forgetStruct, CType.erase, CType.flags, FlagsLe,
      nullOk_iff, and_comm]
  | .varchar l n, b => by
    cases b <;> simp [cMatch, Accepts, CType.forgetStruct, CType.erase, CType.flags, FlagsLe,
      nullOk_iff, and_comm]
  | .list e n, b => by
    cases b <;> try simp [cMatch, Accepts, CType.forgetStruct, CType.erase]
    rename_i e' n'
    simp only [cMatch, Bool.and_eq_true, nullOk_iff, cMatch_iff e e', CType.forgetStruct, Accepts,
      CType.erase, CType.flags, FlagsLe, CType.list.injEq, and_true]
    constructor
    · rintro ⟨h1, h2, h3⟩; exact ⟨h2, h1, h3⟩
    · rintro ⟨h2, h1, h3⟩; exact ⟨h1, h2, h3⟩
  | .struct cs n, b => by
    cases b <;> try simp [cMatch, Accepts, CType.forgetStruct, CType.erase]
    rename_i cs' n'
    simp only [cMatch, cMatchAll_iff cs cs', CType.forgetStruct, CType.flags, FlagsLe]
    simp
  | .map k v n, b => by
    cases b <;> try simp [cMatch, Accepts, CType.forgetStruct, CType.erase]
    rename_i k' v' n'
    simp only [cMatch, Bool.and_eq_true, nullOk_iff, cMatch_iff k k', cMatch_iff v v', 
      CType.flags, FlagsLe]
    rw [and_assoc, ← accepts_pair]
    constructor
    · rintro ⟨h1, h2, h3, h4⟩; exact ⟨⟨h2, h3⟩, h1, h4⟩
    · rintro ⟨⟨h2, h3⟩, h1, h4⟩; exact ⟨h1, h2, h3, h4⟩
theorem cMatchAll_iff : ∀ cs cs' : List CType,
    cMatchAll cs cs' = true ↔
      CType.erases (CType.forgetStructs cs) = CType.erases (CType.forgetStructs cs') ∧
        FlagsLe (CType.flagss (CType.forgetStructs cs)) (CType.flagss (CType.forgetStructs cs'))
  | [], [] => by simp [cMatchAll, CType.forgetStructs, CType.erases, CType.flagss, FlagsLe]
  | [], _ :: _ => by simp [cMatchAll, CType.forgetStructs, CType.erases]
  | _ :: _, [] => by simp [cMatchAll, CType.forgetStructs, CType.erases]
  | c :: cs, c' :: cs' => by
    simp only [cMatchAll, Bool.and_eq_true, cMatch_iff c c', cMatchAll_iff cs cs',
      CType.forgetStructs, CType.erases, CType.flagss, List.cons.injEq]
    constructor
    · rintro ⟨⟨h1, h2⟩, h3, h4⟩
      refine ⟨⟨h1, h3⟩, ?_⟩
      rw [flagsLe_append (flags_length_of_erase h1)]
      exact ⟨h2, h4⟩
    · rintro ⟨⟨h1, h3⟩, h⟩
      rw [flagsLe_append (flags_length_of_erase h1)] at h
      exact ⟨⟨h1, h.1⟩, h3, h.2⟩
end

theorem flagsLe_refl : ∀ l : List Bool, FlagsLe l l
  | [] => trivial
  | _ :: l => ⟨id, flagsLe_refl l⟩

theorem flagsLe_trans : ∀ {a b c : List Bool}, FlagsLe a b → FlagsLe b c → FlagsLe a c
  | [], [], [], _, _ => trivial
  | _ :: _, _ :: _, _ :: _, h1, h2 => ⟨fun h => h1.1 (h2.1 h), flagsLe_trans h1.2 h2.2⟩
  | [], [], _ :: _, _, h => h.elim
  | [], _ :: _, _, h, _ => h.elim
  | _ :: _, [], _, h, _ => h.elim
  | _ :: _, _ :: _, [], _, h => h.elim

theorem flagsLe_antisymm : ∀ {a b : List Bool}, FlagsLe a b → FlagsLe b a → a = b
  | [], [], _, _ => rfl
  | x :: a, y :: b, h1, h2 => by
    have hx : x = y := by
      cases x <;> cases y <;> simp_all [FlagsLe]
    rw [hx, flagsLe_antisymm h1.2 h2.2]
  | [], _ :: _, h, _ => h.elim
  | _ :: _, [], h, _ => h.elim

mutual
/-- A type is determined by its shape and its flags. -/
theorem eq_of_erase_flags : ∀ a b : CType, a.erase = b.erase → a.flags = b.flags → a = b
  | .scalar k n, b, h, h' => by cases b <;> simp_all [CType.erase, CType.flags]
  | .decimal p s n, b, h, h' => by cases b <;> simp_all [CType.erase, CType.flags]
  | .fixedBinary l n, b, h, h' => by cases b <;> simp_all [CType.erase, CType.flags]
  | .fixedChar l n, b, h, h' => by cases b <;> simp_all [CType.erase, CType.flags]
  | .varchar l n, b, h, h' => by cases b <;> simp_all [CType.erase, CType.flags]
  | .list e n, b, h, h' => by
    cases b <;> simp only [CType.erase, CType.flags, CType.list.injEq, List.cons.injEq, reduceCtorEq,
      and_true] at h h' ⊢
    exact ⟨eq_of_erase_flags e _ h h'.2, h'.1⟩
  | .struct cs n, b, h, h' => by
    cases b <;> simp only [CType.erase, CType.flags, CType.struct.injEq, List.cons.injEq,
      reduceCtorEq, and_true] at h h' ⊢
    exact ⟨eqs_of_erases_flagss cs _ h h'.2, h'.1⟩
  | .map k v n, b, h, h' => by
    cases b <;> simp only [CType.erase, CType.flags, CType.map.injEq, List.cons.injEq,
      reduceCtorEq, and_true] at h h' ⊢
    have := List.append_inj h'.2 (flags_length_of_erase h.1)
    exact ⟨eq_of_erase_flags k _ h.1 this.1, eq_of_erase_flags v _ h.2 this.2, h'.1⟩
theorem eqs_of_erases_flagss : ∀ cs cs' : List CType, CType.erases cs = CType.erases cs' →
    CType.flagss cs = CType.flagss cs' → cs = cs'
  | [], [], _, _ => rfl
  | [], _ :: _, h, _ => by simp [CType.erases] at h
  | _ :: _, [], h, _ => by simp [CType.erases] at h
  | c :: cs, c' :: cs', h, h' => by
    simp only [CType.erases, CType.flagss, List.cons.injEq] at h h' ⊢
    have := List.append_inj h' (flags_length_of_erase h.1)
    exact ⟨eq_of_erase_flags c c' h.1 this.1, eqs_of_erases_flagss cs cs' h.2 this.2⟩
end

mutual
theorem forgetStruct_of_noNull : ∀ t : CType, t.noNullStruct = true → t.forgetStruct = t
  | .scalar .., _ => rfl
  | .decimal .., _ => rfl
  | .fixedBinary .., _ => rfl
  | .fixedChar .., _ => rfl
  | .varchar .., _ => rfl
  | .list e n, h => by
    simp only [CType.noNullStruct] at h
    simp only [CType.forgetStruct, forgetStruct_of_noNull e h]
  | .struct cs n, h => by
    simp only [CType.noNullStruct, Bool.and_eq_true, Bool.not_eq_true'] at h
    simp only [CType.forgetStruct, forgetStructs_of_noNull cs h.2, h.1]
  | .map k v n, h => by
    simp only [CType.noNullStruct, Bool.and_eq_true] at h
    simp only [CType.forgetStruct, forgetStruct_of_noNull k h.1, forgetStruct_of_noNull v h.2]
theorem forgetStructs_of_noNull : ∀ cs : List CType, CType.noNullStructs cs = true →
    CType.forgetStructs cs = cs
  | [], _ => rfl
  | c :: cs, h => by
    simp only [CType.noNullStructs, Bool.and_eq_true] at h
    simp only [CType.forgetStructs, forgetStruct_of_noNull c h.1, forgetStructs_of_noNull cs h.2]
end

mutual
theorem flagsLe_forget : ∀ a b : CType, a.erase = b.erase → FlagsLe a.flags b.flags →
    FlagsLe a.forgetStruct.flags b.forgetStruct.flags
  | .scalar k n, b, h, h' => by cases b <;> simp_all [CType.erase, CType.forgetStruct]
  | .decimal p s n, b, h, h' => by cases b <;> simp_all [CType.erase, CType.forgetStruct]
  | .fixedBinary l n, b, h, h' => by cases b <;> simp_all [CType.erase, CType.forgetStruct]
  | .fixedChar l n, b, h, h' => by cases b <;> simp_all [CType.erase, CType.forgetStruct]
  | .varchar l n, b, h, h' => by cases b <;> simp_all [CType.erase, CType.forgetStruct]
  | .list e n, b, h, h' => by
    cases b <;> simp only [CType.erase, CType.list.injEq, reduceCtorEq, and_true] at h
    simp only [CType.flags, CType.forgetStruct, FlagsLe] at h' ⊢
    exact ⟨h'.1, flagsLe_forget e _ h h'.2⟩
  | .struct cs n, b, h, h' => by
    cases b <;> simp only [CType.erase, CType.struct.injEq, reduceCtorEq, and_true] at h
    simp only [CType.flags, CType.forgetStruct, FlagsLe] at h' ⊢
    exact ⟨id, flagssLe_forget cs _ h h'.2⟩
  | .map k v n, b, h, h' => by
    cases b <;> simp only [CType.erase, CType.map.injEq, reduceCtorEq, and_true] at h
    simp only [CType.flags, CType.forgetStruct, FlagsLe] at h' ⊢
    rw [flagsLe_append (flags_length_of_erase h.1)] at h'
    rw [flagsLe_append (flags_length_of_erase (by
      rw [forgetStruct_erase, forgetStruct_erase]; exact h.1))]
    exact ⟨h'.1, flagsLe_forget k _ h.1 h'.2.1, flagsLe_forget v _ h.2 h'.2.2⟩
theorem flagssLe_forget : ∀ cs cs' : List CType, CType.erases cs = CType.erases cs' →
    FlagsLe (CType.flagss cs) (CType.flagss cs') →
    FlagsLe (CType.flagss (CType.forgetStructs cs)) (CType.flagss (CType.forgetStructs cs'))
  | [], [], _, _ => trivial
  | [], _ :: _, h, _ => by simp [CType.erases] at h
  | _ :: _, [], h, _ => by simp [CType.erases] at h
  | c :: cs, c' :: cs', h, h' => by
    simp only [CType.erases, List.cons.injEq] at h
    simp only [CType.flagss, CType.forgetStructs] at h' ⊢
    rw [flagsLe_append (flags_length_of_erase h.1)] at h'
    rw [flagsLe_append (flags_length_of_erase (by
      rw [forgetStruct_erase, forgetStruct_erase]; exact h.1))]
    exact ⟨flagsLe_forget c c' h.1 h'.1, flagssLe_forget cs cs' h.2 h'.2⟩
end

theorem accepts_forget (a b : CType) (h : Accepts a b) :
    Accepts a.forgetStruct b.forgetStruct :=
  ⟨by rw [forgetStruct_erase, forgetStruct_erase]; exact h.1, flagsLe_forget a b h.1 h.2⟩

/-! ## Components of matched types -/

theorem andThen_true {a b : Outcome Bool} : a.andThen b = .ok true ↔ a = .ok true ∧ b = .ok true := by
  cases a with
  | ok x => cases x <;> simp [Outcome.andThen]
  | throw e => simp [Outcome.andThen]
  | ub => simp [Outcome.andThen]

theorem isMatchAll_get : ∀ {cs : List PType} {cs' : List CType} {i : Nat} {d : PType} {c : CType},
    isMatchAll cs (CType.objs cs') = .ok true → cs[i]? = some d → cs'[i]? = some c →
    isMatch d c.obj = .ok true
  | [], _, _, _, _, _, h, _ => by simp at h
  | _ :: _, [], _, _, _, _, _, h => by simp at h
  | p :: ps, c :: cs, i, d, c', h, hd, hc => by
    simp only [CType.objs, isMatchAll, andThen_true] at h
    cases i with
    | zero => simp at hd hc; subst hd; subst hc; exact h.1
    | succ i => exact isMatchAll_get h.2 (by simpa using hd) (by simpa using hc)

theorem get_single {α} {x d : α} {i : Nat} (h : [x][i]? = some d) : i = 0 ∧ x = d := by
  cases i <;> simp_all

theorem get_pair {α} {x y d : α} {i : Nat} (h : [x, y][i]? = some d) :
    (i = 0 ∧ x = d) ∨ (i = 1 ∧ y = d) := by
  match i with
  | 0 => left; simpa using h
  | 1 => right; simpa using h
  | i + 2 => simp at h

/-- The components of matched types match. -/
theorem isMatch_child {d d' : PType} {c c' : CType} {i : Nat} (h : isMatch d c.obj = .ok true)
    (hd : d.children[i]? = some d') (hc : c.children[i]? = some c') :
    isMatch d' c'.obj = .ok true := by
  cases d with
  | list e n =>
    obtain ⟨rfl, rfl⟩ := get_single hd
    cases c <;> simp only [CType.obj, isMatch, andThen_true, reduceCtorEq, Outcome.ok.injEq,
      Bool.false_eq_true] at h
    obtain ⟨_, rfl⟩ := get_single hc
    exact h.2
  | pList e n =>
    obtain ⟨rfl, rfl⟩ := get_single hd
    cases c <;> simp only [CType.obj, isMatch, andThen_true, reduceCtorEq, Outcome.ok.injEq,
      Bool.false_eq_true] at h
    obtain ⟨_, rfl⟩ := get_single hc
    exact h.1
  | struct cs n =>
    cases c <;> simp only [CType.obj, isMatch, reduceCtorEq, Outcome.ok.injEq,
      Bool.false_eq_true] at h
    split at h
    · exact isMatchAll_get h hd hc
    · simp at h
  | pStruct cs n =>
    cases c <;> simp only [CType.obj, isMatch, reduceCtorEq, Outcome.ok.injEq,
      Bool.false_eq_true] at h
    split at h
    · rw [andThen_true] at h
      exact isMatchAll_get h.1 hd hc
    · simp at h
  | map k v n =>
    cases c <;> simp only [CType.obj, isMatch, andThen_true, reduceCtorEq, Outcome.ok.injEq,
      Bool.false_eq_true] at h
    rcases get_pair hd with ⟨rfl, rfl⟩ | ⟨rfl, rfl⟩ <;> rcases get_pair hc with ⟨e, rfl⟩ | ⟨e, rfl⟩ <;>
      simp_all
  | pMap k v n =>
    cases c <;> simp only [CType.obj, isMatch, andThen_true, reduceCtorEq, Outcome.ok.injEq,
      Bool.false_eq_true] at h
    rcases get_pair hd with ⟨rfl, rfl⟩ | ⟨rfl, rfl⟩ <;> rcases get_pair hc with ⟨e, rfl⟩ | ⟨e, rfl⟩ <;>
      simp_all
  | _ => simp [PType.children] at hd

theorem baseMatch_true {k : Kind} {n : Bool} {t : PType} (h : baseMatch k n t = .ok true) :
    nullMatch n t = .ok true := by
  unfold baseMatch at h
  split at h
  · split at h
    · exact h
    · simp at h
  · simp at h

theorem nullMatch_true {n : Bool} {c : CType} (h : nullMatch n c.obj = .ok true)
    (hc : c.nullable = true) : n = true := by
  rw [nullMatch_obj, hc] at h
  cases n
  · simp [nullOk] at h
  · rfl

/-- At the top: a match with a nullable type needs a nullable declaration, unless it is a
symbol or a concrete struct. -/
theorem isMatch_nullable {d : PType} {c : CType} (h : isMatch d c.obj = .ok true)
    (hl : d.isLit = false) (hs : d.isConcreteStruct = false) (hc : c.nullable = true) :
    d.nullable = some true := by
  cases d with
  | null => simp [isMatch] at h
  | lit => simp [PType.isLit] at hl
  | struct => simp [PType.isConcreteStruct] at hs
  | scalar k n =>
    simp only [isMatch] at h
    simp [PType.nullable, nullMatch_true (baseMatch_true h) hc]
  | pStruct cs n =>
    cases c <;> simp only [isMatch, CType.obj, andThen_true, Outcome.ok.injEq, Bool.false_eq_true] at h
    split at h
    · rw [andThen_true] at h
      simp [PType.nullable, nullMatch_true (c := .struct _ _) h.2 hc]
    · simp at h
  | decimal p s n =>
    cases c <;> simp only [isMatch, CType.obj, andThen_true, Outcome.ok.injEq, Bool.false_eq_true] at h
    simp [PType.nullable, nullMatch_true (c := .decimal _ _ _) (baseMatch_true h.1) hc]
  | fixedBinary l n =>
    cases c <;> simp only [isMatch, CType.obj, andThen_true, Outcome.ok.injEq, Bool.false_eq_true] at h
    simp [PType.nullable, nullMatch_true (c := .fixedBinary _ _) (baseMatch_true h.1) hc]
  | fixedChar l n =>
    cases c <;> simp only [isMatch, CType.obj, andThen_true, Outcome.ok.injEq, Bool.false_eq_true] at h
    simp [PType.nullable, nullMatch_true (c := .fixedChar _ _) (baseMatch_true h.1) hc]
  | varchar l n =>
    cases c <;> simp only [isMatch, CType.obj, andThen_true, Outcome.ok.injEq, Bool.false_eq_true] at h
    simp [PType.nullable, nullMatch_true (c := .varchar _ _) (baseMatch_true h.1) hc]
  | list e n =>
    cases c <;> simp only [isMatch, CType.obj, andThen_true, Outcome.ok.injEq, Bool.false_eq_true] at h
    simp [PType.nullable, nullMatch_true (c := .list _ _) (baseMatch_true h.1) hc]
  | map k v n =>
    cases c <;> simp only [isMatch, CType.obj, andThen_true, Outcome.ok.injEq, Bool.false_eq_true] at h
    simp [PType.nullable, nullMatch_true (c := .map _ _ _) (baseMatch_true h.1) hc]
  | pDecimal p s n =>
    cases c <;> simp only [isMatch, CType.obj, andThen_true, Outcome.ok.injEq, Bool.false_eq_true] at h
    simp [PType.nullable, nullMatch_true (c := .decimal _ _ _) h hc]
  | pFixedBinary l n =>
    cases c <;> simp only [isMatch, CType.obj, andThen_true, Outcome.ok.injEq, Bool.false_eq_true] at h
  | pFixedChar l n =>
    cases c <;> simp only [isMatch, CType.obj, andThen_true, Outcome.ok.injEq, Bool.false_eq_true] at h
    simp [PType.nullable, nullMatch_true (c := .fixedChar _ _) h hc]
  | pVarchar l n =>
    cases c <;> simp only [isMatch, CType.obj, andThen_true, Outcome.ok.injEq, Bool.false_eq_true] at h
    simp [PType.nullable, nullMatch_true (c := .varchar _ _) h hc]
  | pList e n =>
    cases c <;> simp only [isMatch, CType.obj, andThen_true, Outcome.ok.injEq, Bool.false_eq_true] at h
    simp [PType.nullable, nullMatch_true (c := .list _ _) h.2 hc]
  | pMap k v n =>
    cases c <;> simp only [isMatch, CType.obj, andThen_true, Outcome.ok.injEq, Bool.false_eq_true] at h
    simp [PType.nullable, nullMatch_true (c := .map _ _ _) h.2.2 hc]

/-! ## Declarations -/

mutual
/-- Boolean form of matching a declaration against a concrete type, as the code computes it. -/
def dMatch : PType → CType → Bool
  | .lit _ w _, _ => w
  | .scalar k n, .scalar k' n' => k == k' && nullOk n n'
  | .pDecimal _ _ n, .decimal _ _ n' => nullOk n n'
  | .pFixedChar _ n, .fixedChar _ n' => nullOk n n'
  | .pVarchar _ n, .varchar _ n' => nullOk n n'
  | .pList e n, .list e' n' => dMatch e e' && nullOk n n'
  | .pStruct cs n, .struct cs' n' => dMatchAll cs cs' && nullOk n n'
  | .pMap k v n, .map k' v' n' => dMatch k k' && dMatch v v' && nullOk n n'
  | _, _ => false
def dMatchAll : List PType → List CType → Bool
  | [], [] => true
  | c :: cs, c' :: cs' => dMatch c c' && dMatchAll cs cs'
  | _, _ => false
end

theorem dMatchAll_length : ∀ {cs : List PType} {cs' : List CType}, cs'.length ≠ cs.length →
    dMatchAll cs cs' = false
  | [], [], h => absurd rfl h
  | [], _ :: _, _ => rfl
  | _ :: _, [], _ => rfl
  | c :: cs, c' :: cs', h => by
    simp only [dMatchAll]
    rw [dMatchAll_length (by simpa using h)]; simp

mutual
theorem isMatch_decl : ∀ (d : PType) (c : CType), d.isDecl = true →
    isMatch d c.obj = .ok (dMatch d c)
  | .scalar k n, c, _ => by
    rw [isMatch, baseMatch_obj]
    cases c <;> simp only [CType.obj, PType.kind, dMatch, CType.nullable] <;> try simp
    rename_i k' n'
    by_cases h : k = k'
    · subst h; simp
    · have h' : ¬ k' = k := fun e => h e.symm
      simp [h, h']
  | .lit v w p, c, _ => by
    cases w <;> cases c <;> simp [isMatch, dMatch, CType.obj]
  | .pDecimal p s n, c, _ => by
    cases c <;> simp only [CType.obj, isMatch, dMatch]
    rename_i p' s' n'
    exact nullMatch_obj n (.decimal p' s' n')
  | .pFixedBinary l n, c, _ => by
    cases c <;> simp only [CType.obj, isMatch, dMatch]
  | .pFixedChar l n, c, _ => by
    cases c <;> simp only [CType.obj, isMatch, dMatch]
    rename_i l' n'
    exact nullMatch_obj n (.fixedChar l' n')
  | .pVarchar l n, c, _ => by
    cases c <;> simp only [CType.obj, isMatch, dMatch]
    rename_i l' n'
    exact nullMatch_obj n (.varchar l' n')
  | .pList e n, c, h => by
    simp only [PType.isDecl] at h
    cases c <;> simp only [CType.obj, isMatch, dMatch]
    rename_i e' n'
    have := nullMatch_obj n (.list e' n')
    simp only [CType.obj, CType.nullable] at this
    rw [isMatch_decl e e' h, andThen_ok, this]
    cases dMatch e e' <;> simp
  | .pStruct cs n, c, h => by
    simp only [PType.isDecl] at h
    cases c <;> simp only [CType.obj, isMatch, dMatch]
    rename_i cs' n'
    have := nullMatch_obj n (.struct cs' n')
    simp only [CType.obj, CType.nullable] at this
    rw [objs_length]
    by_cases hl : cs'.length = cs.length
    · rw [if_pos hl, isMatchAll_decl cs cs' h hl.symm, andThen_ok, this]
      cases dMatchAll cs cs' <;> simp
    · rw [if_neg hl, dMatchAll_length hl]; simp
  | .pMap k v n, c, h => by
    simp only [PType.isDecl, Bool.and_eq_true] at h
    cases c <;> simp only [CType.obj, isMatch, dMatch]
    rename_i k' v' n'
    have := nullMatch_obj n (.map k' v' n')
    simp only [CType.obj, CType.nullable] at this
    rw [isMatch_decl k k' h.1, isMatch_decl v v' h.2, andThen_ok, andThen_ok, this]
    cases dMatch k k' <;> cases dMatch v v' <;> simp
theorem isMatchAll_decl : ∀ (cs : List PType) (cs' : List CType), PType.isDecls cs = true →
    cs.length = cs'.length → isMatchAll cs (CType.objs cs') = .ok (dMatchAll cs cs')
  | [], [], _, _ => rfl
  | [], _ :: _, _, h => by simp at h
  | _ :: _, [], _, h => by simp at h
  | c :: cs, c' :: cs', h, hl => by
    simp only [PType.isDecls, Bool.and_eq_true] at h
    simp only [CType.objs, isMatchAll, dMatchAll]
    rw [isMatch_decl c c' h.1, isMatchAll_decl cs cs' h.2 (by simpa using hl), andThen_ok]
    cases dMatch c c' <;> simp
end

mutual
theorem dMatch_sound : ∀ (d : PType) (c : CType), dMatch d c = true → DeclAccepts d c
  | .null, c, h => by cases c <;> simp [dMatch] at h
  | .scalar k n, c, h => by cases c <;> simp_all [dMatch, DeclAccepts, nullOk_iff]
  | .decimal .., c, h => by cases c <;> simp [dMatch] at h
  | .fixedBinary .., c, h => by cases c <;> simp [dMatch] at h
  | .fixedChar .., c, h => by cases c <;> simp [dMatch] at h
  | .varchar .., c, h => by cases c <;> simp [dMatch] at h
  | .list .., c, h => by cases c <;> simp [dMatch] at h
  | .struct .., c, h => by cases c <;> simp [dMatch] at h
  | .map .., c, h => by cases c <;> simp [dMatch] at h
  | .lit v w p, c, h => by cases c <;> simp_all [dMatch, DeclAccepts]
  | .pDecimal .., c, h => by cases c <;> simp_all [dMatch, DeclAccepts, nullOk_iff]
  | .pFixedBinary .., c, h => by cases c <;> simp [dMatch] at h
  | .pFixedChar .., c, h => by cases c <;> simp_all [dMatch, DeclAccepts, nullOk_iff]
  | .pVarchar .., c, h => by cases c <;> simp_all [dMatch, DeclAccepts, nullOk_iff]
  | .pList e n, c, h => by
    cases c <;> simp only [dMatch, DeclAccepts, Bool.and_eq_true, nullOk_iff, Bool.false_eq_true] at h ⊢
    exact ⟨dMatch_sound e _ h.1, h.2⟩
  | .pStruct cs n, c, h => by
    cases c <;> simp only [dMatch, DeclAccepts, Bool.and_eq_true, nullOk_iff, Bool.false_eq_true] at h ⊢
    exact ⟨dMatchAll_sound cs _ h.1, h.2⟩
  | .pMap k v n, c, h => by
    cases c <;> simp only [dMatch, DeclAccepts, Bool.and_eq_true, nullOk_iff, Bool.false_eq_true] at h ⊢
    exact ⟨dMatch_sound k _ h.1.1, dMatch_sound v _ h.1.2, h.2⟩
theorem dMatchAll_sound : ∀ (cs : List PType) (cs' : List CType), dMatchAll cs cs' = true →
    DeclAcceptsAll cs cs'
  | [], [], _ => trivial
  | [], _ :: _, h => by simp [dMatchAll] at h
  | _ :: _, [], h => by simp [dMatchAll] at h
  | c :: cs, c' :: cs', h => by
    simp only [dMatchAll, Bool.and_eq_true] at h
    exact ⟨dMatch_sound c c' h.1, dMatchAll_sound cs cs' h.2⟩
end

mutual
theorem dMatch_complete : ∀ (d : PType) (c : CType), d.usesFixedBinary = false →
    DeclAccepts d c → dMatch d c = true
  | .null, c, _, h => by cases c <;> simp [DeclAccepts] at h
  | .scalar k n, c, _, h => by cases c <;> simp_all [dMatch, DeclAccepts, nullOk_iff]
  | .decimal .., c, _, h => by cases c <;> simp [DeclAccepts] at h
  | .fixedBinary .., c, _, h => by cases c <;> simp [DeclAccepts] at h
  | .fixedChar .., c, _, h => by cases c <;> simp [DeclAccepts] at h
  | .varchar .., c, _, h => by cases c <;> simp [DeclAccepts] at h
  | .list .., c, _, h => by cases c <;> simp [DeclAccepts] at h
  | .struct .., c, _, h => by cases c <;> simp [DeclAccepts] at h
  | .map .., c, _, h => by cases c <;> simp [DeclAccepts] at h
  | .lit v w p, c, _, h => by cases c <;> simp_all [dMatch, DeclAccepts]
  | .pDecimal .., c, _, h => by cases c <;> simp_all [dMatch, DeclAccepts, nullOk_iff]
  | .pFixedBinary .., c, hf, h => by simp [PType.usesFixedBinary] at hf
  | .pFixedChar .., c, _, h => by cases c <;> simp_all [dMatch, DeclAccepts, nullOk_iff]
  | .pVarchar .., c, _, h => by cases c <;> simp_all [dMatch, DeclAccepts, nullOk_iff]
  | .pList e n, c, hf, h => by
    simp only [PType.usesFixedBinary] at hf
    cases c <;> simp only [dMatch, DeclAccepts, Bool.and_eq_true, nullOk_iff] at h ⊢
    exact ⟨dMatch_complete e _ hf h.1, h.2⟩
  | .pStruct cs n, c, hf, h => by
    simp only [PType.usesFixedBinary] at hf
    cases c <;> simp only [dMatch, DeclAccepts, Bool.and_eq_true, nullOk_iff] at h ⊢
    exact ⟨dMatchAll_complete cs _ hf h.1, h.2⟩
  | .pMap k v n, c, hf, h => by
    simp only [PType.usesFixedBinary, Bool.or_eq_false_iff] at hf
    cases c <;> simp only [dMatch, DeclAccepts, Bool.and_eq_true, nullOk_iff] at h ⊢
    exact ⟨⟨dMatch_complete k _ hf.1 h.1, dMatch_complete v _ hf.2 h.2.1⟩, h.2.2⟩
theorem dMatchAll_complete : ∀ (cs : List PType) (cs' : List CType),
    PType.useFixedBinary cs = false → DeclAcceptsAll cs cs' → dMatchAll cs cs' = true
  | [], [], _, _ => rfl
  | [], _ :: _, _, h => by simp [DeclAcceptsAll] at h
  | _ :: _, [], _, h => by simp [DeclAcceptsAll] at h
  | c :: cs, c' :: cs', hf, h => by
    simp only [PType.useFixedBinary, Bool.or_eq_false_iff] at hf
    simp only [DeclAcceptsAll] at h
    simp only [dMatchAll, Bool.and_eq_true]
    exact ⟨dMatch_complete c c' hf.1 h.1, dMatchAll_complete cs cs' hf.2 h.2⟩
end

/-! ## What parameterised decoding produces -/

theorem decodeSimple_isDecl (raw : Str) : (decodeSimple raw).isDecl = true := by
  unfold decodeSimple
  dsimp only
  split <;> rfl

theorem isDecls_of_all {ps : List PType} (h : ∀ p ∈ ps, p.isDecl = true) :
    PType.isDecls ps = true := by
  induction ps with
  | nil => rfl
  | cons p ps ih =>
    simp only [PType.isDecls, Bool.and_eq_true]
    exact ⟨h p (by simp), ih (fun q hq => h q (by simp [hq]))⟩

theorem mem_of_mapM {α β} {f : α → Outcome β} {l : List α} {bs : List β}
    (h : Outcome.mapM f l = .ok bs) : ∀ b ∈ bs, ∃ a ∈ l, f a = .ok b := by
  induction l generalizing bs with
  | nil => simp at h; subst h; simp
  | cons a as ih =>
    simp only [Outcome.mapM_cons] at h
    cases hf : f a with
    | ub => simp [hf] at h
    | throw e => simp [hf] at h
    | ok b =>
      cases hm : Outcome.mapM f as with
      | ub => simp [hf, hm] at h
      | throw e => simp [hf, hm] at h
      | ok bs' =>
        simp [hf, hm] at h; subst h
        intro x hx
        rcases List.mem_cons.mp hx with rfl | hx
        · exact ⟨a, by simp, hf⟩
        · obtain ⟨y, hy, e⟩ := ih hm x hx
          exact ⟨y, by simp [hy], e⟩

theorem allMapsComplete_iff (cs : List PType) :
    PType.allMapsComplete cs = true ↔ ∀ c ∈ cs, c.mapsComplete = true := by
  induction cs with
  | nil => simp [PType.allMapsComplete]
  | cons c cs ih => simp [PType.allMapsComplete, ih]

theorem decodeByName_isDecl {base : Str} {n : Bool} {ps : List PType} {t : PType}
    (hps : ∀ p ∈ ps, p.mapsComplete = true → p.isDecl = true)
    (h : decodeByName base true n ps = .ok t) (hm : t.mapsComplete = true) :
    t.isDecl = true := by
  unfold decodeByName at h
  split at h
  · cases ps with
    | nil => simp [decodeList] at h
    | cons p0 rest =>
      simp [decodeList] at h; subst h
      exact hps p0 (by simp) hm
  · split at h
    · match ps with
      | [] => simp [decodeMap] at h; subst h; simp [PType.mapsComplete, PType.isNull] at hm
      | [p0] => simp [decodeMap] at h; subst h; simp [PType.mapsComplete, PType.isNull] at hm
      | p0 :: p1 :: rest =>
        simp [decodeMap] at h; subst h
        simp only [PType.mapsComplete, Bool.and_eq_true] at hm
        simp [PType.isDecl, hps p0 (by simp) hm.1.2, hps p1 (by simp) hm.2]
    · split at h
      · simp [decodeStruct] at h; subst h
        simp only [PType.mapsComplete, allMapsComplete_iff] at hm
        exact isDecls_of_all fun p hp => hps p hp (hm p hp)
      · split at h
        · match ps with
          | [] => simp [decodeDecimal] at h
          | [_] => simp [decodeDecimal] at h
          | [p0, p1] => simp [decodeDecimal] at h; subst h; rfl
          | _ :: _ :: _ :: _ => simp [decodeDecimal] at h
        · split at h
          · cases ps <;> simp [decodeLength] at h; subst h; rfl
          · split at h
            · cases ps <;> simp [decodeLength] at h; subst h; rfl
            · split at h
              · cases ps <;> simp [decodeLength] at h; subst h; rfl
              · simp at h

theorem decode_isDecl : ∀ (k : Nat) (s : Str) (t : PType), s.length < k → decode true s = .ok t →
    t.mapsComplete = true → t.isDecl = true := by
  intro k
  induction k with
  | zero => intro s t h; omega
  | succ k ih =>
    intro s t hs h hm
    rw [decode_eq] at h
    cases hl : findFirst '<' (StringUtils.trim s) with
    | none => rw [hl] at h; simp at h; subst h; exact decodeSimple_isDecl _
    | some left =>
      rw [hl] at h
      simp only at h
      cases hr : Outcome.mapM (decode true)
          (tokens (StringUtils.trim s) (findLast '>' (StringUtils.trim s)) (left + 1)) with
      | ub => simp [hr] at h
      | throw e => simp [hr] at h
      | ok ps =>
        rw [hr] at h
        simp only [Outcome.bind_ok] at h
        refine decodeByName_isDecl ?_ h hm
        intro p hp hmp
        obtain ⟨tok, htok, e⟩ := mem_of_mapM hr p hp
        have h1 := tokens_length htok
        have h2 := findFirst_lt hl
        have h3 := StringUtils.trim_length_le s
        exact ih tok p (by omega) e hmp

/-- The shapes parameterised decoding produces at the top, with the parts it uses. -/
theorem decodeByName_param_shape {base : Str} {n : Bool} {ps : List PType} {t : PType}
    (h : decodeByName base true n ps = .ok t) :
    (∃ e, e ∈ ps ∧ t = .pList e n) ∨ t = .pStruct ps n ∨
    (∃ k v, (k ∈ ps ∨ k = .null) ∧ (v ∈ ps ∨ v = .null) ∧ t = .pMap k v n) ∨
    (∃ a b, t = .pDecimal (castLit a) (castLit b) n) ∨ (∃ a, t = .pVarchar (castLit a) n) ∨
    (∃ a, t = .pFixedChar (castLit a) n) ∨ (∃ a, t = .pFixedBinary (castLit a) n) := by
  unfold decodeByName at h
  split at h
  · cases ps with
    | nil => simp [decodeList] at h
    | cons p0 rest => simp [decodeList] at h; subst h; exact .inl ⟨p0, by simp, rfl⟩
  · split at h
    · match ps with
      | [] => simp [decodeMap] at h; subst h; exact .inr (.inr (.inl ⟨_, _, .inr rfl, .inr rfl, rfl⟩))
      | [p0] =>
        simp [decodeMap] at h; subst h
        exact .inr (.inr (.inl ⟨_, _, .inl (by simp), .inr rfl, rfl⟩))
      | p0 :: p1 :: rest =>
        simp [decodeMap] at h; subst h
        exact .inr (.inr (.inl ⟨_, _, .inl (by simp), .inl (by simp), rfl⟩))
    · split at h
      · simp [decodeStruct] at h; subst h; exact .inr (.inl rfl)
      · split at h
        · match ps with
          | [] => simp [decodeDecimal] at h
          | [_] => simp [decodeDecimal] at h
          | [p0, p1] =>
            simp [decodeDecimal] at h; subst h
            exact .inr (.inr (.inr (.inl ⟨_, _, rfl⟩)))
          | _ :: _ :: _ :: _ => simp [decodeDecimal] at h
        · split at h
          · cases ps <;> simp [decodeLength] at h; subst h
            exact .inr (.inr (.inr (.inr (.inl ⟨_, rfl⟩))))
          · split at h
            · cases ps <;> simp [decodeLength] at h; subst h
              exact .inr (.inr (.inr (.inr (.inr (.inl ⟨_, rfl⟩)))))
            · split at h
              · cases ps <;> simp [decodeLength] at h; subst h
                exact .inr (.inr (.inr (.inr (.inr (.inr ⟨_, rfl⟩)))))
              · simp at h

/-- Parameterised decoding, unfolded: simple text or one constructor over decoded parts. -/
theorem decode_param_cases {s : Str} {t : PType} (h : decode true s = .ok t) :
    t = decodeSimple (StringUtils.trim s) ∨ ∃ base n ps, decodeByName base true n ps = .ok t ∧
      ∀ p ∈ ps, ∃ s', s'.length < s.length ∧ decode true s' = .ok p := by
  rw [decode_eq] at h
  cases hl : findFirst '<' (StringUtils.trim s) with
  | none => rw [hl] at h; simp at h; exact .inl h.symm
  | some left =>
    rw [hl] at h
    simp only at h
    cases hr : Outcome.mapM (decode true)
        (tokens (StringUtils.trim s) (findLast '>' (StringUtils.trim s)) (left + 1)) with
    | ub => simp [hr] at h
    | throw e => simp [hr] at h
    | ok ps =>
      rw [hr] at h
      simp only [Outcome.bind_ok] at h
      refine .inr ⟨_, _, ps, h, ?_⟩
      intro p hp
      obtain ⟨tok, htok, e⟩ := mem_of_mapM hr p hp
      have h1 := tokens_length htok
      have h2 := findFirst_lt hl
      have h3 := StringUtils.trim_length_le s
      exact ⟨tok, by omega, e⟩

theorem castLit_children (a : PType) : (castLit a).children = [] := by
  cases a <;> rfl

theorem decodeSimple_cases (raw : Str) :
    (∃ k n, decodeSimple raw = .scalar k n) ∨ ∃ v w p, decodeSimple raw = .lit v w p := by
  unfold decodeSimple
  dsimp only
  split
  · exact .inl ⟨_, _, rfl⟩
  · exact .inr ⟨_, _, _, rfl⟩

/-- No component of a decoded declaration is a concrete struct. -/
theorem decode_param_noStruct : ∀ (k : Nat) (s : Str) (t : PType), s.length < k →
    decode true s = .ok t → ∀ (path : List Nat) (u : PType), t.at path = some u →
    u.isConcreteStruct = false := by
  intro k
  induction k with
  | zero => intro s t h; omega
  | succ k ih =>
    intro s t hs h path u hu
    have hnull : ∀ (path : List Nat) (u : PType), PType.null.at path = some u →
        u.isConcreteStruct = false := by
      intro path u h
      cases path with
      | nil => simp [PType.at] at h; subst h; rfl
      | cons => simp [PType.at, PType.children] at h
    rcases decode_param_cases h with rfl | ⟨base, n, ps, hb, hps⟩
    · rcases decodeSimple_cases (StringUtils.trim s) with ⟨k', n', e⟩ | ⟨v, w, p, e⟩ <;> rw [e] at hu <;>
        (cases path with
        | nil => simp [PType.at] at hu; subst hu; rfl
        | cons => simp [PType.at, PType.children] at hu)
    · have sub : ∀ p ∈ ps, ∀ (path : List Nat) (u : PType), p.at path = some u →
          u.isConcreteStruct = false := by
        intro p hp
        obtain ⟨s', hlt, e⟩ := hps p hp
        exact ih s' p (by omega) e
      rcases decodeByName_param_shape hb with ⟨e, he, rfl⟩ | rfl | ⟨k', v, hk, hv, rfl⟩ |
        ⟨a, b, rfl⟩ | ⟨a, rfl⟩ | ⟨a, rfl⟩ | ⟨a, rfl⟩
      · cases path with
        | nil => simp [PType.at] at hu; subst hu; rfl
        | cons i path =>
          simp only [PType.at, PType.children, Option.bind_eq_some_iff] at hu
          obtain ⟨c, hc, hu⟩ := hu
          obtain ⟨_, rfl⟩ := get_single hc
          exact sub _ he path u hu
      · cases path with
        | nil => simp [PType.at] at hu; subst hu; rfl
        | cons i path =>
          simp only [PType.at, PType.children, Option.bind_eq_some_iff] at hu
          obtain ⟨c, hc, hu⟩ := hu
          exact sub _ (List.mem_of_getElem? hc) path u hu
      · cases path with
        | nil => simp [PType.at] at hu; subst hu; rfl
        | cons i path =>
          simp only [PType.at, PType.children, Option.bind_eq_some_iff] at hu
          obtain ⟨c, hc, hu⟩ := hu
          rcases get_pair hc with ⟨_, rfl⟩ | ⟨_, rfl⟩
          · rcases hk with hk | rfl
            · exact sub _ hk path u hu
            · exact hnull path u hu
          · rcases hv with hv | rfl
            · exact sub _ hv path u hu
            · exact hnull path u hu
      all_goals
        cases path with
        | nil => simp [PType.at] at hu; subst hu; rfl
        | cons i path => simp [PType.at, PType.children] at hu

/-! ## Signatures -/

/-- Names used in signatures. -/
def sigAngle (name : String) (inner : Str) : Str := name.toList ++ mark false ++ '<' :: inner ++ ['>']

mutual
/-- The signature of a concrete type as a plain function. -/
def CType.sig : CType → Str
  | .scalar k _ => k.signature
  | .decimal p s _ => sigAngle "dec" (commas [intText p, intText s])
  | .fixedBinary l _ => sigAngle "fbin" (commas [intText l])
  | .fixedChar l _ => sigAngle "fchar" (commas [intText l])
  | .varchar l _ => sigAngle "vchar" (commas [intText l])
  | .list e _ => sigAngle "list" (commas [e.sig])
  | .struct cs _ => sigAngle "struct" (commas (CType.sigs cs))
  | .map k v _ => sigAngle "map" (commas [k.sig, v.sig])
def CType.sigs : List CType → List Str
  | [] => []
  | c :: cs => c.sig :: CType.sigs cs
end

theorem joinComma_eq : ∀ l : List Str, joinComma l = commas l
  | [] => rfl
  | [s] => rfl
  | s :: t :: rest => by
    simp only [joinComma, commas]
    rw [joinComma_eq (t :: rest)]

mutual
theorem signature_obj : ∀ t : CType, signature t.obj = .ok t.sig
  | .scalar k n => rfl
  | .decimal p s n => by
    simp [CType.obj, signature, CType.sig, sigAngle, commas, mark]
  | .fixedBinary l n => by simp [CType.obj, signature, CType.sig, sigAngle, commas, mark]
  | .fixedChar l n => by simp [CType.obj, signature, CType.sig, sigAngle, commas, mark]
  | .varchar l n => by simp [CType.obj, signature, CType.sig, sigAngle, commas, mark]
  | .list e n => by
    simp [CType.obj, signature, CType.sig, signature_obj e, sigAngle, commas, mark]
  | .struct cs n => by
    simp [CType.obj, signature, CType.sig, signatures_objs cs, joinComma_eq, sigAngle, mark]
  | .map k v n => by
    simp [CType.obj, signature, CType.sig, signature_obj k, signature_obj v, sigAngle, commas, mark]
theorem signatures_objs : ∀ cs : List CType, signatures (CType.objs cs) = .ok (CType.sigs cs)
  | [] => rfl
  | c :: cs => by
    simp [CType.objs, signatures, CType.sigs, signature_obj c, signatures_objs cs]
end

theorem isName_dec : IsName "dec".toList := ⟨by decide, by decide⟩
theorem isName_fbin : IsName "fbin".toList := ⟨by decide, by decide⟩
theorem isName_fchar : IsName "fchar".toList := ⟨by decide, by decide⟩
theorem isName_vchar : IsName "vchar".toList := ⟨by decide, by decide⟩

theorem sigs_eq (cs : List CType) : CType.sigs cs = cs.map CType.sig := by
  induction cs with
  | nil => rfl
  | cons c cs ih => simp [CType.sigs, ih]

mutual
theorem inert_sig : ∀ t : CType, Inert t.sig
  | .scalar k n => inert_of_plain (by cases k <;> simp only [CType.sig, Scalar.signature] <;> decide)
  | .decimal p s n => inert_angleText isName_dec false (inertIn_commas (by
      intro w hw; simp at hw; rcases hw with rfl | rfl <;> exact inert_intText _))
  | .fixedBinary l n => inert_angleText isName_fbin false (inert_intText l).inertIn
  | .fixedChar l n => inert_angleText isName_fchar false (inert_intText l).inertIn
  | .varchar l n => inert_angleText isName_vchar false (inert_intText l).inertIn
  | .list e n => inert_angleText isName_list false (inert_sig e).inertIn
  | .struct cs n => inert_angleText isName_struct false (inertIn_commas (inert_sigs cs))
  | .map k v n => inert_angleText isName_map false (inertIn_commas (by
      intro w hw; simp at hw
      rcases hw with rfl | rfl
      · exact inert_sig k
      · exact inert_sig v))
theorem inert_sigs : ∀ cs : List CType, ∀ w ∈ CType.sigs cs, Inert w
  | [], w, hw => by simp [CType.sigs] at hw
  | c :: cs, w, hw => by
    simp only [CType.sigs, List.mem_cons] at hw
    rcases hw with rfl | hw
    · exact inert_sig c
    · exact inert_sigs cs w hw
end

theorem sig_ne_nil (t : CType) : t.sig ≠ [] := by
  cases t with
  | scalar k n => cases k <;> simp [CType.sig, Scalar.signature]
  | _ => simp [CType.sig, sigAngle]

/-- Items without top-level commas are determined by their comma-separated text. -/
theorem commas_inj {ws ws' : List Str} (h1 : ws ≠ []) (h1' : ws' ≠ []) (h : ∀ w ∈ ws, Inert w)
    (h' : ∀ w ∈ ws', Inert w) (e : commas ws = commas ws') : ws = ws' := by
  have a := tokens_commas h1 h []
  have b := tokens_commas h1' h' []
  rw [e] at a
  exact a.symm.trans b

theorem commas_eq_nil {ws : List Str} (h : ∀ w ∈ ws, w ≠ []) (e : commas ws = []) : ws = [] := by
  match ws with
  | [] => rfl
  | [w] => exact absurd e (h w (by simp))
  | w :: w2 :: rest => simp [commas] at e

theorem sigAngle_inj {a b : String} (ha : IsName a.toList) (hb : IsName b.toList) {x y : Str}
    (h : sigAngle a x = sigAngle b y) : a.toList = b.toList ∧ x = y := by
  have e1 : findFirst '<' (sigAngle a x) = some a.toList.length := by
    simp only [sigAngle, mark, List.append_nil]
    rw [List.append_assoc, List.cons_append]; exact findFirst_append (ha.not_mem (by decide))
  have e2 : findFirst '<' (sigAngle b y) = some b.toList.length := by
    simp only [sigAngle, mark, List.append_nil]
    rw [List.append_assoc, List.cons_append]; exact findFirst_append (hb.not_mem (by decide))
  have hl : a.toList.length = b.toList.length := by
    rw [h, e2] at e1; exact (Option.some.inj e1).symm
  simp only [sigAngle, mark, List.append_nil, List.append_assoc] at h
  have := List.append_inj h hl
  exact ⟨this.1, by simpa using this.2⟩

theorem intText_inj {i j : Int} (h : intText i = intText j) : i = j := by
  have hd : ∀ n, '-' ∉ natText n := fun n => natText_not_mem n (by decide)
  cases i with
  | ofNat m =>
    cases j with
    | ofNat n => rw [natText_inj h]
    | negSucc n => 
      have e : natText m = '-' :: natText (n + 1) := h
      exact absurd (by rw [e]; exact List.mem_cons_self) (hd m)
  | negSucc m =>
    cases j with
    | ofNat n => 
      have e : natText n = '-' :: natText (m + 1) := h.symm
      exact absurd (by rw [e]; exact List.mem_cons_self) (hd n)
    | negSucc n =>
      simp only [intText, List.cons.injEq, true_and] at h
      have := natText_inj h
      congr 1; omega

theorem scalar_sig_noAngle (k : Scalar) : '<' ∉ k.signature := by cases k <;> decide

theorem scalar_sig_inj {k k' : Scalar} (h : k.signature = k'.signature) : k = k' := by
  revert h; cases k <;> cases k' <;> decide

theorem sigAngle_mem (a : String) (x : Str) : '<' ∈ sigAngle a x := by simp [sigAngle]

theorem scalar_ne_angle {k : Scalar} {a : String} {x : Str} (h : k.signature = sigAngle a x) :
    False := scalar_sig_noAngle k (by rw [h]; exact sigAngle_mem a x)

mutual
theorem sig_inj : ∀ a b : CType, a.sig = b.sig → a.erase = b.erase
  | .scalar k n, b, h => by
    cases b <;> simp only [CType.sig] at h
    case scalar k' n' => simp [CType.erase, scalar_sig_inj h]
    all_goals exact (scalar_ne_angle h).elim
  | .decimal p s n, b, h => by
    cases b <;> simp only [CType.sig] at h
    case scalar k' n' => exact (scalar_ne_angle h.symm).elim
    case decimal p' s' n' =>
      have := commas_inj (by simp) (by simp)
        (by intro w hw; simp at hw; rcases hw with rfl | rfl <;> exact inert_intText _)
        (by intro w hw; simp at hw; rcases hw with rfl | rfl <;> exact inert_intText _)
        (sigAngle_inj isName_dec isName_dec h).2
      simp only [List.cons.injEq, and_true] at this
      simp [CType.erase, intText_inj this.1, intText_inj this.2]
    all_goals (exfalso; simp [sigAngle] at h)
  | .fixedBinary l n, b, h => by
    cases b <;> simp only [CType.sig] at h
    case scalar k' n' => exact (scalar_ne_angle h.symm).elim
    case fixedBinary l' n' =>
      have := (sigAngle_inj isName_fbin isName_fbin h).2
      simp only [commas] at this
      simp [CType.erase, intText_inj this]
    all_goals (exfalso; simp [sigAngle] at h)
  | .fixedChar l n, b, h => by
    cases b <;> simp only [CType.sig] at h
    case scalar k' n' => exact (scalar_ne_angle h.symm).elim
    case fixedChar l' n' =>
      have := (sigAngle_inj isName_fchar isName_fchar h).2
      simp only [commas] at this
      simp [CType.erase, intText_inj this]
    all_goals (exfalso; simp [sigAngle] at h)
  | .varchar l n, b, h => by
    cases b <;> simp only [CType.sig] at h
    case scalar k' n' => exact (scalar_ne_angle h.symm).elim
    case varchar l' n' =>
      have := (sigAngle_inj isName_vchar isName_vchar h).2
      simp only [commas] at this
      simp [CType.erase, intText_inj this]
    all_goals (exfalso; simp [sigAngle] at h)
  | .list e n, b, h => by
    cases b <;> simp only [CType.sig] at h
    case scalar k' n' => exact (scalar_ne_angle h.symm).elim
    case list e' n' =>
      have := (sigAngle_inj isName_list isName_list h).2
      simp only [commas] at this
      simp [CType.erase, sig_inj e e' this]
    all_goals (exfalso; simp [sigAngle] at h)
  | .struct cs n, b, h => by
    cases b <;> simp only [CType.sig] at h
    case scalar k' n' => exact (scalar_ne_angle h.symm).elim
    case struct cs' n' =>
      have e := (sigAngle_inj isName_struct isName_struct h).2
      have hs : CType.sigs cs = CType.sigs cs' := by
        by_cases h1 : CType.sigs cs = []
        · rw [h1] at e
          have : CType.sigs cs' = [] := commas_eq_nil
            (by rw [sigs_eq]; intro w hw; simp at hw; obtain ⟨c, _, rfl⟩ := hw; exact sig_ne_nil c)
            e.symm
          rw [h1, this]
        · by_cases h2 : CType.sigs cs' = []
          · rw [h2] at e
            have : CType.sigs cs = [] := commas_eq_nil
              (by rw [sigs_eq]; intro w hw; simp at hw; obtain ⟨c, _, rfl⟩ := hw; exact sig_ne_nil c)
              e
            exact absurd this h1
          · exact commas_inj h1 h2 (inert_sigs cs) (inert_sigs cs') e
      simp [CType.erase, sigs_inj cs cs' hs]
    all_goals (exfalso; simp [sigAngle] at h)
  | .map k v n, b, h => by
    cases b <;> simp only [CType.sig] at h
    case scalar k' n' => exact (scalar_ne_angle h.symm).elim
    case map k' v' n' =>
      have := commas_inj (by simp) (by simp)
        (by intro w hw; simp at hw; rcases hw with rfl | rfl <;> exact inert_sig _)
        (by intro w hw; simp at hw; rcases hw with rfl | rfl <;> exact inert_sig _)
        (sigAngle_inj isName_map isName_map h).2
      simp only [List.cons.injEq, and_true] at this
      simp [CType.erase, sig_inj k k' this.1, sig_inj v v' this.2]
    all_goals (exfalso; simp [sigAngle] at h)
theorem sigs_inj : ∀ cs cs' : List CType, CType.sigs cs = CType.sigs cs' →
    CType.erases cs = CType.erases cs'
  | [], [], _ => rfl
  | [], _ :: _, h => by simp [CType.sigs] at h
  | _ :: _, [], h => by simp [CType.sigs] at h
  | c :: cs, c' :: cs', h => by
    simp only [CType.sigs, List.cons.injEq] at h
    simp only [CType.erases]
    rw [sig_inj c c' h.1, sigs_inj cs cs' h.2]
end

mutual
theorem sig_erase : ∀ t : CType, t.erase.sig = t.sig
  | .scalar .. => rfl
  | .decimal .. => rfl
  | .fixedBinary .. => rfl
  | .fixedChar .. => rfl
  | .varchar .. => rfl
  | .list e n => by simp [CType.erase, CType.sig, sig_erase e]
  | .struct cs n => by simp [CType.erase, CType.sig, sigs_erases cs]
  | .map k v n => by simp [CType.erase, CType.sig, sig_erase k, sig_erase v]
theorem sigs_erases : ∀ cs : List CType, CType.sigs (CType.erases cs) = CType.sigs cs
  | [] => rfl
  | c :: cs => by simp [CType.erases, CType.sigs, sig_erase c, sigs_erases cs]
end

end Verif.Ty
