import Verif.Spec.Filter

/-!
# C44: filters are accepted once and only where they belong
-/

namespace Verif.Filter

open Verif

variable {E : Type}

/-- The behaviour of a clause with a meaning. -/
theorem behavior_asks {c : Clause E} {b : Behavior} (h : Asks c b) : c.behavior = (b, []) := by
  obtain ⟨w, v⟩ := c
  cases w with
  | none =>
    simp only [Asks] at h
    subst h; rfl
  | some w =>
    simp only [Asks] at h
    cases b with
    | default => exact absurd h (by simp [Names])
    | bestEffort =>
      simp only [Names] at h
      simp [Clause.behavior, readBehavior, h]
    | postJoin =>
      simp only [Names] at h
      have : ¬ "postjoin".toList = "besteffort".toList := by decide
      simp only [Clause.behavior, readBehavior, h, if_neg this]
      simp

/-- A clause asks for one filter only. -/
theorem asks_unique {c : Clause E} {b b' : Behavior} (h : Asks c b) (h' : Asks c b') : b = b' := by
  have := (behavior_asks h).symm.trans (behavior_asks h')
  simpa using this

/-- A clause without a meaning is reported and then taken for a plain filter. -/
theorem behavior_meaningless {c : Clause E} (h : ¬ Meaningful c) :
    c.behavior = (.default, [.behavior, .behavior]) := by
  obtain ⟨w, v⟩ := c
  cases w with
  | none => exact absurd ⟨.default, rfl⟩ h
  | some w =>
    have h1 : ¬ (w.map toLower).filter isAlnum = "besteffort".toList :=
      fun e => h ⟨.bestEffort, e⟩
    have h2 : ¬ (w.map toLower).filter isAlnum = "postjoin".toList :=
      fun e => h ⟨.postJoin, e⟩
    simp only [Clause.behavior, readBehavior, if_neg h1, if_neg h2]
    rfl

/-- The place of a legal filter. -/
def slot (k : RelationType) (b : Behavior) (s : Filters E) : Option E :=
  match k, b with
  | .read, .default => s.filter
  | .read, .bestEffort => s.bestEffort
  | .join, .postJoin => s.postJoin
  | .filter, .default => s.condition
  | _, _ => none

/-- What one clause does. -/
theorem visitFilter_asks (k : RelationType) (s : Filters E) {c : Clause E} {b : Behavior}
    (h : Asks c b) (e : E) (hv : c.value = some e) :
    (visitFilter k s c).threw = false ∧
    ((visitFilter k s c).errs ≠ [] ↔ Legal k b = false ∨ (slot k b s).isSome) ∧
    ((visitFilter k s c).errs ≠ [] → (visitFilter k s c).filters = s) ∧
    ((visitFilter k s c).errs = [] → ∀ k' b', Legal k' b' = true →
      slot k' b' (visitFilter k s c).filters = if k' = k ∧ b' = b then some e else slot k' b' s) := by
  have hb := behavior_asks h
  obtain ⟨f, be, pj, co⟩ := s
  cases k <;> cases b <;> simp [visitFilter, hb, hv, Legal, slot]
  case read.default => 
    cases f <;> simp [assign]
    intro k' b' hl
    cases k' <;> cases b' <;> simp_all [Legal, slot]
  case read.bestEffort => 
    cases be <;> simp [assign]
    intro k' b' hl
    cases k' <;> cases b' <;> simp_all [Legal, slot]
  case join.postJoin => 
    cases pj <;> simp [assign]
    intro k' b' hl
    cases k' <;> cases b' <;> simp_all [Legal, slot]
  case filter.default => 
    cases co <;> simp
    intro k' b' hl
    cases k' <;> cases b' <;> simp_all [Legal, slot]

/-- The clause has a meaning and an expression. -/
def Good (c : Clause E) : Prop := Meaningful c ∧ c.value.isSome

/-- Clauses that would be accepted by a relation that has none. -/
theorem firstOf_cons {b : Behavior} (c : Clause E) (cs : List (Clause E)) :
    firstOf b (c :: cs) = if Asks c b then c.value else firstOf b cs := by
  unfold firstOf
  rw [List.find?_cons]
  by_cases h : Asks c b <;> simp [h]

/-- What a sequence of clauses does to a relation that may have filters already. -/
theorem visitFilters_good (k : RelationType) (cs : List (Clause E)) :
    ∀ (s : Filters E), (∀ c ∈ cs, Good c) →
    (visitFilters k s cs).2.2 = false ∧
    (visitFilters k s cs).2.1.length = cs.length ∧
    (∀ k' b', Legal k' b' = true → slot k' b' (visitFilters k s cs).1 =
      if k' = k then (slot k' b' s).or (firstOf b' cs) else slot k' b' s) ∧
    (∀ (i : Nat) (hi : i < cs.length) (b : Behavior), Asks cs[i] b →
      ((visitFilters k s cs).2.1[i]? ≠ some [] ↔
        Legal k b = false ∨ (slot k b s).isSome ∨ ∃ j, ∃ hj : j < i, Asks (cs[j]'(by omega)) b)) := by
  induction cs with
  | nil => intro s _; refine ⟨rfl, rfl, ?_, ?_⟩ <;> simp [visitFilters, firstOf]
  | cons c cs ih =>
    intro s hg
    obtain ⟨⟨b, hb⟩, hv⟩ := hg c (by simp)
    obtain ⟨e, hv⟩ := Option.isSome_iff_exists.mp hv
    obtain ⟨h1, h2, h3, h4⟩ := visitFilter_asks k s hb e hv
    obtain ⟨i1, i2, i3, i4⟩ := ih (visitFilter k s c).filters fun c hc => hg c (by simp [hc])
    simp only [visitFilters, h1, Bool.false_eq_true, if_false]
    refine ⟨i1, by simp [i2], ?_, ?_⟩
    · intro k' b' hl
      rw [i3 k' b' hl, firstOf_cons]
      by_cases hk : k' = k
      · simp only [if_pos hk]
        by_cases he : (visitFilter k s c).errs = []
        · rw [h4 he k' b' hl]
          by_cases hbb : b' = b
          · subst hbb
            have hs : (slot k' b' s) = none := by
              by_cases hss : (slot k' b' s).isSome
              · exact absurd he (h2.mpr (.inr (hk ▸ hss)))
              · simpa using hss
            simp [hk, hb, hv, hk ▸ hs]
          · have : ¬ Asks c b' := fun h => hbb (asks_unique h hb)
            simp [hbb, this]
        · rw [h3 he]
          by_cases hbb : b' = b
          · subst hbb
            have := h2.mp he
            rw [← hk] at this
            rw [hl] at this
            simp only [Bool.true_eq_false, false_or] at this
            obtain ⟨x, hx⟩ := Option.isSome_iff_exists.mp this
            simp [hx]
          · have : ¬ Asks c b' := fun h => hbb (asks_unique h hb)
            simp [this]
      · simp only [if_neg hk]
        by_cases he : (visitFilter k s c).errs = []
        · rw [h4 he k' b' hl]; simp [hk]
        · rw [h3 he]
    · intro i hi b' hb'
      cases i with
      | zero =>
        have : b' = b := asks_unique hb' hb
        subst this
        have hno : ¬ ∃ j, ∃ hj : j < 0, Asks ((c :: cs)[j]'(by omega)) b' := by
          rintro ⟨j, hj, -⟩; omega
        rw [List.getElem?_cons_zero, ne_eq, Option.some.injEq, or_iff_left hno]
        exact h2
      | succ i =>
        simp only [List.length_cons, Nat.add_lt_add_iff_right] at hi
        simp only [List.getElem_cons_succ] at hb'
        rw [List.getElem?_cons_succ, i4 i hi b' hb']
        by_cases hl : Legal k b' = true
        · simp only [hl, Bool.true_eq_false, false_or]
          have hex : (∃ j, ∃ hj : j < i + 1, Asks ((c :: cs)[j]'(by simp; omega)) b') ↔
              Asks c b' ∨ ∃ j, ∃ hj : j < i, Asks (cs[j]'(by omega)) b' := by
            constructor
            · rintro ⟨j, hj, h⟩
              cases j with
              | zero => exact .inl h
              | succ j => exact .inr ⟨j, by omega, h⟩
            · rintro (h | ⟨j, hj, h⟩)
              · exact ⟨0, by omega, h⟩
              · exact ⟨j + 1, by omega, h⟩
          rw [hex]
          by_cases he : (visitFilter k s c).errs = []
          · rw [h4 he k b' hl]
            by_cases hbb : b' = b
            · subst hbb; simp [hb]
            · have : ¬ Asks c b' := fun h => hbb (asks_unique h hb)
              simp [hbb, this]
          · rw [h3 he]
            by_cases hbb : b' = b
            · subst hbb
              have := h2.mp he
              rw [hl] at this
              simp only [Bool.true_eq_false, false_or] at this
              simp [this]
            · have : ¬ Asks c b' := fun h => hbb (asks_unique h hb)
              simp [this]
        · have : Legal k b' = false := by simpa using hl
          simp [this]

theorem filters_ext {s t : Filters E}
    (h : ∀ k b, Legal k b = true → slot k b s = slot k b t) : s = t := by
  obtain ⟨a1, a2, a3, a4⟩ := s
  obtain ⟨b1, b2, b3, b4⟩ := t
  have h1 := h .read .default rfl
  have h2 := h .read .bestEffort rfl
  have h3 := h .join .postJoin rfl
  have h4 := h .filter .default rfl
  simp only [slot] at h1 h2 h3 h4
  subst h1 h2 h3 h4
  rfl

/-- **C44.**  For every type of relation and every sequence of filters whose words mean
something: the relation ends up with the first filter of every kind it can have and nothing
else, and exactly the other filters are reported. -/
theorem filters_accepted_partial (k : RelationType) (cs : List (Clause E)) (h : ∀ c ∈ cs, Good c) :
    (visitFilters k {} cs).1 = expected k cs ∧
    (visitFilters k {} cs).2.1.length = cs.length ∧ (visitFilters k {} cs).2.2 = false ∧
    (∀ (i : Nat) (hi : i < cs.length) (b : Behavior), Asks cs[i] b →
      ((visitFilters k {} cs).2.1[i]? ≠ some [] ↔
        Legal k b = false ∨ ∃ j, ∃ hj : j < i, Asks (cs[j]'(by omega)) b)) := by
  obtain ⟨h1, h2, h3, h4⟩ := visitFilters_good k cs {} h
  have hnone : ∀ k b, slot k b ({} : Filters E) = none := by
    intro k b; unfold slot; split <;> rfl
  refine ⟨filters_ext fun k' b' hl => ?_, h2, h1, ?_⟩
  · rw [h3 k' b' hl, hnone]
    cases k' <;> cases b' <;> first | exact absurd hl (by decide) | skip
    all_goals
      simp only [slot, expected, Option.none_or, eq_comm]
  · intro i hi b hb
    rw [h4 i hi b hb, hnone]
    simp

/-- **C44.**  A reported filter leaves the relation as it was. -/
theorem reported_unchanged (k : RelationType) (s : Filters E) (c : Clause E) (h : Meaningful c)
    (he : (visitFilter k s c).errs ≠ []) : (visitFilter k s c).filters = s := by
  obtain ⟨b, hb⟩ := h
  have hb := behavior_asks hb
  obtain ⟨f, be, pj, co⟩ := s
  cases hv : c.value <;> cases k <;> cases b <;> simp_all [visitFilter] <;>
    first
      | (cases f <;> simp_all [assign])
      | skip
  all_goals first
      | (cases be <;> simp_all [assign])
      | (cases pj <;> simp_all [assign])
      | (cases co <;> simp_all)

/-- **C44 is violated** by words that mean nothing: they are reported, and the filter is set. -/
theorem meaningless_words_accepted (s : Filters E) (c : Clause E) (e : E)
    (hm : ¬ Meaningful c) (hv : c.value = some e) (hs : s.filter = none) :
    visitFilter .read s c = ⟨{ s with filter := some e }, [.behavior, .behavior], false⟩ := by
  simp [visitFilter, behavior_meaningless hm, hv, hs, assign]

/-- Words that mean nothing are always reported. -/
theorem meaningless_words_reported (k : RelationType) (s : Filters E) (c : Clause E)
    (hm : ¬ Meaningful c) : .behavior ∈ (visitFilter k s c).errs := by
  obtain ⟨f, be, pj, co⟩ := s
  cases hv : c.value <;> cases k <;> simp [visitFilter, behavior_meaningless hm, hv] <;>
    first
      | (cases f <;> simp [assign])
      | (cases co <;> simp)

/-- Non-vacuity: a read relation with both filters, a plain filter too many, and one it cannot
have. -/
example :
    let cs : List (Clause Nat) := [⟨none, some 1⟩, ⟨some "best-effort".toList, some 2⟩,
      ⟨none, some 3⟩, ⟨some "POST_JOIN".toList, some 4⟩]
    (∀ c ∈ cs, Meaningful c) ∧
    visitFilters .read {} cs =
      ({ filter := some 1, bestEffort := some 2 }, [[], [], [.twice], [.illegal]], false) := by
  refine ⟨?_, by decide +kernel⟩
  intro c hc
  simp only [List.mem_cons, List.not_mem_nil, or_false] at hc
  rcases hc with rfl | rfl | rfl | rfl
  · exact ⟨.default, by decide +kernel⟩
  · exact ⟨.bestEffort, by decide +kernel⟩
  · exact ⟨.default, by decide +kernel⟩
  · exact ⟨.postJoin, by decide +kernel⟩

/-- Non-vacuity: words that mean nothing. -/
example : ¬ Meaningful (⟨some "fast".toList, some 1⟩ : Clause Nat) := by
  rintro ⟨b, hb⟩
  cases b <;> revert hb <;> decide +kernel

end Verif.Filter
