import Verif.Spec.Traverse

/-! # Lemmas on ways through messages -/

namespace Verif.Trav

open Verif

/-! ## Messages -/

mutual
theorem Msg.induct {P : Msg → Prop}
    (h : ∀ k loc fs, (∀ x ∈ fs.toList, P x.2) → P (.node k loc fs)) : ∀ m, P m
  | .node k loc fs => h k loc fs (Fields.induct h fs)
theorem Fields.induct {P : Msg → Prop}
    (h : ∀ k loc fs, (∀ x ∈ fs.toList, P x.2) → P (.node k loc fs)) :
    ∀ fs : Fields, ∀ x ∈ fs.toList, P x.2
  | .nil, x, hx => by simp [Fields.toList] at hx
  | .cons l m r, x, hx => by
    simp only [Fields.toList, List.mem_cons] at hx
    rcases hx with rfl | hx
    · exact Msg.induct h m
    · exact Fields.induct h r x hx
end

theorem acts_eq {σ : Type} (h : Hooks σ) : ∀ fs : Fields,
    acts h fs = fs.toList.map fun x => (x.1, visit h x.2)
  | .nil => by simp [acts, Fields.toList]
  | .cons l m r => by simp [acts, Fields.toList, acts_eq h r]

theorem conformsF_mem {k : Kind} : ∀ {fs : Fields}, ConformsF k fs →
    ∀ x ∈ fs.toList, (x.1, x.2.kind) ∈ allowed k ∧ Conforms x.2
  | .nil, _, x, hx => by simp [Fields.toList] at hx
  | .cons l m r, h, x, hx => by
    simp only [ConformsF] at h
    simp only [Fields.toList, List.mem_cons] at hx
    rcases hx with rfl | hx
    · exact ⟨h.1, h.2.1⟩
    · exact conformsF_mem h.2.2 x hx

theorem completeF_iff {k : Kind} : ∀ {fs : Fields}, CompleteF k fs ↔
    ∀ x ∈ fs.toList, (k, x.1) ∉ missed → Complete x.2
  | .nil => by simp [Fields.toList, CompleteF]
  | .cons l m r => by simp [Fields.toList, CompleteF, completeF_iff]

theorem answeredF_iff {k : Kind} : ∀ {fs : Fields}, AnsweredF k fs ↔
    ∀ x ∈ fs.toList, (k, x.1) ∉ missed → Answered x.2
  | .nil => by simp [Fields.toList, AnsweredF]
  | .cons l m r => by simp [Fields.toList, AnsweredF, answeredF_iff]

theorem shownF_eq (k : Kind) : ∀ fs : Fields,
    shownF k fs = fs.toList.flatMap fun x => if (k, x.1) ∈ missed then [] else shownIn x.2
  | .nil => by simp [shownF, Fields.toList]
  | .cons l m r => by simp [shownF, Fields.toList, shownF_eq k r]

theorem parentsF_eq (c : Option Nat) (k : Kind) : ∀ fs : Fields,
    parentsF c k fs = fs.toList.flatMap fun x => if (k, x.1) ∈ missed then [] else parentsIn c x.2
  | .nil => by simp [parentsF, Fields.toList]
  | .cons l m r => by simp [parentsF, Fields.toList, parentsF_eq c k r]

theorem linksF_eq (c : Option Nat) (k : Kind) : ∀ fs : Fields,
    linksF c k fs = fs.toList.flatMap fun x => if (k, x.1) ∈ missed then [] else linksIn c x.2
  | .nil => by simp [linksF, Fields.toList]
  | .cons l m r => by simp [linksF, Fields.toList, linksF_eq c k r]

theorem get_eq : ∀ (fs : Fields) (l : Label),
    fs.get l = (fs.toList.find? fun x => x.1 = l).map (·.2)
  | .nil, l => by simp [Fields.get, Fields.toList]
  | .cons n m r, l => by
    simp only [Fields.get, Fields.toList, List.find?_cons]
    by_cases h : n = l <;> simp [h, get_eq r l]

theorem caseOf_eq : ∀ (fs : Fields) (ls : List Label),
    fs.caseOf ls = fs.toList.find? fun x => x.1 ∈ ls
  | .nil, l => by simp [Fields.caseOf, Fields.toList]
  | .cons n m r, l => by
    simp only [Fields.caseOf, Fields.toList, List.find?_cons]
    by_cases h : n ∈ l <;> simp [h, caseOf_eq r l]

theorem all_eq : ∀ (fs : Fields) (l : Label),
    fs.all l = (fs.toList.filter fun x => x.1 = l).map (·.2)
  | .nil, l => by simp [Fields.all, Fields.toList]
  | .cons n m r, l => by
    simp only [Fields.all, Fields.toList, List.filter_cons]
    by_cases h : n = l <;> simp [h, all_eq r l]

theorem leaf_fields {m : Msg} (h : Conforms m) (hk : m.kind = .leaf) : m.fields = .nil := by
  obtain ⟨k, loc, fs⟩ := m
  simp only [Msg.kind] at hk
  subst hk
  cases fs with
  | nil => rfl
  | cons l m r =>
    simp only [Conforms, ConformsF, allowed] at h
    simp at h

theorem leaf_shown {m : Msg} (h : Conforms m) (hk : m.kind = .leaf) : shownIn m = [] := by
  have := leaf_fields h hk
  obtain ⟨k, loc, fs⟩ := m
  simp only [Msg.kind, Msg.fields] at hk this
  subst hk this
  simp [shownIn, shownF]

theorem leaf_parents {m : Msg} (c : Option Nat) (h : Conforms m) (hk : m.kind = .leaf) :
    parentsIn c m = [] := by
  have := leaf_fields h hk
  obtain ⟨k, loc, fs⟩ := m
  simp only [Msg.kind, Msg.fields] at hk this
  subst hk this
  simp [parentsIn, parentsF, parentOf, Msg.kind]

theorem leaf_links {m : Msg} (c : Option Nat) (h : Conforms m) (hk : m.kind = .leaf) :
    linksIn c m = [] := by
  have := leaf_fields h hk
  obtain ⟨k, loc, fs⟩ := m
  simp only [Msg.kind, Msg.fields] at hk this
  subst hk this
  simp [linksIn, linksF, parentOf, Msg.kind]

/-! ## Steps -/

/-- The labels of the fields a step goes into. -/
def Step.labels : Step → List Label
  | .each f => [f]
  | .must f => [f]
  | .pick v _ => v

/-- The messages a step goes into. -/
def Step.into : Step → List (Label × Msg) → List Msg
  | .each f, l => (l.filter fun x => x.1 = f).map (·.2)
  | .must f, l => (l.filter fun x => x.1 = f).map (·.2)
  | .pick v _, l => (l.filter fun x => x.1 ∈ v).map (·.2)

/-- The step does not refuse. -/
def Step.passes : Step → List (Label × Msg) → Prop
  | .each _, _ => True
  | .must f, l => ∃ x ∈ l, x.1 = f
  | .pick v q, l => ∃ x ∈ l, x.1 ∈ v ∨ x.1 ∈ q

instance (t : Step) (l : List (Label × Msg)) : Decidable (t.passes l) := by
  unfold Step.passes; split <;> infer_instance

/-- At most one of the cases is set. -/
def Step.exclusive (t : Step) (l : List (Label × Msg)) : Prop :=
  match t with
  | .pick v q => (l.filter fun x => x.1 ∈ v ∨ x.1 ∈ q).length ≤ 1
  | _ => True

theorem named_map {σ : Type} (h : Hooks σ) (f : Label) : ∀ l : List (Label × Msg),
    named f (l.map fun x => (x.1, visit h x.2)) =
      ((l.filter fun x => x.1 = f).map (·.2)).map (visit h)
  | [] => rfl
  | x :: l => by
    have ih := named_map h f l
    unfold named at *
    simp only [List.map_cons, List.filter_cons]
    by_cases hx : x.1 = f <;> simp_all

theorem runStep_eq {σ : Type} (h : Hooks σ) (l : List (Label × Msg)) (t : Step)
    (he : t.exclusive l) (c : Option Msg) (s : σ) :
    runStep (l.map fun x => (x.1, visit h x.2)) t c s =
      if t.passes l then inOrder ((t.into l).map (visit h)) c s else .throw .other := by
  cases t with
  | each f =>
    rw [if_pos (by trivial)]
    simp only [runStep, named_map, Step.into]
  | must f =>
    simp only [runStep, named_map, Step.into]
    by_cases hx : ∃ x ∈ l, x.1 = f
    · rw [if_pos (show (Step.must f).passes l from hx), if_neg]
      obtain ⟨x, h1, h2⟩ := hx
      simp only [List.isEmpty_iff, List.map_eq_nil_iff, List.filter_eq_nil_iff]
      intro hn
      exact hn x h1 (by simp [h2])
    · rw [if_neg (show ¬ (Step.must f).passes l from hx), if_pos]
      simp only [List.isEmpty_iff, List.map_eq_nil_iff, List.filter_eq_nil_iff]
      intro x h1 h2
      exact hx ⟨x, h1, by simpa using h2⟩
  | pick v q =>
    simp only [runStep, Step.into]
    induction l with
    | nil =>
      rw [if_neg]
      · rfl
      · rintro ⟨x, h1, _⟩
        cases h1
    | cons x l ih =>
      simp only [Step.exclusive, List.filter_cons] at he
      simp only [List.map_cons, List.find?_cons, List.filter_cons]
      by_cases hx : x.1 ∈ v ∨ x.1 ∈ q
      · have hl : ∀ y ∈ l, ¬ (y.1 ∈ v ∨ y.1 ∈ q) := by
          simp only [hx, decide_true, if_true, List.length_cons] at he
          have h0 : l.filter (fun x => decide (x.1 ∈ v ∨ x.1 ∈ q)) = [] := by
            apply List.eq_nil_of_length_eq_zero
            omega
          intro y hy
          simpa using (List.filter_eq_nil_iff.mp h0) y hy
        have hv : l.filter (fun x => decide (x.1 ∈ v)) = [] := by
          rw [List.filter_eq_nil_iff]
          intro y hy
          simpa using fun h => hl y hy (.inl h)
        rw [if_pos (show (Step.pick v q).passes (x :: l) from ⟨x, by simp, hx⟩)]
        simp only [hx, decide_true, hv]
        by_cases hxv : x.1 ∈ v
        · simp only [hxv, decide_true, if_true, List.map_cons, List.map_nil, inOrder]
          cases visit h x.2 c s <;> rfl
        · simp only [hxv, decide_false, if_false, Bool.false_eq_true, List.map_nil, inOrder]
      · have hxv : x.1 ∉ v := fun h => hx (.inl h)
        simp only [hx, decide_false, Bool.false_eq_true, if_false] at he
        simp only [hx, decide_false]
        simp only [hxv, decide_false, Bool.false_eq_true, if_false]
        rw [ih he]
        have : (Step.pick v q).passes (x :: l) ↔ (Step.pick v q).passes l := by
          simp only [Step.passes, List.mem_cons, exists_eq_or_imp, hx, false_or]
        simp only [this]

/-- The messages the steps go into, in order. -/
def intoAll (ts : List Step) (l : List (Label × Msg)) : List Msg := ts.flatMap fun t => t.into l

theorem inOrder_append {σ : Type} : ∀ (a b : List (Act σ)) (c : Option Msg) (s : σ),
    inOrder (a ++ b) c s = (inOrder a c s).bind fun s => inOrder b c s
  | [], b, c, s => rfl
  | x :: a, b, c, s => by
    simp only [List.cons_append, inOrder]
    cases x c s with
    | ok t => simp only [Outcome.bind]; exact inOrder_append a b c t
    | throw e => rfl
    | ub => rfl

/-- Steps that all pass go into their messages one after the other; otherwise they stop there. -/
theorem runSteps_eq {σ : Type} (h : Hooks σ) (l : List (Label × Msg)) :
    ∀ (ts : List Step) (_ : ∀ t ∈ ts, t.exclusive l) (c : Option Msg) (s : σ),
    ((∀ t ∈ ts, t.passes l) → runSteps (l.map fun x => (x.1, visit h x.2)) ts c s =
      inOrder ((intoAll ts l).map (visit h)) c s) ∧
    ∀ s', runSteps (l.map fun x => (x.1, visit h x.2)) ts c s = .ok s' → ∀ t ∈ ts, t.passes l
  | [], _, c, s => by simp [runSteps, intoAll, inOrder]
  | t :: ts, he, c, s => by
    have ih := runSteps_eq h l ts fun t ht => he t (by simp [ht])
    simp only [runSteps, runStep_eq h l t (he t (by simp))]
    refine ⟨fun hp => ?_, fun s' hs => ?_⟩
    · simp only [intoAll, List.flatMap_cons, List.map_append, inOrder_append,
        if_pos (hp t (by simp))]
      cases inOrder ((t.into l).map (visit h)) c s with
      | ok r => simp only [Outcome.bind]; exact (ih c r).1 fun t ht => hp t (by simp [ht])
      | throw e => rfl
      | ub => rfl
    · by_cases hp : t.passes l
      · rw [if_pos hp] at hs
        cases hr : inOrder ((t.into l).map (visit h)) c s with
        | ok r =>
          rw [hr] at hs
          intro t' ht'
          simp only [List.mem_cons] at ht'
          rcases ht' with rfl | ht'
          · exact hp
          · exact (ih c r).2 s' hs t' ht'
        | throw e => rw [hr] at hs; cases hs
        | ub => rw [hr] at hs; cases hs
      · rw [if_neg hp] at hs
        cases hs

/-! ## The tables -/

def labelsOf (ts : List Step) : List Label := ts.flatMap Step.labels

theorem labels_nodup (k : Kind) : (labelsOf (steps k)).Nodup := by cases k <;> decide

theorem labels_missed (k : Kind) : ∀ l ∈ labelsOf (steps k), (k, l) ∉ missed := by
  cases k <;> decide

theorem labels_all (k : Kind) : ∀ p ∈ allowed k,
    p.1 ∈ labelsOf (steps k) ∨ (k, p.1) ∈ missed ∨ p.2 = .leaf := by
  cases k <;> decide

/-- The cases of a step are among the fields of which one is set. -/
def Step.among : Step → List Label → Bool
  | .pick v q, o => (v ++ q).all fun x => decide (x ∈ o)
  | _, _ => true

theorem steps_among (k : Kind) : ∀ t ∈ steps k, t.among (oneof k) = true := by
  cases k <;> decide

theorem exclusive_of {k : Kind} {l : List (Label × Msg)}
    (h : (l.filter fun x => x.1 ∈ oneof k).length ≤ 1) : ∀ t ∈ steps k, t.exclusive l := by
  intro t ht
  have ha := steps_among k t ht
  cases t with
  | each f => trivial
  | must f => trivial
  | pick v q =>
    simp only [Step.among, List.all_eq_true, decide_eq_true_eq, List.mem_append] at ha
    refine Nat.le_trans ?_ h
    apply List.Sublist.length_le
    rw [show (l.filter fun x => decide (x.1 ∈ v ∨ x.1 ∈ q)) =
      ((l.filter fun x => decide (x.1 ∈ oneof k)).filter fun x => decide (x.1 ∈ v ∨ x.1 ∈ q)) from ?_]
    · exact List.filter_sublist
    · rw [List.filter_filter]
      congr 1
      funext x
      by_cases hx : x.1 ∈ v ∨ x.1 ∈ q <;> simp [hx, ha x.1]

/-! ## All fields -/

theorem into_flatMap {β : Type} (g : Msg → List β) (t : Step) (l : List (Label × Msg)) :
    (t.into l).flatMap g = l.flatMap fun x => if x.1 ∈ t.labels then g x.2 else [] := by
  induction l with
  | nil => cases t <;> rfl
  | cons x l ih =>
    rw [List.flatMap_cons, ← ih]
    cases t <;> simp only [Step.into, Step.labels, List.filter_cons, List.mem_singleton] <;>
      (split <;> simp_all)

theorem flatMap_join {α β : Type} (p q : α → Prop) [DecidablePred p] [DecidablePred q]
    (g : α → List β) (hd : ∀ x, p x → ¬ q x) : ∀ l : List α,
    ((l.flatMap fun x => if p x then g x else []) ++ l.flatMap fun x => if q x then g x else []).Perm
      (l.flatMap fun x => if p x ∨ q x then g x else [])
  | [] => by simp
  | x :: l => by
    have ih := flatMap_join p q g hd l
    simp only [List.flatMap_cons]
    by_cases hp : p x
    · simp only [hp, hd x hp, if_true, if_false, or_false, List.nil_append, List.append_assoc]
      exact ih.append_left _
    · by_cases hq : q x
      · simp only [hp, hq, if_true, if_false, or_true, List.nil_append]
        refine List.Perm.trans ?_ (ih.append_left _)
        rw [← List.append_assoc, ← List.append_assoc]
        exact List.perm_append_comm.append_right _
      · simpa [hp, hq] using ih

theorem intoAll_perm {β : Type} (g : Msg → List β) (l : List (Label × Msg)) :
    ∀ ts : List Step, (labelsOf ts).Nodup →
    ((intoAll ts l).flatMap g).Perm (l.flatMap fun x => if x.1 ∈ labelsOf ts then g x.2 else [])
  | [], _ => by simp [intoAll, labelsOf]
  | t :: ts, hn => by
    simp only [labelsOf, List.flatMap_cons] at hn
    rw [List.nodup_append] at hn
    have ih := intoAll_perm g l ts hn.2.1
    simp only [intoAll, List.flatMap_cons, List.flatMap_append, into_flatMap] at ih ⊢
    refine (ih.append_left _).trans ?_
    have := flatMap_join (fun x : Label × Msg => x.1 ∈ t.labels) (fun x => x.1 ∈ labelsOf ts)
      (fun x => g x.2) (fun x h1 h2 => hn.2.2 _ h1 _ h2 rfl) l
    refine this.trans (List.Perm.of_eq ?_)
    congr 1
    funext x
    have : x.1 ∈ labelsOf (t :: ts) ↔ x.1 ∈ t.labels ∨ x.1 ∈ labelsOf ts := by
      simp only [labelsOf, List.flatMap_cons, List.mem_append]
    by_cases hx : x.1 ∈ labelsOf (t :: ts)
    · rw [if_pos hx, if_pos (this.mp hx)]
    · rw [if_neg hx, if_neg fun h => hx (this.mpr h)]

/-- What the visited fields of a message of algebra.proto have, all fields have that are not
missed. -/
theorem intoAll_shown {β : Type} (g : Msg → List β) {k : Kind} {fs : Fields} (h : ConformsF k fs)
    (hg : ∀ m, Conforms m → m.kind = .leaf → g m = []) :
    ((intoAll (steps k) fs.toList).flatMap g).Perm
      (fs.toList.flatMap fun x => if (k, x.1) ∈ missed then [] else g x.2) := by
  refine (intoAll_perm g fs.toList (steps k) (labels_nodup k)).trans (List.Perm.of_eq ?_)
  have hm := conformsF_mem h
  generalize fs.toList = l at hm
  induction l with
  | nil => rfl
  | cons x l ih =>
    simp only [List.flatMap_cons]
    rw [ih fun y hy => hm y (by simp [hy])]
    congr 1
    obtain ⟨h1, h2⟩ := hm x (by simp)
    by_cases hx : x.1 ∈ labelsOf (steps k)
    · rw [if_pos hx, if_neg (labels_missed k _ hx)]
    · rw [if_neg hx]
      rcases labels_all k _ h1 with h3 | h3 | h3
      · exact absurd h3 hx
      · rw [if_pos h3]
      · rw [hg _ h2 h3]
        simp

theorem intoAll_mem {k : Kind} {fs : Fields} {m : Msg} (h : m ∈ intoAll (steps k) fs.toList) :
    ∃ l, (l, m) ∈ fs.toList ∧ l ∈ labelsOf (steps k) := by
  unfold intoAll at h
  simp only [List.mem_flatMap] at h
  obtain ⟨t, h1, h2⟩ := h
  cases t <;> simp only [Step.into, List.mem_map, List.mem_filter, decide_eq_true_eq] at h2 <;>
    obtain ⟨x, ⟨h3, h4⟩, rfl⟩ := h2 <;>
    exact ⟨x.1, h3, List.mem_flatMap.mpr ⟨_, h1, by simp [Step.labels, h4]⟩⟩

theorem mem_intoAll {k : Kind} {fs : Fields} {x : Label × Msg} (h : x ∈ fs.toList)
    (hl : x.1 ∈ labelsOf (steps k)) : x.2 ∈ intoAll (steps k) fs.toList := by
  unfold labelsOf at hl
  obtain ⟨t, h1, h2⟩ := List.mem_flatMap.mp hl
  refine List.mem_flatMap.mpr ⟨t, h1, ?_⟩
  cases t <;> simp only [Step.labels, List.mem_singleton] at h2 <;>
    exact List.mem_map.mpr ⟨x, List.mem_filter.mpr ⟨h, by simpa using h2⟩, rfl⟩

end Verif.Trav
