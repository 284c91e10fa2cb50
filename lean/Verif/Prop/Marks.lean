import Verif.Lemmas.MarksOnce
import Verif.Prop.Traverse

/-!
# C86, C87: the pipeline of a subquery is marked, and only once

After a subquery the second visitor follows the links of the pipeline with a loop that has no other
end than a null pointer.  For every plan it ends, and it has marked the relation of the subquery, its
only input, the only input of that, and so on, and nothing else.  No relation is marked for two
subqueries, so no mark is written over.  By the marks the printer finds the relation a subquery is used
in, from the relations on the line and from no others.
-/

namespace Verif.Trav

open Verif

/-- From any relation of a plan the loop ends, after at most as many rounds as there are relations,
and it passes along the line of only inputs. -/
theorem pipeline_ends {m : Msg} (h : Conforms m) {n : Noted} {l : Linked}
    (hl : noteAndLink m = .ok (n, l)) (hn : (shownIn m).Nodup) :
    ∀ a ∈ n.relations, ∃ r xs, Within r m ∧ r.kind = .rel ∧ r.loc = a ∧ Line r xs ∧
      marked l.links n.relations.length a = some xs := by
  intro a ha
  have h1 := note_of hl
  have hp := (noted h h1).1
  obtain ⟨g1, g2⟩ := linked h hl
  obtain ⟨r, r1, r2, r3⟩ := shown_within m a (hp.mem_iff.mp ha)
  have hle : (shownIn r).length ≤ n.relations.length := by
    rw [hp.length_eq]
    exact within_length r1
  obtain ⟨xs, h4, h5⟩ := marked_line h g1 g2 hn _ r hle r1 r2
  exact ⟨r, xs, r1, r2, r3, h4, r3 ▸ h5⟩

/-- So it does from the relation of every subquery. -/
theorem subquery_marked {m : Msg} (h : Conforms m) {n : Noted} {l : Linked}
    (hl : noteAndLink m = .ok (n, l)) (hn : (shownIn m).Nodup) {c q : Nat}
    (hq : (c, Link.sub q) ∈ l.links) :
    ∃ r xs, Within r m ∧ r.kind = .rel ∧ r.loc = q ∧ Line r xs ∧
      marked l.links n.relations.length q = some xs := by
  refine pipeline_ends h hl hn q ?_
  have h1 := note_of hl
  exact (noted h h1).1.mem_iff.mpr (sub_shown m h none c q ((linked h hl).1.mem_iff.mp hq))

/-- No relation is marked for two subqueries. -/
theorem marks_disjoint {m : Msg} (h : Conforms m) {n : Noted} {l : Linked}
    (hl : noteAndLink m = .ok (n, l)) (hn : (shownIn m).Nodup) {c c' q q' : Nat}
    (hq : (c, Link.sub q) ∈ l.links) (hq' : (c', Link.sub q') ∈ l.links) {xs xs' : List Nat}
    {rounds rounds' : Nat} (hx : marked l.links rounds q = some xs)
    (hx' : marked l.links rounds' q' = some xs') {a : Nat} (ha : a ∈ xs) (ha' : a ∈ xs') :
    q = q' ∧ c = c' := by
  have ht := targets_nodup h hn (linked h hl).1
  have he := reach_unique ht hq hq' (marked_reach .here hx a ha) (marked_reach .here hx' a ha')
  subst he
  cases target_unique ht hq hq' (a := q) rfl rfl
  exact ⟨rfl, rfl⟩

theorem parents_links {m : Msg} {n : Noted} {l : Linked} (hl : noteAndLink m = .ok (n, l)) :
    l.relations = n.relations ∧ ∀ q c, (q, c) ∈ n.parents ↔ (c, Link.sub q) ∈ l.links := by
  obtain ⟨l', h1, h2, h3⟩ := second_follows (note_of hl)
  rw [hl] at h1
  cases h1
  refine ⟨h2, fun q c => ?_⟩
  rw [← h3]
  simp only [subqueryLinks, List.mem_filterMap]
  constructor
  · rintro ⟨⟨c', lk⟩, g1, g2⟩
    cases lk <;> simp only [asParent, Option.some.injEq, Prod.mk.injEq, reduceCtorEq] at g2
    obtain ⟨rfl, rfl⟩ := g2
    exact g1
  · exact fun g => ⟨_, g, rfl⟩

/-- From every relation on the line of a subquery, a reference one step out leads to the relation the
subquery is used in.  Missing: the relations of the subquery that are not on the line. -/
theorem query_parent_partial {m : Msg} (h : Conforms m) {n : Noted} {l : Linked}
    (hl : noteAndLink m = .ok (n, l)) (hn : (shownIn m).Nodup) {c q : Nat}
    (hq : (c, Link.sub q) ∈ l.links) {xs : List Nat}
    (hx : marked l.links n.relations.length q = some xs) {a : Nat} (ha : a ∈ xs) :
    queryParent n l a = some c := by
  obtain ⟨hr, hp⟩ := parents_links hl
  have own : ownParent n q = some c := by
    unfold ownParent
    cases hL : (n.parents.filter fun p => p.1 = q).getLast? with
    | none =>
      have : (q, c) ∈ n.parents.filter fun p => p.1 = q :=
        List.mem_filter.mpr ⟨(hp q c).mpr hq, by simp⟩
      rw [List.getLast?_eq_none_iff.mp hL] at this
      cases this
    | some p =>
      obtain ⟨g1, g2⟩ := List.mem_filter.mp (List.mem_of_getLast? hL)
      obtain ⟨q', c'⟩ := p
      simp only [decide_eq_true_eq] at g2
      subst g2
      rw [(marks_disjoint h hl hn hq ((hp q' c').mp g1) hx hx (marked_self hx) (marked_self hx)).2]
      rfl
  by_cases haq : a = q
  · subst haq
    simp only [queryParent, own]
  · have none' : ownParent n a = none := by
      cases ho : ownParent n a with
      | none => rfl
      | some c' =>
        unfold ownParent at ho
        simp only [Option.map_eq_some_iff] at ho
        obtain ⟨⟨a', c''⟩, g1, rfl⟩ := ho
        obtain ⟨g2, g3⟩ := List.mem_filter.mp (List.mem_of_getLast? g1)
        simp only [decide_eq_true_eq] at g3
        subst g3
        have hs := (hp a' c'').mp g2
        obtain ⟨_, ys, _, _, _, _, hy⟩ := subquery_marked h hl hn hs
        exact absurd (marks_disjoint h hl hn hs hq hy hx (marked_self hy) ha).1 haq
    have start : startOf l a = some q := by
      unfold startOf
      rw [hr]
      cases hL : ((l.links.filterMap subOf).filter fun q =>
          a ∈ (marked l.links n.relations.length q).getD []).getLast? with
      | none =>
        have : q ∈ (l.links.filterMap subOf).filter fun q =>
            a ∈ (marked l.links n.relations.length q).getD [] :=
          List.mem_filter.mpr ⟨List.mem_filterMap.mpr ⟨_, hq, rfl⟩, by simp [hx, ha]⟩
        rw [List.getLast?_eq_none_iff.mp hL] at this
        cases this
      | some q' =>
        obtain ⟨g1, g2⟩ := List.mem_filter.mp (List.mem_of_getLast? hL)
        obtain ⟨⟨c', lk⟩, g3, g4⟩ := List.mem_filterMap.mp g1
        cases lk <;> simp only [subOf, Option.some.injEq, reduceCtorEq] at g4
        subst g4
        rename_i q'
        obtain ⟨_, ys, _, _, _, _, hy⟩ := subquery_marked h hl hn g3
        simp only [hy, Option.getD_some, decide_eq_true_eq] at g2
        rw [(marks_disjoint h hl hn g3 hq hy hx g2 ha).1]
    simp only [queryParent, none', start, Option.bind_some, own]

/-- From a relation that is on no such line, a reference one step out leads nowhere, even if the
relation is inside a subquery. -/
theorem query_parent_none {m : Msg} (h : Conforms m) {n : Noted} {l : Linked}
    (hl : noteAndLink m = .ok (n, l)) (hn : (shownIn m).Nodup) {a : Nat}
    (ha : ∀ c q xs, (c, Link.sub q) ∈ l.links → marked l.links n.relations.length q = some xs →
      a ∉ xs) : queryParent n l a = none := by
  obtain ⟨hr, hp⟩ := parents_links hl
  have none' : ownParent n a = none := by
    cases ho : ownParent n a with
    | none => rfl
    | some c' =>
      unfold ownParent at ho
      simp only [Option.map_eq_some_iff] at ho
      obtain ⟨⟨a', c''⟩, g1, rfl⟩ := ho
      obtain ⟨g2, g3⟩ := List.mem_filter.mp (List.mem_of_getLast? g1)
      simp only [decide_eq_true_eq] at g3
      subst g3
      have hs := (hp a' c'').mp g2
      obtain ⟨_, ys, _, _, _, _, hy⟩ := subquery_marked h hl hn hs
      exact absurd (marked_self hy) (ha _ _ _ hs hy)
  have start : startOf l a = none := by
    unfold startOf
    rw [hr, List.getLast?_eq_none_iff, List.filter_eq_nil_iff]
    intro q hq
    obtain ⟨⟨c', lk⟩, g3, g4⟩ := List.mem_filterMap.mp hq
    cases lk <;> simp only [subOf, Option.some.injEq, reduceCtorEq] at g4
    subst g4
    obtain ⟨_, ys, _, _, _, _, hy⟩ := subquery_marked h hl hn g3
    simp only [hy, Option.getD_some, decide_eq_true_eq]
    exact ha _ _ _ g3 hy
  simp only [queryParent, none', start, Option.bind_none]

/-! ## Plans -/

/-- The inner filter and its table belong to the first subquery, the table 7 to the second. -/
example : (shownIn nestedPlan).Nodup ∧ ∃ n l, noteAndLink nestedPlan = .ok (n, l) ∧
    (1, Link.sub 5) ∈ l.links ∧ marked l.links n.relations.length 5 = some [5, 6] ∧
    (5, Link.sub 7) ∈ l.links ∧ marked l.links n.relations.length 7 = some [7] := by
  refine ⟨by decide +kernel, ⟨[7, 6, 5, 3, 4, 2, 1], [(7, 5), (5, 1)]⟩,
    ⟨[7, 6, 5, 3, 4, 2, 1], [(1, .continuing (some 2)), (5, .continuing (some 6)), (5, .sub 7),
        (1, .sub 5), (2, .new (some 3)), (2, .new (some 4))]⟩, by decide +kernel, by decide, by decide,
    by decide, by decide⟩

/-- A subquery over a join: from the join a reference finds the filter around, from a filter below the
join it does not. -/
def joinedPlan : Msg :=
  planOf (relation 1 .filterRel (msg .filterRel [(.input, read 2), (.condition,
    scalarQuery [relation 3 .join (msg .joinRel [(.left, relation 4 .filterRel (msg .filterRel
      [(.input, read 5), (.condition, constant)])), (.right, read 6), (.expression, constant)])])]))

theorem below_join_lost : Conforms joinedPlan ∧ (shownIn joinedPlan).Nodup ∧
    ∃ n l, noteAndLink joinedPlan = .ok (n, l) ∧ (1, Link.sub 3) ∈ l.links ∧
      queryParent n l 3 = some 1 ∧ queryParent n l 4 = none := by
  refine ⟨?_, by decide +kernel, ⟨[5, 4, 6, 3, 2, 1], [(3, 1)]⟩,
    ⟨[5, 4, 6, 3, 2, 1], [(1, .continuing (some 2)), (3, .new (some 4)), (3, .new (some 6)),
      (4, .continuing (some 5)), (1, .sub 3)]⟩, by decide +kernel, by decide, by decide, by decide⟩
  simp [joinedPlan, planOf, relation, msg, fields, read, scalarQuery, constant, Conforms,
    ConformsF, allowed, oneof, Fields.toList, Msg.kind]

/-- Links that go round in a circle would keep the loop running; no plan has such links. -/
example : ∀ rounds, marked [(1, .continuing (some 1))] rounds 1 = none := by
  intro rounds
  induction rounds with
  | zero => rfl
  | succ k ih => simp [marked, continuing, written, ih]

end Verif.Trav
