import Verif.Lemmas.TraverseLink

/-!
# C64: the way through a binary plan

A binary plan is read by two visitors.  The first gives every relation a symbol and remembers
the relation in which a subquery is used; the second links the symbols.  For every plan that
follows algebra.proto: which relations get a symbol, in which order, with which parent and which
links, which plans are refused, and which let the first visitor use a null pointer.
-/

namespace Verif.Trav

open Verif

/-- The first visitor gets through a plan exactly if every message it looks at says something. -/
theorem passes_iff_complete {m : Msg} (h : Conforms m) (hk : m.kind = .plan) :
    (∃ n, note m = .ok n) ↔ Complete m := by
  constructor
  · rintro ⟨n, hn⟩
    exact complete_of_ok m h none _ n hn
  · intro hc
    exact ok_of_complete m h hc none (.inr (by rw [hk]; decide)) _

/-- It never uses a null pointer if all subqueries have relations. -/
theorem answered_no_null {m : Msg} (h : Conforms m) (hk : m.kind = .plan) (ha : Answered m) :
    note m ≠ .ub :=
  not_ub m h ha none (.inr (by rw [hk]; decide)) _

/-- The symbols are those of the relations that are not below a missed field: each as often as it is
there, each right after the symbols of the relations inside it.  The parent of every subquery is the
innermost relation around it. -/
theorem noted {m : Msg} (h : Conforms m) {n : Noted} (hn : note m = .ok n) :
    n.relations.Perm (shownIn m) ∧ Ordered n.relations m ∧ n.parents.Perm (parentsIn none m) := by
  obtain ⟨l, ps, rfl, h1, h2, h3⟩ := notes_all m h none _ n hn
  simp only [List.nil_append]
  exact ⟨h1, h3, h2⟩

/-- Every relation gets a symbol, and exactly one if addresses are different.  Missing: plans in which
a field that is not visited holds a relation. -/
theorem every_relation_noted_partial {m : Msg} (h : Conforms m) (hs : Shown m) {n : Noted}
    (hn : note m = .ok n) :
    n.relations.Perm (relationsIn m) ∧ ((relationsIn m).Nodup → n.relations.Nodup) := by
  have := (noted h hn).1
  rw [shown_all m hs] at this
  exact ⟨this, fun hd => this.symm.nodup hd⟩

/-- After the first visitor, the second one never fails, whatever the plan.  It links the subqueries in
the order in which the first one gave them their parents. -/
theorem second_follows {m : Msg} {n : Noted} (hn : note m = .ok n) :
    ∃ l, noteAndLink m = .ok (n, l) ∧ l.relations = n.relations ∧
      subqueryLinks l.links = n.parents := by
  obtain ⟨_, p, hp, h⟩ := follows_all m none _ n hn
  obtain ⟨t, h1, h2, h3⟩ := h ⟨n.relations, []⟩ fun _ h => h
  exact ⟨t, by simp only [noteAndLink, hn, Outcome.bind, h1, Outcome.map], h2, by rw [h3, hp]; rfl⟩

/-- The links are those of the relations to their inputs and to the subqueries in their expressions,
and there are no others; the links to the inputs of one relation stand together, in order. -/
theorem linked {m : Msg} (h : Conforms m) {n : Noted} {l : Linked}
    (hl : noteAndLink m = .ok (n, l)) : l.links.Perm (linksIn none m) ∧ Inputs l.links m := by
  unfold noteAndLink at hl
  obtain ⟨n', h1, h2⟩ := bind_ok hl
  cases hv : visit second m none ⟨n'.relations, []⟩ with
  | ok t =>
    rw [hv] at h2
    simp only [Outcome.map, Outcome.ok.injEq, Prod.mk.injEq] at h2
    obtain ⟨rfl, rfl⟩ := h2
    have hp := (noted h h1).1
    obtain ⟨k, rfl, h3, h4⟩ := links_all m h none _ t hv fun x hx => hp.mem_iff.mpr hx
    exact ⟨by simpa using h3, by simpa using h4⟩
  | throw e => rw [hv] at h2; cases h2
  | ub => rw [hv] at h2; cases h2

/-! ## Plans -/

def fields : List (Label × Msg) → Fields
  | [] => .nil
  | (l, m) :: r => .cons l m (fields r)

/-- A message without an address that matters. -/
def msg (k : Kind) (l : List (Label × Msg)) : Msg := .node k 0 (fields l)

def relation (loc : Nat) (l : Label) (m : Msg) : Msg := .node .rel loc (fields [(l, m)])

def read (loc : Nat) : Msg :=
  relation loc .read (msg .readRel [(.namedTable, msg .leaf [])])

def constant : Msg := msg .expression [(.literal, msg .literal [(.plain, msg .leaf [])])]

def inQuery (needles : List Msg) (haystack : Msg) : Msg :=
  msg .expression [(.subquery, msg .subquery [(.inPredicate,
    msg .subqueryIn ((needles.map fun n => (.needles, n)) ++ [(.haystack, haystack)]))])]

def scalarQuery (input : List Msg) : Msg :=
  msg .expression [(.subquery, msg .subquery [(.scalar,
    msg .subqueryScalar (input.map fun i => (.input, i)))])]

def planOf (m : Msg) : Msg :=
  msg .plan [(.relations, msg .planRel [(.root, msg .relRoot [(.input, m)])])]

/-- A filter over a join; its condition has two subqueries, one inside the other. -/
def nestedPlan : Msg :=
  planOf (relation 1 .filterRel (msg .filterRel
    [(.input, relation 2 .join (msg .joinRel [(.left, read 3), (.right, read 4), (.expression, constant)])),
      (.condition, inQuery [constant] (relation 5 .filterRel (msg .filterRel
        [(.input, read 6), (.condition, scalarQuery [read 7])])))]))

/-- A subquery in a needle of another subquery. -/
def needlePlan : Msg :=
  planOf (relation 1 .filterRel (msg .filterRel
    [(.input, read 2), (.condition, inQuery [scalarQuery [read 3]] (read 4))]))

/-- A subquery without a relation. -/
def unansweredPlan : Msg :=
  planOf (relation 1 .filterRel (msg .filterRel [(.input, read 2), (.condition, scalarQuery [])]))

/-- The statement for all plans fails: a relation in a needle gets no symbol, although both visitors
get through. -/
theorem needle_not_noted : ∃ m n l, Conforms m ∧ m.kind = .plan ∧ noteAndLink m = .ok (n, l) ∧
    3 ∈ relationsIn m ∧ 3 ∉ n.relations := by
  refine ⟨needlePlan, ⟨[4, 2, 1], [(4, 1)]⟩,
    ⟨[4, 2, 1], [(1, .continuing (some 2)), (1, .sub 4)]⟩, ?_, rfl, by rfl, by decide, by decide⟩
  simp [needlePlan, planOf, relation, msg, fields, read, inQuery, scalarQuery, Conforms, ConformsF,
    allowed, oneof, Fields.toList, Msg.kind]

/-- A subquery without a relation lets the first visitor use a null pointer. -/
theorem unanswered_null : ∃ m, Conforms m ∧ m.kind = .plan ∧ note m = .ub := by
  refine ⟨unansweredPlan, ?_, rfl, by rfl⟩
  simp [unansweredPlan, planOf, relation, msg, fields, read, scalarQuery, Conforms, ConformsF,
    allowed, oneof, Fields.toList, Msg.kind]

/-- The hypotheses hold for a plan with nested subqueries, and this is what becomes of it. -/
theorem nestedPlan_conforms : Conforms nestedPlan := by
  simp [nestedPlan, planOf, relation, msg, fields, read, inQuery, scalarQuery, constant, Conforms,
    ConformsF, allowed, oneof, Fields.toList, Msg.kind]

theorem nestedPlan_shown : Shown nestedPlan := by
  simp [nestedPlan, planOf, relation, msg, fields, read, inQuery, scalarQuery, constant, Shown, ShownF,
    missed, relationsIn, relationsF]

example : Conforms nestedPlan ∧ Shown nestedPlan ∧ nestedPlan.kind = .plan ∧
    noteAndLink nestedPlan = .ok (⟨[7, 6, 5, 3, 4, 2, 1], [(7, 5), (5, 1)]⟩,
      ⟨[7, 6, 5, 3, 4, 2, 1], [(1, .continuing (some 2)), (5, .continuing (some 6)), (5, .sub 7),
        (1, .sub 5), (2, .new (some 3)), (2, .new (some 4))]⟩) :=
  ⟨nestedPlan_conforms, nestedPlan_shown, rfl, by decide +kernel⟩

example : Complete nestedPlan :=
  (passes_iff_complete nestedPlan_conforms rfl).mp ⟨_, show note nestedPlan = .ok _ from rfl⟩

end Verif.Trav
