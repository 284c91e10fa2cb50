import Verif.Lemmas.Scopes
import Verif.Prop.Traverse

/-!
# C85: a visitor of a binary plan always knows which relation it is in

The visitors keep the relation they are in in a member that they change on the way.  Whatever the
plan, and however the visit of any part of it ends, this gives the same as if every function were
told its relation, and the visitor is afterwards where it was before.
-/

namespace Verif.Scope

open Verif Verif.Trav

/-- A visitor with members does what one does that is told the relation it is in.  After a normal
return and after an exception its place is as it was; and nothing is undefined that was not. -/
theorem scope_member {σ : Type} (stack : Bool) (h : Hooks σ) (m : Msg) (v : Visitor σ) :
    (∀ s, Trav.visit h m v.scope v.data = .ok s →
      visit stack h m v = (.ok (), ⟨v.scope, v.outer, s⟩)) ∧
    (∀ e, Trav.visit h m v.scope v.data = .throw e →
      ∃ d, visit stack h m v = (.throw e, ⟨v.scope, v.outer, d⟩)) ∧
    (Trav.visit h m v.scope v.data = .ub → (visit stack h m v).1 = .ub) := by
  have := visit_agrees stack h m v
  refine ⟨fun s hs => ?_, fun e he => ?_, fun hu => ?_⟩
  · rw [hs] at this; exact this
  · rw [he] at this; exact this
  · rw [hu] at this; exact this

/-- However a visit ends, the members are as before. -/
theorem place_restored {σ : Type} (stack : Bool) (h : Hooks σ) (m : Msg) (v : Visitor σ)
    (hd : (visit stack h m v).1 ≠ .ub) :
    (visit stack h m v).2.scope = v.scope ∧ (visit stack h m v).2.outer = v.outer := by
  obtain ⟨h1, h2, h3⟩ := scope_member stack h m v
  cases ho : Trav.visit h m v.scope v.data with
  | ok s => rw [h1 s ho]; exact ⟨rfl, rfl⟩
  | throw e =>
    obtain ⟨d, hr⟩ := h2 e ho
    rw [hr]
    exact ⟨rfl, rfl⟩
  | ub => exact absurd (h3 ho) hd

/-- The vector of the relations around is never popped when it is empty, and it makes no
difference whether a visitor keeps it. -/
theorem outer_unused {σ : Type} (h : Hooks σ) (m : Msg) (v : Visitor σ) :
    (visit true h m v).1 = (visit false h m v).1 ∧
      ∀ s, visit false h m v = (.ok (), s) → visit true h m v = (.ok (), s) := by
  obtain ⟨h1, h2, h3⟩ := scope_member true h m v
  obtain ⟨g1, g2, g3⟩ := scope_member false h m v
  cases ho : Trav.visit h m v.scope v.data with
  | ok s => rw [h1 s ho, g1 s ho]; exact ⟨rfl, fun _ h => h⟩
  | throw e =>
    obtain ⟨d, hr⟩ := h2 e ho
    obtain ⟨d', hr'⟩ := g2 e ho
    rw [hr, hr']
    exact ⟨rfl, fun s hs => by simp at hs⟩
  | ub =>
    rw [h3 ho, g3 ho]
    exact ⟨rfl, fun s hs => absurd (g3 ho) (by rw [hs]; simp)⟩

/-- So the parent the first visitor notes for a subquery is the innermost relation around it, in
whichever order relations are entered and left, and the visitor ends outside of all relations. -/
theorem parents_innermost {m : Msg} (h : Conforms m) {w : Visitor Noted}
    (hw : visit true first m (fresh ⟨[], []⟩) = (.ok (), w)) :
    w.data.parents.Perm (parentsIn none m) ∧ w.data.relations.Perm (shownIn m) ∧
      w.scope = none ∧ w.outer = [] := by
  obtain ⟨h1, h2, h3⟩ := scope_member true first m (fresh ⟨[], []⟩)
  cases ho : Trav.visit first m none ⟨[], []⟩ with
  | ok n =>
    have h4 := h1 n ho
    rw [hw] at h4
    simp only [Prod.mk.injEq, true_and] at h4
    subst h4
    obtain ⟨a, _, b⟩ := noted h (n := n) ho
    exact ⟨b, a, rfl, rfl⟩
  | throw e =>
    obtain ⟨d, hr⟩ := h2 e ho
    rw [hw] at hr
    simp at hr
  | ub =>
    have := h3 ho
    rw [hw] at this
    simp at this

/-! ## Plans -/

/-- A plan with a subquery inside a subquery. -/
example : visit true first nestedPlan (fresh ⟨[], []⟩) =
    (.ok (), ⟨none, [], ⟨[7, 6, 5, 3, 4, 2, 1], [(7, 5), (5, 1)]⟩⟩) := by rfl

/-- A filter in whose subquery a relation says nothing. -/
def brokenFilter : Msg :=
  relation 1 .filterRel (msg .filterRel
    [(.input, read 2), (.condition, scalarQuery [relation 3 .filterRel (msg .filterRel
      [(.input, .node .rel 4 .nil), (.condition, scalarQuery [read 5])])])])

/-- The exception leaves from inside three relations and a subquery; the subquery before it has its
symbol and its parent, and the visitor is where it was. -/
theorem broken_restored : visit true first brokenFilter ⟨some (read 9), [none], ⟨[], []⟩⟩ =
    (.throw .other, ⟨some (read 9), [none], ⟨[5], [(5, 3)]⟩⟩) := by rfl

end Verif.Scope
