import Verif.Prop.Whole

/-! # C62: the names of expressions the text does not name -/

namespace Verif.Whole

open Verif

/-- The names that one pass makes up for all relations, in the order of the text. -/
def freshAll (first : Bool) : Counters → List Rel.RelTree → List Str
  | _, [] => []
  | u, t :: ts =>
    ((freshOf first u t).2.filter fun n => !n.isEmpty) ++ freshAll first (freshOf first u t).1 ts

theorem unique_filled (u : Counters) (q : List Str) (h : Counted u q) (b : Str) (hb : b ≠ []) :
    (!(u.getUniqueName b).2.isEmpty) = true := by
  have : (u.getUniqueName b).2 ≠ [] := by
    rw [h.name]
    unfold Sym.uniqueText
    split <;> simp [hb]
  simpa using this

theorem intermediate_filled : intermediate ≠ [] := by decide

theorem fresh_made : ∀ (ds : List Rel.Detail) (u : Counters),
    Made u (freshNames u ds).1 ((freshNames u ds).2.filter fun n => !n.isEmpty)
  | [], u => Made.nil u
  | d :: ds, u => by
    unfold freshNames
    split
    · cases ‹_ = _›
    · next e ds' h =>
      cases h
      intro q hq
      have := ((Made.one u (b := intermediate) (by decide)).append (fresh_made ds _)) q hq
      rw [List.filter_cons, unique_filled u q hq _ intermediate_filled]
      exact this
    · next h =>
      cases h
      simpa using fresh_made ds u
    · next h =>
      cases h
      exact fresh_made ds u

theorem freshOf_made (first : Bool) (u : Counters) (t : Rel.RelTree) :
    Made u (freshOf first u t).1 ((freshOf first u t).2.filter fun n => !n.isEmpty) := by
  unfold freshOf
  split
  · exact fresh_made _ u
  · exact Made.nil u

theorem freshAll_made (first : Bool) : ∀ (ts : List Rel.RelTree) (u : Counters),
    ∃ v, Made u v (freshAll first u ts)
  | [], u => ⟨u, Made.nil u⟩
  | t :: ts, u => by
    obtain ⟨v, hv⟩ := freshAll_made first ts (freshOf first u t).1
    exact ⟨v, (freshOf_made first u t).append hv⟩

/-- **C62**: expressions without a name get names that differ from each other, in all relations of
a text. -/
theorem fresh_distinct (first : Bool) (ts : List Rel.RelTree) :
    (freshAll first Sym.Table.empty ts).Nodup := by
  obtain ⟨v, hv⟩ := freshAll_made first ts Sym.Table.empty
  obtain ⟨bs, h1, h2, _⟩ := hv [] counted_empty
  rw [h2]
  exact issued_nodup bs [] fun b hb => List.mem_of_mem_tail (h1 b hb)

/-- A project with two expressions without a name, one of them with a name between. -/
def freshTree : Rel.RelTree :=
  ⟨"project".toList, ⟨"p".toList, none⟩,
    [.expression (.column none "a".toList) none,
      .expression (.column none "a".toList) (some "x".toList),
      .expression (.column none "a".toList) none]⟩

/-- Non-vacuity: the names of two such projects. -/
example : freshAll true Sym.Table.empty [freshTree, freshTree] =
    ["intermediate", "intermediate2", "intermediate3", "intermediate4"].map String.toList := by
  decide +kernel

end Verif.Whole
