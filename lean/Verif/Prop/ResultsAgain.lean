import Verif.Prop.Results
import Verif.Prop.WholeAgain

/-! # C65: the results of a plan that goes through text again and again -/

namespace Verif.Whole

open Verif Verif.TyPb Verif.Expr Verif.Schema

/-- **C65, the results** (`_partial`: for the plans that are `Expressible` and group by columns).
However often a plan is sent through text, something comes out, and all that comes out has the
results of the plan one began with. -/
theorem results_again_partial {V : Type} [DecidableEq V] (m : Meaning V) (hw : m.Wide)
    (hs : m.Sorts) (lib : Literal.Lib) (hl : lib.Numerals) (sort : Ext.Sorter)
    (hr : Ext.Rearranges sort) (p : Input) (h : Expressible lib p) (hg : GroupsByColumns p.rel)
    (fuel : Nat) (hf : (owns p.rel).length ≤ fuel) (n : Nat) :
    (∃ q, Trips lib sort fuel n p q) ∧
      ∀ q, Trips lib sort fuel n p q → answers m q.binary = answers m p.binary := by
  cases n with
  | zero =>
    refine ⟨⟨p, .none p⟩, fun q hq => ?_⟩
    cases hq
    rfl
  | succ n =>
    obtain ⟨q, h1, h2, -⟩ := again_and_again_partial lib hl sort hr n p h fuel hf
    refine ⟨⟨q, h1⟩, fun q' hq => ?_⟩
    rw [Trips.same h1 hq]
    exact answers_same m hw hs h hg h2

/-- Non-vacuity. -/
example (n : Nat) : (∃ q, Trips sampleLib insertSort 8 n sampleInput q) ∧
    ∀ q, Trips sampleLib insertSort 8 n sampleInput q →
      answers sampleMeaning q.binary = answers sampleMeaning sampleInput.binary :=
  results_again_partial sampleMeaning sampleMeaning_wide sampleMeaning_sorts sampleLib
    sampleLib_numerals insertSort insertSort_sorts.same sampleInput sampleInput_expressible
    (groups_of (by decide)) 8 (by decide) n

end Verif.Whole
