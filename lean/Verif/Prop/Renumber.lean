import Verif.Lemmas.RenumberPlan
import Verif.Prop.Whole

/-! # C72: the numbers of URIs and functions in a binary plan -/

namespace Verif.Whole

open Verif Verif.Expr

/-- **C72.**  The numbers that a binary plan gives to its URIs and functions do not matter: with other
ones, different for different ones, it is the same text or is refused in the same way. -/
theorem renumber_text {σ τ : Nat → Nat} (hσ : Distinct σ) (hτ : Distinct τ) (lib : Literal.Lib)
    (sort : Ext.Sorter) (fuel : Nat) (p : Input) :
    toText lib sort fuel (renumberPlan σ τ p) = toText lib sort fuel p :=
  toText_num hσ hτ lib sort fuel p

/-- **C72, there and back.**  Whatever the numbers are, the plan that is read from the text is the
same, with the numbers of the reader. -/
theorem renumber_trip (lib : Literal.Lib) (hl : lib.Numerals) (sort : Ext.Sorter)
    (hs : Ext.Rearranges sort) (p : Input) (h : Expressible lib p) (fuel : Nat)
    (hf : (owns p.rel).length ≤ fuel) :
    ∃ b, SamePlan p b ∧ ∀ σ τ, Distinct σ → Distinct τ →
      ∃ text, toText lib sort fuel (renumberPlan σ τ p) = .ok text ∧
        fromText lib fuel text = some (.ok b) := by
  obtain ⟨text, b, h1, h2, h3⟩ := binary_text_binary_partial lib hl sort hs p h fuel hf
  exact ⟨b, h3, fun σ τ hσ hτ => ⟨text, by rw [renumber_text hσ hτ, h1], h2⟩⟩

/-! ### Non-vacuity -/

/-- 7 and 9 are exchanged, and the others are made larger. -/
def otherNumbers (n : Nat) : Nat := if n = 7 then 9 else if n = 9 then 7 else n + 10

theorem otherNumbers_distinct : Distinct otherNumbers := by
  unfold Distinct otherNumbers
  intro a b h
  grind

theorem moved_distinct (k : Nat) : Distinct (· + k) := fun h => Nat.add_right_cancel h

example : (renumberPlan otherNumbers (· + 1) sampleInput).functions =
      [⟨9, "equal:i32_i32".toList, 4⟩, ⟨7, "add:i32_i32".toList, 5⟩, ⟨15, "sum:i32".toList, 5⟩] ∧
    (renumberPlan otherNumbers (· + 1) sampleInput).uris =
      [⟨"/f.yaml".toList, 4⟩, ⟨"/g.yaml".toList, 5⟩] ∧
    ∃ text, toText sampleLib id 8 (renumberPlan otherNumbers (· + 1) sampleInput) = .ok text ∧
      toText sampleLib id 8 sampleInput = .ok text := by
  obtain ⟨b, -, h⟩ := renumber_trip sampleLib sampleLib_numerals id (fun _ => List.Perm.refl _) sampleInput
    sampleInput_expressible 8 (by decide +kernel)
  obtain ⟨text, h1, -⟩ := h _ _ otherNumbers_distinct (moved_distinct 1)
  refine ⟨by decide +kernel, by decide +kernel, text, h1, ?_⟩
  rw [← h1, renumber_text otherNumbers_distinct (moved_distinct 1)]

/-! ### The same number twice -/

/-- One number for two functions. -/
def sevenTwice (n : Nat) : Nat := if n = 9 then 7 else n

def isOk {α : Type} : Outcome α → Bool
  | .ok _ => true
  | _ => false

def textOf : Outcome Str → Str
  | .ok s => s
  | _ => []

set_option maxRecDepth 10000 in
/-- A plan in which two functions have the same number is not refused: the first one takes the place of
the second, without a report. -/
theorem number_twice :
    isOk (toText sampleLib id 8 (renumberPlan sevenTwice id sampleInput)) = true ∧
      toText sampleLib id 8 (renumberPlan sevenTwice id sampleInput) ≠ toText sampleLib id 8 sampleInput := by
  have h : isOk (toText sampleLib id 8 (renumberPlan sevenTwice id sampleInput)) = true ∧
      (textOf (toText sampleLib id 8 (renumberPlan sevenTwice id sampleInput))).length ≠
        (textOf (toText sampleLib id 8 sampleInput)).length := by decide +kernel
  exact ⟨h.1, fun he => h.2 (by rw [he])⟩

end Verif.Whole
