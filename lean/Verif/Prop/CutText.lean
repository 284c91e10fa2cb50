import Verif.Lemmas.BracesCut
import Verif.Lemmas.CutText
import Verif.Prop.Braces

/-!
# C84: a text plan that was cut off anywhere

C83 is about texts that are cut between tokens.  A text can be cut at any character.
-/

namespace Verif.Braces

open Verif Lex Sec

/-- What C84 says of a text and the start of it. -/
def CutBetween (start rest : Str) (more fewer : List PlanDetail) : Prop :=
  ∃ p r, lex start = some p ∧ lex (start ++ rest) = some (p ++ r) ∧ fewer.length ≤ more.length ∧
    Sections (more.length - fewer.length) r

/-- **C84, without escaped quotation marks and backticks.**  If a text and a start of it, of any
length, are both without syntax errors, then it is cut between two sections: the tokens of the start are
the first tokens of the text, and the other tokens are the sections that are missing. -/
theorem cut_anywhere_partial {start rest : Str} {ds cs : List PlanDetail} (h : Clean start)
    (hd : detailsOf (start ++ rest) = some ds) (hc : detailsOf start = some cs) :
    CutBetween start rest ds cs := by
  obtain ⟨ts, ht, hs⟩ := text_sections hd
  obtain ⟨p, hp, hs'⟩ := text_sections hc
  rcases lexM_cut start.length .default start rest p ts (Nat.le_refl _) h ht hp with
    ⟨r, rfl⟩ | ⟨hne, hl⟩
  · exact ⟨p, r, hp, ht, sections_rest hs' hs⟩
  · cases hg : p.getLast? with
    | none => exact absurd (List.getLast?_eq_none_iff.mp hg) hne
    | some t => exact absurd (sections_last hs' t hg) (hl t hg)

/-- The start of a text with an escaped quotation mark, and the rest. -/
def escaped : Str × Str := ("source named_table t { names = [\"a\\\"] }".toList, " b\"] }".toList)

/-- The same with backticks. -/
def ticked : Str × Str := ("source named_table t { names = [```a``] }".toList, "```] }".toList)

/-- A text and a start of it are taken, but the start ends inside of a token. -/
def takenInside (x : Str × Str) : Bool :=
  (detailsOf (x.1 ++ x.2)).isSome && (detailsOf x.1).isSome &&
    (match lex x.1, lex (x.1 ++ x.2) with
      | some p, some ts => decide (ts.take p.length ≠ p)
      | _, _ => false)

theorem takenInside_fails {x : Str × Str} (h : takenInside x = true) :
    ∃ ds cs, detailsOf (x.1 ++ x.2) = some ds ∧ detailsOf x.1 = some cs ∧
      ¬ CutBetween x.1 x.2 ds cs := by
  unfold takenInside at h
  simp only [Bool.and_eq_true, Option.isSome_iff_exists] at h
  obtain ⟨⟨⟨ds, hd⟩, cs, hc⟩, ht⟩ := h
  refine ⟨ds, cs, hd, hc, ?_⟩
  rintro ⟨p, r, h1, h2, _⟩
  rw [h1, h2] at ht
  simp at ht

/-- **C84 is false as stated.**  A text that is cut inside a string with an escaped quotation mark, or
in backticks, can be taken as a plan with another string. -/
theorem cut_anywhere_fails : (∀ x ∈ [escaped, ticked], ∃ ds cs, detailsOf (x.1 ++ x.2) = some ds ∧
    detailsOf x.1 = some cs ∧ ¬ CutBetween x.1 x.2 ds cs) := by
  intro x hx
  apply takenInside_fails
  revert x
  decide +kernel

/-! ## Examples -/

instance (s : Str) : Decidable (Clean s) := inferInstanceAs (Decidable (_ ∧ _))

/-- Cuts of the plan with three sections: between two of them, in a comment behind one. -/
example : Clean (samplePlan.toList.take 25) ∧
    (detailsOf (samplePlan.toList.take 25 ++ samplePlan.toList.drop 25)).map List.length = some 3 ∧
    (detailsOf (samplePlan.toList.take 25)).map List.length = some 1 := by decide +kernel

example : (detailsOf "root { names = [a] } // a comm".toList).map List.length = some 1 := by
  decide +kernel

end Verif.Braces
