import Verif.Prop.Results
import Verif.Prop.Renumber

/-!
# C77: plans with the same text are the same plan
-/

namespace Verif.Whole

open Verif Verif.Expr

/-- Both plans say what one plan says. -/
def SaySame (p q : Input) : Prop := ∃ b, SamePlan p b ∧ SamePlan q b

/-- They have the same root names, and the same tree of relations: the same but for the numbers of
functions. -/
theorem SaySame.names {p q : Input} (h : SaySame p q) : p.names = q.names := by
  obtain ⟨b, ⟨ρ, r, -, h1, -⟩, ρ', r', -, h2, -⟩ := h
  rw [h1] at h2
  simp only [List.cons.injEq, Prod.mk.injEq, and_true] at h2
  exact h2.1

/-- **C77** (`_partial`: for the plans that are `Expressible`).  If the texts of two plans are read
as the same plan - because they are the same text, or by C66, C67, C69, C70 and C71 - then the two
plans say the same. -/
theorem same_reading_partial (lib : Literal.Lib) (hl : lib.Numerals) (sort sort' : Ext.Sorter)
    (hs : Ext.Rearranges sort) (hs' : Ext.Rearranges sort') {p q : Input}
    (hp : Expressible lib p) (hq : Expressible lib q) {fuel : Nat}
    (hf : (owns p.rel).length ≤ fuel) (hg : (owns q.rel).length ≤ fuel) {s t : Str}
    (h1 : toText lib sort fuel p = .ok s) (h2 : toText lib sort' fuel q = .ok t)
    (h : fromText lib fuel s = fromText lib fuel t) : SaySame p q := by
  obtain ⟨x, b, a1, a2, a3⟩ := binary_text_binary_partial lib hl sort hs p hp fuel hf
  obtain ⟨y, c, b1, b2, b3⟩ := binary_text_binary_partial lib hl sort' hs' q hq fuel hg
  rw [h1] at a1
  rw [h2] at b1
  cases a1
  cases b1
  rw [a2, b2] at h
  cases h
  exact ⟨b, a3, b3⟩

/-- **C77** (`_partial`: for the plans that are `Expressible`).  Different plans have different
texts: plans with the same text say the same, and have the same results if they group by columns. -/
theorem same_text_partial (lib : Literal.Lib) (hl : lib.Numerals) (sort sort' : Ext.Sorter)
    (hs : Ext.Rearranges sort) (hs' : Ext.Rearranges sort') {p q : Input}
    (hp : Expressible lib p) (hq : Expressible lib q) {fuel : Nat}
    (hf : (owns p.rel).length ≤ fuel) (hg : (owns q.rel).length ≤ fuel)
    (h : toText lib sort fuel p = toText lib sort' fuel q) :
    SaySame p q ∧ p.names = q.names ∧
      ∀ {V : Type} [DecidableEq V] (m : Meaning V), m.Wide → m.Sorts →
        GroupsByColumns p.rel → GroupsByColumns q.rel → answers m p.binary = answers m q.binary := by
  obtain ⟨s, b, h1, -⟩ := binary_text_binary_partial lib hl sort hs p hp fuel hf
  have ha := same_reading_partial lib hl sort sort' hs hs' hp hq hf hg h1 (h ▸ h1) rfl
  refine ⟨ha, ha.names, ?_⟩
  intro V _ m hw hm gp gq
  obtain ⟨b, a1, a2⟩ := ha
  rw [← answers_same m hw hm hp gp a1, ← answers_same m hw hm hq gq a2]

/-- Non-vacuity: two different plans with the same text. -/
example : sampleInput.functions ≠ (renumberPlan otherNumbers (· + 1) sampleInput).functions ∧
    toText sampleLib id 8 (renumberPlan otherNumbers (· + 1) sampleInput) =
      toText sampleLib id 8 sampleInput ∧ Expressible sampleLib sampleInput :=
  ⟨by decide +kernel, renumber_text otherNumbers_distinct (moved_distinct 1) _ _ _ _,
    sampleInput_expressible⟩

/-- Plans that say different things, and have different texts. -/
example : toText sampleLib id 13 sampleInput ≠ toText sampleLib id 13 sampleQueries := by
  intro h
  have e : (textOf (toText sampleLib id 13 sampleInput)).length ≠
      (textOf (toText sampleLib id 13 sampleQueries)).length := by decide +kernel
  exact e (by rw [h])

/-! ### Plans that text cannot express -/

/-- A read of a column that has a name but no type. -/
def untyped (name : String) : Input where
  uris := []
  functions := []
  names := []
  rel := .node ⟨.read none none none none false, [], some ⟨[name.toList], none⟩,
    some (.named ["t".toList])⟩ []

/-- **C77** (violated for other plans).  Plans with different columns can have the same text: columns
without a type are not printed. -/
theorem different_plans_same_text :
    isOk (toText sampleLib id 2 (untyped "a")) = true ∧
    toText sampleLib id 2 (untyped "a") = toText sampleLib id 2 (untyped "b") ∧
    ¬ SaySame (untyped "a") (untyped "b") := by
  refine ⟨by decide +kernel, by decide +kernel, ?_⟩
  rintro ⟨b, ⟨ρ, r, -, h1, h2⟩, ρ', r', -, h3, h4⟩
  rw [h1] at h3
  simp only [List.cons.injEq, Prod.mk.injEq, and_true] at h3
  obtain ⟨-, rfl⟩ := h3
  cases r with
  | node o kids =>
    simp only [untyped, Same] at h2 h4
    have := h2.2.2.1.symm.trans h4.2.2.1
    simp at this

end Verif.Whole
