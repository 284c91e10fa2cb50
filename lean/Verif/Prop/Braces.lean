import Verif.Lemmas.BracesCut

/-!
# C83: a text plan is a row of sections in braces

Whatever the text: if it has no syntax error, its tokens are sections one after the other, each of
them closed.  So a plan that was cut off inside a section is refused.
-/

namespace Verif.Braces

open Verif Lex Sec

/-- **C83.**  A text without syntax errors is a row of closed sections, one for each of its details. -/
theorem text_sections {text : Str} {ds : List PlanDetail} (h : detailsOf text = some ds) :
    ∃ ts, lex text = some ts ∧ Sections ds.length ts := by
  unfold detailsOf at h
  cases hl : lex text with
  | none => rw [hl] at h; simp at h
  | some ts =>
    rw [hl] at h
    exact ⟨ts, rfl, parsePlan_sections _ ts ds h⟩

/-- **C83.**  A text with more opening than closing braces, or with fewer, is refused. -/
theorem unbalanced_refused {text : Str} {ts : List Token} (hl : lex text = some ts)
    (h : countOf .leftBrace ts ≠ countOf .rightBrace ts) : detailsOf text = none := by
  cases hd : detailsOf text with
  | none => rfl
  | some ds =>
    obtain ⟨us, hu, hs⟩ := text_sections hd
    rw [hl, Option.some.injEq] at hu
    subst hu
    exact absurd (paired_counts (sections_paired hs)) h

/-- **C83.**  A text that ends with anything but a closing brace is refused. -/
theorem open_end_refused {text : Str} {ts : List Token} {t : Token} (hl : lex text = some ts)
    (ht : ts.getLast? = some t) (h : t.kind ≠ .rightBrace) : detailsOf text = none := by
  cases hd : detailsOf text with
  | none => rfl
  | some ds =>
    obtain ⟨us, hu, hs⟩ := text_sections hd
    rw [hl, Option.some.injEq] at hu
    subst hu
    exact absurd (sections_last hs t ht) h

/-- **C83.**  If a text and the start of it are both without syntax errors, the cut is between two
sections: what was cut off is a row of sections too, one for each detail that is missing. -/
theorem cut_between {text cut : Str} {ts p rest : List Token} {ds cs : List PlanDetail}
    (hl : lex text = some ts) (hc : lex cut = some p) (hp : ts = p ++ rest)
    (hd : detailsOf text = some ds) (hcd : detailsOf cut = some cs) :
    cs.length ≤ ds.length ∧ Sections (ds.length - cs.length) rest := by
  obtain ⟨us, hu, hs⟩ := text_sections hd
  obtain ⟨vs, hv, hs'⟩ := text_sections hcd
  rw [hl, Option.some.injEq] at hu
  rw [hc, Option.some.injEq] at hv
  subst hu hv hp
  exact sections_rest hs' hs

/-- **C83.**  A text that ends inside a section is refused. -/
theorem cut_refused {cut : Str} {a u v : List Token} {n : Nat} (ha : Sections n a)
    (hs : Section (u ++ v)) (hu : u ≠ []) (hv : v ≠ []) (hc : lex cut = some (a ++ u)) :
    detailsOf cut = none := by
  cases hd : detailsOf cut with
  | none => rfl
  | some ds =>
    obtain ⟨ts, ht, h⟩ := text_sections hd
    rw [hc, Option.some.injEq] at ht
    subst ht
    obtain ⟨_, h⟩ := sections_rest ha h
    generalize ds.length - n = k at h
    cases h with
    | none => exact absurd rfl hu
    | @more _ s r hs' _ =>
      rw [List.append_assoc] at hs
      have e := section_unique hs hs' (y := []) (y' := r ++ v) (by simp)
      have := e.2
      simp only [List.nil_eq, List.append_eq_nil_iff] at this
      exact absurd this.2 hv

/-! ## Examples -/

/-- A plan of three sections, with braces within braces. -/
def samplePlan : String :=
  "schema s { a list<i64>; } source local_files f { items = [ { uri_file: \"x\" orc: { } } ] } " ++
    "root { names = [a] }"

example : (detailsOf samplePlan.toList).map List.length = some 3 := by decide +kernel

/-- It may be cut between sections, down to nothing. -/
example : (detailsOf (samplePlan.toList.take 25)).map List.length = some 1 ∧
    (detailsOf []).map List.length = some 0 := by decide +kernel

/-- The text that is cut inside its second section is refused: two braces are open. -/
example : (lex (samplePlan.toList.take 60)).map
    (fun ts => (countOf .leftBrace ts, countOf .rightBrace ts)) = some (3, 1) := by decide +kernel

/-- So is the one that is cut in the words of its third. -/
example : (lex (samplePlan.toList.take 94)).map
    (fun ts => (ts.getLast?.map Token.kind, ts.length)) = some (some .root, 29) := by decide +kernel

end Verif.Braces
