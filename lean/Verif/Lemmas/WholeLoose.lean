import Verif.Lemmas.WholeExpr

/-! # Trees that text can express, whatever is around their relations -/

namespace Verif.Whole

open Verif Verif.TyPb Verif.Literal Verif.Expr

variable {lib : Lib} {fn : Known} {outer : Nat → Int → Prop}

/-- Where all fields around may be mentioned. -/
abbrev Known.free (fn : Known) : Known := fn.seeing fun _ _ => True

theorem saidOpt_more {ref : Int → Prop} (ho : ∀ k n, fn.outer k n → outer k n)
    {e : Option PbExpr} (h : SaidOpt lib fn ref e) : SaidOpt lib (fn.seeing outer) ref e :=
  fun x hx => said_more (fun _ h => h) ho x (h x hx)

theorem measureFits_more {ref : Int → Prop} (ho : ∀ k n, fn.outer k n → outer k n)
    {m : Rel.PbMeasure} (h : MeasureFits lib fn ref m) : MeasureFits lib (fn.seeing outer) ref m := by
  obtain ⟨⟨f, h1, h2, h3, h4, h5⟩, h6⟩ := h
  exact ⟨⟨f, h1, h2, h3, toldArgs_more (fun _ h => h) ho _ h4, h5⟩, saidOpt_more ho h6⟩

/-- A body that fits with less around it fits with more. -/
theorem bodyFits_more (ho : ∀ k n, fn.outer k n → outer k n) {f : List Bool} {emit : List Int}
    {b : Rel.Body} (h : BodyFits lib fn f emit b) : BodyFits lib (fn.seeing outer) f emit b := by
  unfold BodyFits at h
  split at h
  · exact ⟨h.1, saidOpt_more ho h.2⟩
  · exact ⟨h.1, saidOpt_more ho h.2⟩
  · exact h
  · refine ⟨h.1, fun s hs => ⟨said_more (fun _ h => h) ho _ (h.2 s hs).1, (h.2 s hs).2⟩⟩
  · exact ⟨h.1, h.2.1, saidOpt_more ho h.2.2⟩
  · exact h
  · refine ⟨fun e he => ⟨said_more (fun _ h => h) ho _ (h.1 e he).1, (h.1 e he).2⟩, h.2⟩
  · refine ⟨fun e he => ?_, h.2.1, fun m hm => measureFits_more ho (h.2.2.1 m hm), h.2.2.2⟩
    rcases h.1 e he with h1 | h1
    · exact .inl ⟨said_more (fun _ h => h) ho _ h1.1, h1.2⟩
    · exact .inr h1
  · exact h.elim

mutual
/-- The relations of the tree are ones that text can express, with one and the same around them. -/
def TreeLoose (lib : Lib) (fn : Known) : BRel → Prop
  | .node o kids =>
    BodyFits lib fn (inKinds o kids) o.emit o.body ∧ TablesFit o ∧
      (kids.length = arity o.body + queriesBody o.body ∧
        (isRead o.body = true → queriesBody o.body = 0)) ∧
      (inKinds o kids).length + (madeKinds (inKinds o kids) o.body).length < 2147483648 ∧
      TreesLoose lib fn kids
def TreesLoose (lib : Lib) (fn : Known) : List BRel → Prop
  | [] => True
  | r :: rs => TreeLoose lib fn r ∧ TreesLoose lib fn rs
end

mutual
theorem TreeFits.loose : ∀ {up : List Nat} {r : BRel}, TreeFits lib fn up r →
    TreeLoose lib fn.free r
  | up, .node o kids, h => by
    rw [TreeFits] at h
    rw [TreeLoose]
    exact ⟨bodyFits_more (fn := fn.within up) (fun _ _ _ => trivial) h.1, h.2.1, h.2.2.1,
      h.2.2.2.1, TreesFit.loose h.2.2.2.2⟩
theorem TreesFit.loose : ∀ {up : Nat → List Nat} {rs : List BRel}, TreesFit lib fn up rs →
    TreesLoose lib fn.free rs
  | _, [], _ => by rw [TreesLoose]; trivial
  | up, r :: rs, h => by
    rw [TreesFit] at h
    rw [TreesLoose]
    exact ⟨TreeFits.loose h.1, TreesFit.loose h.2⟩
end

end Verif.Whole
