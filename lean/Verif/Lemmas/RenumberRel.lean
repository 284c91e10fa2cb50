import Verif.Lemmas.RenumberExpr

/-! # Printing relations with other numbers for functions -/

namespace Verif.Whole

open Verif Verif.Expr

theorem likewise_and {p q p' q' : Rel.Text} (h : LikeT p p') (h' : LikeT q q') :
    LikeT (Rel.Text.and p q) (Rel.Text.and p' q') :=
  h.bind fun a b hab => h'.map fun c d hcd => by
    refine ⟨by simp [hab.1, hcd.1], rfl, fun he => ?_⟩
    simp only [List.append_eq_nil_iff] at he
    simp [hab.2.2 he.1, hcd.2.2 he.2]

theorem likewise_line (before after : Str) {p q : Printed} (h : LikeT p q) :
    LikeT (Rel.line before p after) (Rel.line before q after) :=
  h.map fun a b hab => by
    refine ⟨by simp [hab.1], rfl, fun he => ?_⟩
    simp only [List.map_eq_nil_iff] at he
    simp [hab.2.2 he]

/-- The context of a relation with other functions. -/
abbrev othersR (c : Rel.RelContext) (F : Nat → Option Str) : Rel.RelContext :=
  { c with expr := others c.expr F }

section
variable {σ : Nat → Nat} {c : Context} {F : Nat → Option Str} (hF : ∀ f, F (σ f) = c.functionName f)
include hF

theorem likewise_opt (before after : Str) : ∀ e : Option PbExpr,
    LikeT (Rel.optLine c before after e) (Rel.optLine (others c F) before after (e.map (renumber σ)))
  | none => Likewise.refl _ _
  | some e => likewise_line before after (likewise_expr hF e 0)

theorem likewise_aggregateArg (a : PbArg) :
    LikeT (Rel.printAggregateArg c a) (Rel.printAggregateArg (others c F) (renumberArg σ a)) := by
  cases a with
  | notSet => exact Likewise.refl _ _
  | enum s => exact likewise_arg hF (.enum s) 1
  | type t => exact likewise_arg hF (.type t) 1
  | value e => exact likewise_arg hF (.value e) 1

theorem likewise_aggregateArgs : ∀ as : List PbArg,
    LikeP (Rel.printAggregateArgs c as) (Rel.printAggregateArgs (others c F) (renumberArgs σ as))
  | [] => Likewise.refl _ _
  | a :: as => by
    rw [renumberArgs, Rel.printAggregateArgs, Rel.printAggregateArgs]
    exact likewise_both (likewise_piece (likewise_aggregateArg hF a)) (likewise_aggregateArgs as)

theorem likewise_aggregate (f : Rel.PbAggregate) :
    LikeT (Rel.printAggregate c f) (Rel.printAggregate (others c F) (renumberAggregate σ f)) := by
  unfold Rel.printAggregate
  refine (likewise_both (likewise_aggregateArgs hF f.arguments) (likewise_exprs hF f.args 1)).map
    fun a b hab => ?_
  obtain ⟨h4, -, h6⟩ := near_function (σ := σ) hF f.function
  refine ⟨by simp [hab.1, h4, renumberAggregate], rfl, fun hn => ?_⟩
  simp only [List.append_eq_nil_iff] at hn
  simp only [renumberAggregate, hab.2.2 hn.1.2, h6 hn.1.1]

theorem likewise_grouping : ∀ es : List PbExpr,
    LikeT (Rel.printGrouping c es) (Rel.printGrouping (others c F) (renumberList σ es))
  | [] => Likewise.refl _ _
  | e :: es => by
    rw [renumberList, Rel.printGrouping, Rel.printGrouping]
    exact likewise_and (likewise_line _ _ (likewise_expr hF e 0)) (likewise_grouping es)

theorem likewise_groupings : ∀ gs : List (List PbExpr),
    LikeT (Rel.printGroupings c gs) (Rel.printGroupings (others c F) (gs.map (renumberList σ)))
  | [] => Likewise.refl _ _
  | es :: gs => likewise_and (likewise_grouping hF es) (likewise_groupings gs)

theorem likewise_sorts : ∀ (ss : List Rel.PbSort) (a b : Str × List Rel.PrintErr), Nearby none' a b →
    LikeT (Rel.printSorts c a ss) (Rel.printSorts (others c F) b (ss.map (renumberSort σ)))
  | [], a, b, h => h
  | s :: ss, a, b, h => by
    obtain ⟨e, k⟩ := s
    rw [List.map_cons, Rel.printSorts, Rel.printSorts]
    refine (likewise_expr hF e 0).bind fun r q hrq => ?_
    cases k with
    | notSet =>
      refine likewise_sorts ss _ _ ⟨by simp [h.1, hrq.1], rfl, fun he => ?_⟩
      simp at he
    | direction n =>
      refine likewise_sorts ss _ _ ⟨by simp [h.1, hrq.1], rfl, fun he => ?_⟩
      simp only [List.append_eq_nil_iff, List.map_eq_nil_iff] at he
      simp [h.2.2 he.1, hrq.2.2 he.2]
    | comparison f =>
      obtain ⟨h4, -, h6⟩ := near_function (σ := σ) hF f
      refine ⟨by simp [h.1, hrq.1, h4], rfl, fun he => ?_⟩
      simp only [List.append_eq_nil_iff, List.map_eq_nil_iff] at he
      exact h6 he.2
end

section
variable {σ : Nat → Nat} {c : Rel.RelContext} {F : Nat → Option Str}
  (hF : ∀ f, F (σ f) = c.expr.functionName f)
include hF

theorem likewise_measure (k : Nat) (m : Rel.PbMeasure) :
    LikeT (Rel.printMeasure c k m) (Rel.printMeasure (othersR c F) k (renumberMeasure σ m)) := by
  obtain ⟨f, e⟩ := m
  cases f with
  | none => exact Likewise.refl _ _
  | some f =>
    exact likewise_and (likewise_line _ _ (likewise_aggregate hF f))
      (likewise_and (likewise_opt hF _ _ e) (Likewise.refl _ _))

theorem likewise_measures : ∀ (ms : List Rel.PbMeasure) (k : Nat),
    LikeT (Rel.printMeasures c k ms) (Rel.printMeasures (othersR c F) k (ms.map (renumberMeasure σ)))
  | [], _ => Likewise.refl _ _
  | m :: ms, k => likewise_and (likewise_measure hF k m) (likewise_measures ms (k + 1))

theorem likewise_project : ∀ (es : List PbExpr) (k : Nat),
    LikeT (Rel.printProject c k es) (Rel.printProject (othersR c F) k (renumberList σ es))
  | [], _ => Likewise.refl _ _
  | e :: es, k => by
    rw [renumberList, Rel.printProject, Rel.printProject]
    refine likewise_and ?_ (likewise_project es (k + 1))
    cases h : c.alternative k with
    | some s => exact Likewise.refl _ _
    | none => exact likewise_line _ _ (likewise_expr hF e 0)
end

theorem emitLines_others (c : Rel.RelContext) (F : Nat → Option Str) : ∀ l : List Int,
    Rel.printEmitLines (othersR c F) l = Rel.printEmitLines c l
  | [] => rfl
  | i :: is => by
    rw [Rel.printEmitLines, Rel.printEmitLines, emitLines_others c F is]
    rfl

theorem common_others (c : Rel.RelContext) (F : Nat → Option Str) (l : List Int) :
    Rel.printCommon (othersR c F) l = Rel.printCommon c l := by
  unfold Rel.printCommon
  rw [emitLines_others]

theorem likewise_common (c : Rel.RelContext) (F : Nat → Option Str) (l : List Int) :
    LikeT (Rel.printCommon c l) (Rel.printCommon (othersR c F) l) := by
  rw [common_others c F l]
  exact Likewise.refl _ _

theorem kind_num (σ : Nat → Nat) (b : Rel.Body) : (renumberBody σ b).kind = b.kind := by cases b <;> rfl

theorem names_num (σ : Nat → Nat) (b : Rel.Body) : (renumberBody σ b).names = b.names := by cases b <;> rfl

/-- Both are missing, or both are there and alike. -/
def LikeO : Option Rel.Text → Option Rel.Text → Prop
  | none, none => True
  | some x, some y => LikeT x y
  | _, _ => False

theorem LikeO.refl : ∀ x, LikeO x x
  | none => trivial
  | some x => Likewise.refl _ x

theorem likewise_body {σ : Nat → Nat} {c : Rel.RelContext} {F : Nat → Option Str}
    (hF : ∀ f, F (σ f) = c.expr.functionName f) (b : Rel.Body) (emit : List Int) :
    LikeO (Rel.printBody c ⟨b, emit⟩) (Rel.printBody (othersR c F) ⟨renumberBody σ b, emit⟩) := by
  cases b with
  | read s t f b p =>
    cases s with
    | none => exact trivial
    | some s => exact likewise_and (likewise_opt hF _ _ f) (likewise_and (likewise_opt hF _ _ b) (Likewise.refl _ _))
  | filter f => exact likewise_opt hF _ _ f
  | fetch o n => exact LikeO.refl (some (.ok _))
  | aggregate gs ms =>
    rw [num_aggregate]
    exact likewise_and (likewise_groupings hF gs) (likewise_and (likewise_measures hF ms 0) (likewise_common c F emit))
  | sort ss => exact likewise_sorts hF ss _ _ (Nearby.refl _ _)
  | project es =>
    rw [num_project]
    exact likewise_and (likewise_project hF es 0) (likewise_common c F emit)
  | join t e p =>
    exact likewise_and (Likewise.refl _ _) (likewise_and (likewise_opt hF _ _ e) (likewise_opt hF _ _ p))
  | cross => exact LikeO.refl (some Rel.Text.none)
  | other => exact trivial

theorem likewise_relation {σ : Nat → Nat} {c : Rel.RelContext} {F : Nat → Option Str}
    (hF : ∀ f, F (σ f) = c.expr.functionName f) (b : Rel.Body) (emit : List Int) :
    LikeT (Rel.printRelation c ⟨b, emit⟩) (Rel.printRelation (othersR c F) ⟨renumberBody σ b, emit⟩) := by
  have h := likewise_body hF b emit
  unfold Rel.printRelation
  revert h
  cases Rel.printBody c ⟨b, emit⟩ with
  | none =>
    cases Rel.printBody (othersR c F) ⟨renumberBody σ b, emit⟩ with
    | none => exact fun _ => Likewise.refl _ _
    | some _ => exact fun h => h.elim
  | some t =>
    cases Rel.printBody (othersR c F) ⟨renumberBody σ b, emit⟩ with
    | none => exact fun h => h.elim
    | some t' =>
      intro h
      simp only [kind_num, names_num]
      exact likewise_and (Likewise.refl _ _) (likewise_and (Likewise.refl _ _) (likewise_and (Likewise.refl _ _)
        (likewise_and h (Likewise.refl _ _))))

end Verif.Whole
