import Verif.Spec.Reads
import Verif.Lemmas.Settles
import Verif.Lemmas.Within
import Verif.Lemmas.Pipeline
import Verif.Prop.TypeProto
import Verif.Prop.Literal
import Verif.Prop.StringLiteral

/-! # Reading stays inside its tables -/

namespace Verif

open Outcome

theorem Outcome.defined_of_ne {α : Type} {o : Outcome α} (h : o ≠ .ub) : o.Defined := by
  cases o with
  | ok a => trivial
  | throw e => trivial
  | ub => exact (h rfl).elim

theorem Outcome.Defined.bindOk {α β : Type} {o : Outcome α} {f : α → Outcome β} (h : o.Defined)
    (hf : ∀ a, o = .ok a → (f a).Defined) : (o.bind f).Defined := by
  cases o with
  | ok a => exact hf a rfl
  | throw e => trivial
  | ub => exact h.elim

namespace Literal

open Tree TyPb

theorem stringText_defined (s : Str) : (StrLit.stringText s).Defined := by
  have hs : ∀ p n, (StrLit.substr s p n).Defined := by
    intro p n
    unfold StrLit.substr
    split <;> trivial
  unfold StrLit.stringText
  refine Defined.bind ?_ fun str => ?_
  · unfold StrLit.unquote
    split
    · exact hs _ _
    · split
      · exact hs _ _
      · refine Defined.bind ?_ fun c => ?_
        · unfold StrLit.charAt
          cases s <;> simp <;> trivial
        · split
          · exact hs _ _
          · trivial
  · split
    · trivial
    · obtain ⟨v, e, h⟩ := StrLit.escapeText_total str
      rw [h]
      trivial

theorem number_defined {lib : Lib} (hl : lib.Defined) (text : Str) (ty : PbType) :
    (visitNumber lib text ty).Defined :=
  defined_of_ne (constant_defined_partial lib hl.1 hl.2 text ty (stringText_defined _).ne).1

theorem typedString_defined {lib : Lib} (hl : lib.Defined) (text : Str) (ty : PbType) :
    (typedString lib text ty).Defined :=
  defined_of_ne (constant_defined_partial lib hl.1 hl.2 text ty (stringText_defined _).ne).2

theorem visitString_defined (text : Str) (ty : PbType) : (visitString text ty).Defined := by
  unfold visitString
  exact (stringText_defined text).bind fun r => trivial

theorem typeFor_defined {inside : Bool} {ext : Option PbType} {own : Option TypeTree}
    (h : Formed own) : (typeFor inside ext own).Defined := by
  unfold typeFor
  split
  · trivial
  · rename_i tree
    obtain ⟨r, hr⟩ := typeText_total inside tree h
    rw [hr]
    trivial
  · trivial

theorem collect_defined : ∀ {l : List (Outcome Read)}, (∀ o ∈ l, o.Defined) → (collect l).Defined
  | [], _ => trivial
  | o :: os, h => (h o (by simp)).bind fun _ =>
      (collect_defined fun x hx => h x (by simp [hx])).map

theorem interleave_mem {α : Type} : ∀ {a b : List α} {x : α}, x ∈ interleave a b → x ∈ a ∨ x ∈ b
  | a :: as, b :: bs, x, h => by
    simp only [interleave, List.mem_cons] at h
    rcases h with rfl | rfl | h
    · simp
    · simp
    · rcases interleave_mem h with h | h <;> simp [h]
  | [], _, x, h => by simp [interleave] at h
  | _ :: _, [], x, h => by simp [interleave] at h

theorem structOf_defined {t n : Nat} {l : List (Outcome Read)} (h : ∀ o ∈ l, o.Defined) :
    (structOf t n l).Defined := (collect_defined h).map

theorem structOf_length {t n : Nat} {l : List (Outcome Read)} {r : List PbLit × List LitErr}
    (h : structOf t n l = .ok r) : r.1.length = l.length := by
  unfold structOf at h
  obtain ⟨a, ha, rfl⟩ := Rel.map_ok_iff h
  exact collect_length _ a ha

mutual
theorem const_defined {lib : Lib} (hl : lib.Defined) : ∀ (k : ConstTree) (inside : Bool)
    (ext : Option PbType), FormedConst k → enough inside ext k = true →
    (visitConst lib inside ext k).Defined
  | .number text own, inside, ext, h, _ => by
    simp only [FormedConst] at h
    rw [visitConst]
    refine (typeFor_defined h).bind fun t => ?_
    split
    · exact (number_defined hl _ _).map
    · trivial
  | .string text own, inside, ext, h, _ => by
    simp only [FormedConst] at h
    rw [visitConst]
    refine (typeFor_defined h).bind fun t => ?_
    split
    · exact (typedString_defined hl _ _).map
    · exact visitString_defined _ _
  | .bool b w own, inside, ext, h, _ => by
    simp only [FormedConst] at h
    rw [visitConst]
    refine (typeFor_defined h).bind fun t => ?_
    split <;> trivial
  | .null w own, inside, ext, h, _ => by
    simp only [FormedConst] at h
    rw [visitConst]
    refine (typeFor_defined h).bind fun t => ?_
    split <;> trivial
  | .structLit items own, inside, ext, h, h2 => by
    simp only [FormedConst] at h
    rw [enough] at h2
    rw [visitConst]
    refine (typeFor_defined h.1).bindOk fun t ht => ?_
    obtain ⟨ty, errs⟩ := t
    cases ty with
    | none => trivial
    | some ty =>
      rw [ht] at h2
      simp only
      split
      · rename_i heq; simp only [Option.some.injEq] at heq; subst heq
        simp only [Bool.and_eq_true, decide_eq_true_eq] at h2
        exact (structOf_defined (each_defined hl items _ _ h.2 h2)).map.map
      · rename_i heq; simp only [Option.some.injEq] at heq; subst heq
        simp only [Bool.and_eq_true, decide_eq_true_eq] at h2
        exact (collect_defined (each_defined hl items _ _ h.2 h2)).map.map
      · trivial
      · rename_i heq; simp only [Option.some.injEq] at heq; subst heq
        simp only [Bool.and_eq_true, decide_eq_true_eq] at h2
        refine (structOf_defined (each_defined hl items _ _ h.2 h2.2)).bindOk fun r hr => ?_
        refine Defined.map (defined_of_ne ((intervalYear_defined _).mpr ?_))
        rw [structOf_length hr, visitEach_length]
        simp [i32Types]
        omega
      · rename_i heq; simp only [Option.some.injEq] at heq; subst heq
        simp only [Bool.and_eq_true, decide_eq_true_eq] at h2
        refine (structOf_defined (each_defined hl items _ _ h.2 h2.2)).bindOk fun r hr => ?_
        refine Defined.map (defined_of_ne ((intervalDay_defined _).mpr ?_))
        rw [structOf_length hr, visitEach_length]
        simp [i32Types]
        omega
      · trivial
      · trivial
  | .mapLit keys values own, inside, ext, h, h2 => by
    simp only [FormedConst] at h
    rw [enough] at h2
    rw [visitConst]
    refine (typeFor_defined h.1).bindOk fun t ht => ?_
    obtain ⟨ty, errs⟩ := t
    cases ty with
    | none => trivial
    | some ty =>
      rw [ht] at h2
      simp only
      split
      · trivial
      · rename_i heq; simp only [Option.some.injEq] at heq; subst heq
        simp only [Bool.and_eq_true, decide_eq_true_eq] at h2
        refine (collect_defined fun o ho => ?_).map
        rcases interleave_mem ho with ho | ho
        · exact each_defined hl keys _ _ h.2.1 h2.1 o ho
        · exact each_defined hl values _ _ h.2.2 h2.2 o ho
      · rename_i heq; simp only [Option.some.injEq] at heq; subst heq
        simp only [Bool.and_eq_true, decide_eq_true_eq] at h2
        split
        · trivial
        · refine (collect_defined fun o ho => ?_).map
          rcases interleave_mem ho with ho | ho
          · exact each_defined hl keys _ _ h.2.1 h2.1 o ho
          · exact each_defined hl values _ _ h.2.2 h2.2 o ho
      · rename_i heq; simp only [Option.some.injEq] at heq; subst heq
        simp at h2
      · rename_i heq; simp only [Option.some.injEq] at heq; subst heq
        simp at h2
      · trivial
      · trivial
theorem each_defined {lib : Lib} (hl : lib.Defined) : ∀ (cs : List ConstTree) (inside : Bool)
    (es : List (Option PbType)), FormedConsts cs → enoughEach inside es cs = true →
    ∀ o ∈ visitEach lib inside es cs, o.Defined
  | [], inside, es, _, _, o, ho => by cases es <;> simp [visitEach] at ho
  | c :: cs, inside, [], _, _, o, ho => by simp [visitEach] at ho
  | c :: cs, inside, e :: es, h, h2, o, ho => by
    simp only [FormedConsts] at h
    simp only [enoughEach, Bool.and_eq_true] at h2
    simp only [visitEach, List.mem_cons] at ho
    rcases ho with rfl | ho
    · exact const_defined hl c inside e h.1 h2.1
    · exact each_defined hl cs inside es h.2 h2.2 o ho
end

end Literal

namespace Expr

open Tree Literal

theorem pair_defined {α β γ : Type} {f : α → β → γ} {p : Got α} {q : Got β} (hp : p.Defined)
    (hq : q.Defined) : (Got.pair f p q).Defined := hp.bind fun _ => hq.map

theorem readType_defined {t : TypeTree} (h : TyPb.WellFormed t) : (readType t).Defined := by
  obtain ⟨r, hr⟩ := TyPb.typeText_total false t h
  unfold readType
  rw [hr]
  trivial

theorem readOutput_defined : ∀ {t : Option TypeTree}, Literal.Formed t → (readOutput t).Defined
  | some _, h => readType_defined h
  | none, _ => trivial

theorem withRelation_defined {c : Context} {ref : RelRef} {m : PbExpr × List RErr}
    {f : Str → Got PbExpr} (h : ∀ n, (f n).Defined) : (withRelation c ref m f).Defined := by
  unfold withRelation
  split
  · trivial
  · exact h _
  · trivial

theorem asExpr_defined {α : Type} {v : Value} {f : PbExpr → Outcome α} (h : ∀ e, (f e).Defined) :
    (v.asExpr f).Defined := by
  unfold Value.asExpr
  split
  · exact h _
  · trivial

mutual
theorem visit_defined {c : Context} (hl : c.lib.Defined) : ∀ (t : ExprTree), Expr.Formed t →
    enough t = true →
    (visit c t).Defined
  | .call id args w ty, h, h2 => by
    simp only [Expr.Formed] at h
    simp only [Expr.enough] at h2
    rw [visit]
    split
    · exact (visitList_defined hl args h.1 h2).map
    · exact (pair_defined (visitArgs_defined hl args h.1 h2) (readOutput_defined h.2)).map
  | .const k, h, h2 => by
    simp only [Expr.Formed] at h
    simp only [Expr.enough] at h2
    rw [visit]
    exact (const_defined hl k _ _ h h2).map
  | .column s id, _, _ => by rw [visit]; trivial
  | .cast e w ty, h, h2 => by
    simp only [Expr.Formed] at h
    simp only [Expr.enough] at h2
    rw [visit]
    exact pair_defined (visit_defined hl e h.1 h2) (readType_defined h.2)
  | .scalarSubquery w ref, _, _ => by
    rw [visit]
    exact withRelation_defined fun _ => trivial
  | .inSubquery es w ref, h, h2 => by
    simp only [Expr.Formed] at h
    simp only [Expr.enough] at h2
    rw [visit]
    exact withRelation_defined fun _ => (visitList_defined hl es h h2).map
  | .setPredicate x w ref, _, _ => by
    rw [visit]
    exact withRelation_defined fun _ => trivial
  | .setComparison e op all w ref, h, h2 => by
    simp only [Expr.Formed] at h
    simp only [Expr.enough] at h2
    rw [visit]
    exact (visit_defined hl e h h2).bind fun _ => withRelation_defined fun _ => trivial
theorem visitArgs_defined {c : Context} (hl : c.lib.Defined) : ∀ (ts : List ExprTree), FormedL ts → enoughL ts = true →
    (visitArgs c ts).Defined
  | [], _, _ => by rw [visitArgs]; trivial
  | t :: ts, h, h2 => by
    simp only [FormedL] at h
    simp only [enoughL, Bool.and_eq_true] at h2
    rw [visitArgs]
    split
    · exact (visitArgs_defined hl ts h.2 h2.2).map
    · exact pair_defined (visit_defined hl t h.1 h2.1) (visitArgs_defined hl ts h.2 h2.2)
theorem visitList_defined {c : Context} (hl : c.lib.Defined) : ∀ (ts : List ExprTree), FormedL ts → enoughL ts = true →
    (visitList c ts).Defined
  | [], _, _ => by rw [visitList]; trivial
  | t :: ts, h, h2 => by
    simp only [FormedL] at h
    simp only [enoughL, Bool.and_eq_true] at h2
    rw [visitList]
    exact pair_defined (visit_defined hl t h.1 h2.1) (visitList_defined hl ts h.2 h2.2)
end

mutual
theorem first_defined {c : Context} (hl : c.lib.Defined) (b : Bool) : ∀ (t : ExprTree), Expr.Formed t →
    enough t = true →
    (first c b t).Defined
  | .call id args w ty, h, h2 => by
    simp only [Expr.Formed] at h
    simp only [Expr.enough] at h2
    rw [first]
    split
    · exact (firstList_defined hl b args h.1 h2).map
    · refine (firstArgs_defined hl b args h.1 h2).bind fun r => ?_
      split
      · exact (readOutput_defined h.2).map
      · trivial
  | .const k, h, h2 => by
    simp only [Expr.Formed] at h
    simp only [Expr.enough] at h2
    rw [first]
    exact (const_defined hl k _ _ h h2).map
  | .column s id, _, _ => by rw [first]; split <;> trivial
  | .cast e w ty, h, h2 => by
    simp only [Expr.Formed] at h
    simp only [Expr.enough] at h2
    rw [first]
    exact (first_defined hl b e h.1 h2).bind fun _ => asExpr_defined fun _ => (readType_defined h.2).map
  | .scalarSubquery w ref, _, _ => by rw [first]; trivial
  | .inSubquery es w ref, h, h2 => by
    simp only [Expr.Formed] at h
    simp only [Expr.enough] at h2
    rw [first]
    exact (firstList_defined hl b es h h2).map
  | .setPredicate x w ref, _, _ => by rw [first]; trivial
  | .setComparison e op all w ref, h, h2 => by
    simp only [Expr.Formed] at h
    simp only [Expr.enough] at h2
    rw [first]
    exact first_defined hl b e h h2
theorem firstArgs_defined {c : Context} (hl : c.lib.Defined) (b : Bool) : ∀ (ts : List ExprTree),
    FormedL ts → enoughL ts = true → (firstArgs c b ts).Defined
  | [], _, _ => by rw [firstArgs]; trivial
  | t :: ts, h, h2 => by
    simp only [FormedL] at h
    simp only [enoughL, Bool.and_eq_true] at h2
    rw [firstArgs]
    split
    · exact (firstArgs_defined hl b ts h.2 h2.2).map
    · split
      · exact (firstArgs_defined hl b ts h.2 h2.2).map
      · refine (first_defined hl b t h.1 h2.1).bind fun v => ?_
        split
        · exact (firstArgs_defined hl b ts h.2 h2.2).map
        · trivial
theorem firstList_defined {c : Context} (hl : c.lib.Defined) (b : Bool) : ∀ (ts : List ExprTree),
    FormedL ts → enoughL ts = true → (firstList c b ts).Defined
  | [], _, _ => by rw [firstList]; trivial
  | t :: ts, h, h2 => by
    simp only [FormedL] at h
    simp only [enoughL, Bool.and_eq_true] at h2
    rw [firstList]
    exact (first_defined hl b t h.1 h2.1).bind fun _ => asExpr_defined fun _ =>
      (firstList_defined hl b ts h.2 h2.2).map
end

end Expr

namespace Rel

open Tree Literal Expr

theorem value_defined {first : Bool} {c : RelContext} (hl : c.expr.lib.Defined) (d : Schema.RelData)
    {t : ExprTree} (h : Expr.Formed t) (h2 : Expr.enough t = true) : (value first c d t).Defined := by
  unfold value
  simp only
  split
  · exact first_defined (c := { c.expr with readScopes := d :: c.outer }) hl _ t h h2
  · exact (visit_defined (c := { c.expr with readScopes := d :: c.outer }) hl t h h2).map

theorem exprValue_defined {first : Bool} {c : RelContext} (hl : c.expr.lib.Defined)
    (d : Schema.RelData) {t : ExprTree} (h : Expr.Formed t) (h2 : Expr.enough t = true) : (exprValue first c d t).Defined :=
  (value_defined hl d h h2).bind fun _ => asExpr_defined fun _ => trivial

theorem readFilter_defined {first : Bool} {c : RelContext} (hl : c.expr.lib.Defined) (st : State)
    (w : Option Str) {t : ExprTree} (h : Expr.Formed t) (h2 : Expr.enough t = true) : (readFilter first c st w t).Defined := by
  unfold readFilter
  refine (value_defined hl _ h h2).bind fun v => ?_
  simp only
  split <;> split <;> trivial

theorem readExpression_defined {first : Bool} {c : RelContext} (hl : c.expr.lib.Defined) (st : State)
    (w : Option Str) {t : ExprTree} (h : Expr.Formed t) (h2 : Expr.enough t = true) :
    (readExpression first c st t w).Defined := by
  unfold readExpression
  refine (value_defined hl _ h h2).bind fun v => ?_
  split
  · trivial
  · exact asExpr_defined fun _ => trivial
  · exact asExpr_defined fun _ => trivial
  · trivial

theorem readSortField_defined {first : Bool} {c : RelContext} (hl : c.expr.lib.Defined)
    (d : Schema.RelData) (w : Option Str) {t : ExprTree} (h : Expr.Formed t) (h2 : Expr.enough t = true) :
    (readSortField first c d t w).Defined := (exprValue_defined hl d h h2).map

/-- The expression made of a call is a call, in both passes. -/
theorem value_call {first : Bool} {c : RelContext} {d : Schema.RelData} {t : ExprTree}
    {e : PbExpr} {errs : List ReadErr} (ht : Expr.isCall t = true)
    (h : exprValue first c d t = .ok (e, errs)) : ∃ f o as os ty, e = .call f o as os ty := by
  cases t with
  | call id args w ty =>
    simp only [Expr.isCall, Bool.not_eq_true'] at ht
    obtain ⟨v, hv, h⟩ := bind_ok_iff h
    unfold value at hv
    simp only at hv
    cases first with
    | true =>
      simp only [if_true] at hv
      rw [Expr.first] at hv
      simp only [ht, Bool.false_eq_true, if_false] at hv
      obtain ⟨r, -, hv⟩ := bind_ok_iff hv
      split at hv
      · obtain ⟨u, -, rfl⟩ := map_ok_iff hv
        simp only [Value.asExpr, Outcome.ok.injEq, Prod.mk.injEq] at h
        exact ⟨_, _, _, _, _, h.1.symm⟩
      · simp only [Outcome.ok.injEq] at hv
        subst hv
        simp only [Value.asExpr, Outcome.ok.injEq, Prod.mk.injEq] at h
        exact ⟨_, _, _, _, _, h.1.symm⟩
    | false =>
      simp only [Bool.false_eq_true, if_false] at hv
      obtain ⟨r, hr, rfl⟩ := map_ok_iff hv
      rw [Expr.visit] at hr
      simp only [ht, Bool.false_eq_true, if_false] at hr
      obtain ⟨q, hq, rfl⟩ := map_ok_iff hr
      unfold Got.pair at hq
      obtain ⟨a, -, hq⟩ := bind_ok_iff hq
      obtain ⟨b, -, rfl⟩ := map_ok_iff hq
      simp only [Value.asExpr, Outcome.ok.injEq, Prod.mk.injEq] at h
      exact ⟨_, _, _, _, _, h.1.symm⟩
  | _ => simp [Expr.isCall] at ht

theorem aggregateOf_defined {e : PbExpr} {o : Option TyPb.PbType} {ids : List Str}
    (h : ids ≠ [] ∨ ∃ f x as os ty, e = .call f x as os ty) : (aggregateOf e o ids).Defined := by
  unfold aggregateOf
  split
  · trivial
  · rename_i hn
    cases ids with
    | nil =>
      rcases h with h | ⟨f, x, as, os, ty, rfl⟩
      · exact absurd rfl h
      · exact absurd rfl (hn f x as os ty)
    | cons a l => trivial

theorem readMeasureType_defined (e : PbExpr) {ty : Option TypeTree} (h : Literal.Formed ty) :
    (readMeasureType e ty).Defined := by
  unfold readMeasureType
  split
  · exact (readType_defined h).map
  · trivial

theorem readMeasureDetails_defined {first : Bool} {c : RelContext} (hl : c.expr.lib.Defined)
    (k : Nat) : ∀ (ds : List MeasureDetail) (d : Schema.RelData) (m : MeasureState),
    (∀ x ∈ ds, FormedMeasure x) → (∀ x ∈ ds, soundMeasure x = true) → (readMeasureDetails first c k d m ds).Defined
  | [], _, _, _, _ => trivial
  | .measure t ty ids :: ds, d, m, h, h2 => by
    have hm := h (.measure t ty ids) (by simp)
    have hs := h2 (.measure t ty ids) (by simp)
    simp only [FormedMeasure] at hm
    simp only [soundMeasure, Bool.and_eq_true, Bool.or_eq_true] at hs
    rw [readMeasureDetails]
    refine (exprValue_defined hl d hm.1 hs.1).bindOk fun e he => ?_
    refine (readMeasureType_defined e.1 hm.2).bind fun o => ?_
    refine Defined.bind (aggregateOf_defined ?_) fun f => ?_
    · exact hs.2.imp (fun hi => by simpa using hi) fun hc => value_call hc he
    · split
      · trivial
      · exact (readMeasureDetails_defined hl k ds _ _ (fun x hx => h x (by simp [hx]))
      fun x hx => h2 x (by simp [hx])).map
  | .filter t :: ds, d, m, h, h2 => by
    have hm := h (.filter t) (by simp)
    have hs := h2 (.filter t) (by simp)
    simp only [FormedMeasure] at hm
    simp only [soundMeasure, Bool.and_eq_true, Bool.or_eq_true] at hs
    rw [readMeasureDetails]
    refine (exprValue_defined hl d hm hs).bind fun e => ?_
    split
    · trivial
    · exact (readMeasureDetails_defined hl k ds _ _ (fun x hx => h x (by simp [hx]))
      fun x hx => h2 x (by simp [hx])).map
  | .invocation id :: ds, d, m, h, h2 => by
    rw [readMeasureDetails]
    exact (readMeasureDetails_defined hl k ds _ _ (fun x hx => h x (by simp [hx]))
      fun x hx => h2 x (by simp [hx])).map
  | .sort t w :: ds, d, m, h, h2 => by
    have hm := h (.sort t w) (by simp)
    have hs := h2 (.sort t w) (by simp)
    simp only [FormedMeasure] at hm
    simp only [soundMeasure, Bool.and_eq_true, Bool.or_eq_true] at hs
    rw [readMeasureDetails]
    refine (readSortField_defined hl d w hm hs).bind fun s => ?_
    exact (readMeasureDetails_defined hl k ds _ _ (fun x hx => h x (by simp [hx]))
      fun x hx => h2 x (by simp [hx])).map

/-- A reference to a field comes from a column, which is looked up. -/
theorem visit_field {x : Context} {d : Schema.RelData} {outer : List Schema.RelData}
    (hx : x.readScopes = d :: outer) : ∀ (t : ExprTree) {n : Int} {b : Bool} {r : Root}
    {errs : List RErr}, visit x t = .ok (.field (.field n b) r, errs) →
    ∃ s k i, column t = some s ∧ Schema.find false (d :: outer) s = some (k, i) ∧ n = i
  | .call id args w ty, n, b, r, errs, h => by
    rw [visit] at h
    split at h
    · obtain ⟨q, -, h⟩ := map_ok_iff h
      simp only [Prod.mk.injEq] at h
      unfold ifThenOf at h
      split at h <;> simp at h
    · obtain ⟨q, hq, h⟩ := map_ok_iff h
      unfold Got.pair at hq
      obtain ⟨a, -, hq⟩ := bind_ok_iff hq
      obtain ⟨c, -, rfl⟩ := map_ok_iff hq
      simp at h
  | .const k, n, b, r, errs, h => by
    rw [visit] at h
    obtain ⟨q, -, h⟩ := map_ok_iff h
    simp at h
  | .column s id, n, b, r, errs, h => by
    rw [visit] at h
    simp only [Outcome.ok.injEq] at h
    unfold readColumn at h
    rw [hx] at h
    split at h
    · rename_i k i hf
      simp only [Prod.mk.injEq, PbExpr.field.injEq, Segment.field.injEq] at h
      exact ⟨_, k, i, rfl, hf, h.1.1.1.symm⟩
    · simp at h
  | .cast e w ty, n, b, r, errs, h => by
    rw [visit] at h
    unfold Got.pair at h
    obtain ⟨a, -, hq⟩ := bind_ok_iff h
    obtain ⟨c, -, h⟩ := map_ok_iff hq
    simp at h
  | .scalarSubquery w ref, n, b, r, errs, h => by
    rw [visit] at h
    unfold withRelation at h
    split at h <;> simp at h
  | .inSubquery es w ref, n, b, r, errs, h => by
    rw [visit] at h
    unfold withRelation at h
    split at h
    · simp at h
    · obtain ⟨q, -, h⟩ := map_ok_iff h
      simp at h
    · simp at h
  | .setPredicate y w ref, n, b, r, errs, h => by
    rw [visit] at h
    unfold withRelation at h
    split at h <;> simp at h
  | .setComparison e op all w ref, n, b, r, errs, h => by
    rw [visit] at h
    obtain ⟨q, -, h⟩ := bind_ok_iff h
    unfold withRelation at h
    split at h <;> simp at h

theorem first_field {x : Context} {d : Schema.RelData} {outer : List Schema.RelData} {inside : Bool}
    (hx : x.readScopes = d :: outer) : ∀ (t : ExprTree) {n : Int} {b : Bool} {r : Root}
    {errs : List RErr}, first x inside t = .ok (.expr (.field (.field n b) r), errs) →
    ∃ s k i, column t = some s ∧ Schema.find false (d :: outer) s = some (k, i) ∧ n = i
  | .call id args w ty, n, b, r, errs, h => by
    rw [first] at h
    split at h
    · obtain ⟨q, -, h⟩ := map_ok_iff h
      simp only [Prod.mk.injEq, Value.expr.injEq] at h
      unfold ifThenOf at h
      split at h <;> simp at h
    · obtain ⟨q, hq, h⟩ := bind_ok_iff h
      split at h
      · obtain ⟨c, -, h⟩ := map_ok_iff h
        simp at h
      · simp at h
  | .const k, n, b, r, errs, h => by
    rw [first] at h
    obtain ⟨q, -, h⟩ := map_ok_iff h
    simp at h
  | .column s id, n, b, r, errs, h => by
    rw [first] at h
    split at h
    · simp at h
    · simp only [Outcome.ok.injEq, Prod.mk.injEq, Value.expr.injEq] at h
      unfold firstColumn at h
      rw [hx] at h
      simp only at h
      split at h
      · rename_i i hf
        simp only [PbExpr.field.injEq, Segment.field.injEq] at h
        exact ⟨_, 0, i, rfl, by simp [Schema.find, hf], h.1.1.1.symm⟩
      · simp at h
  | .cast e w ty, n, b, r, errs, h => by
    rw [first] at h
    obtain ⟨a, -, hq⟩ := bind_ok_iff h
    unfold Value.asExpr at hq
    split at hq
    · obtain ⟨c, -, h⟩ := map_ok_iff hq
      simp at h
    · simp at hq
  | .scalarSubquery w ref, n, b, r, errs, h => by rw [first] at h; simp at h
  | .inSubquery es w ref, n, b, r, errs, h => by
    rw [first] at h
    obtain ⟨q, -, h⟩ := map_ok_iff h
    simp at h
  | .setPredicate y w ref, n, b, r, errs, h => by rw [first] at h; simp at h
  | .setComparison e op all w ref, n, b, r, errs, h => by
    rw [first] at h
    exact first_field hx e h

theorem value_field {first : Bool} {c : RelContext} {d : Schema.RelData} {t : ExprTree} {n : Int}
    {b : Bool} {r : Root} {errs : List RErr}
    (h : value first c d t = .ok (.expr (.field (.field n b) r), errs)) :
    ∃ s k i, column t = some s ∧ Schema.find false (d :: c.outer) s = some (k, i) ∧ n = i := by
  unfold value at h
  simp only at h
  split at h
  · exact first_field rfl t h
  · obtain ⟨q, hq, h⟩ := map_ok_iff h
    simp only [Prod.mk.injEq, Value.expr.injEq] at h
    obtain ⟨q1, q2⟩ := q
    simp only at h
    rw [h.1] at hq
    exact visit_field rfl t hq

theorem asSize_le (i : Nat) : Schema.asSize i ≤ i := by
  unfold Schema.asSize
  omega

theorem readGrouping_defined {first : Bool} {c : RelContext} (hl : c.expr.lib.Defined) (st : State)
    {t : ExprTree} (h : Expr.Formed t) (h2 : Expr.enough t = true) (ho : OwnColumn c st t) :
    (readGrouping first c st t).Defined := by
  unfold readGrouping
  refine (value_defined hl _ h h2).bindOk fun v hv => ?_
  split
  · obtain ⟨v, errs⟩ := v
    cases v with
    | nothing => trivial
    | list es => trivial
    | expr e =>
      refine Defined.map ?_
      unfold pushField
      split
      · obtain ⟨s, k, i, hc, hf, rfl⟩ := value_field hv
        exact Defined.map (Schema.vecAt_defined (Nat.lt_of_le_of_lt (asSize_le i) (ho s hc k i hf)))
      · trivial
  · trivial

theorem readDetail_defined {first : Bool} {c : RelContext} (hl : c.expr.lib.Defined) (st : State) :
    ∀ (d : Detail), FormedDetail d → soundDetail d = true → (∀ e, d = .grouping e → OwnColumn c st e) →
    (readDetail first c st d).Defined
  | .common, _, _, _ => trivial
  | .schema id, _, _, _ => by
    show (readSchema c st id).Defined
    unfold readSchema
    repeat (first | trivial | split)
  | .filter w e, h, h2, _ => readFilter_defined hl st w h h2
  | .expression e w, h, h2, _ => readExpression_defined hl st w h h2
  | .extension, _, _, _ => trivial
  | .source id, _, _, _ => by
    show (readSource c st id).Defined
    unfold readSource
    repeat (first | trivial | split)
  | .grouping e, h, h2, ho => readGrouping_defined hl st h h2 (ho e rfl)
  | .measure ds, h, h2, _ => (readMeasureDetails_defined hl _ ds _ _ h (by simpa [soundDetail] using h2)).map
  | .sort e w, h, h2, _ => by
    show (readSort first c st e w).Defined
    unfold readSort
    split
    · exact (readSortField_defined hl _ w h h2).map
    · trivial
  | .count text, _, _, _ => by
    show (readCount c st text).Defined
    unfold readCount
    split
    · exact (number_defined hl _ _).map
    · trivial
  | .type id, _, _, _ => by
    show (readJoinType st id).Defined
    unfold readJoinType
    split <;> trivial
  | .emit s id, _, _, _ => trivial

theorem readDetails_defined {first : Bool} {c : RelContext} (hl : c.expr.lib.Defined) :
    ∀ (ds : List Detail) (st : State), (∀ d ∈ ds, FormedDetail d) →
    (∀ d ∈ ds, soundDetail d = true) → OwnColumns first c st ds →
    (readDetails first c st ds).Defined
  | [], _, _, _, _ => trivial
  | d :: ds, st, h, h2, ho => by
    rw [readDetails]
    exact (readDetail_defined hl st d (h d (by simp)) (h2 d (by simp)) ho.1).bindOk fun r hr =>
      (readDetails_defined hl ds r.1 (fun x hx => h x (by simp [hx])) (fun x hx => h2 x (by simp [hx]))
        (ho.2 r hr)).map

theorem addExpressions_defined (first : Bool) (c : RelContext) (names : List Str) :
    ∀ (es : List PbExpr) (d : Schema.RelData) (k : Nat),
    (addExpressions first c names d k es).Defined
  | [], _, _ => trivial
  | e :: es, d, k => by
    by_cases he : ∃ n b r, e = .field (.field n b) r
    · obtain ⟨n, b, r, rfl⟩ := he
      rw [addExpressions]
      split
      · rename_i h
        exact (Schema.vecAt_defined h).bind fun f => addExpressions_defined first c names es _ _
      · exact addExpressions_defined first c names es _ _
    · rw [addExpressions]
      · exact addExpressions_defined first c names es _ _
      · intro n b r h
        exact he ⟨n, b, r, h⟩

theorem applyText_defined (d : Schema.RelData) (m : List Int) : (Schema.applyText d m).Defined := by
  unfold Schema.applyText
  split
  · trivial
  · split
    · exact (Schema.pickAll_defined (fun i r => Schema.pickGenerated_defined _ i r) _ _).bind
        fun _ => trivial
    · exact (Schema.pickAll_defined (fun i r => Schema.pickAny_defined _ _ i r) _ _).bind
        fun _ => trivial

theorem readPass_defined {first : Bool} {c : RelContext} (hl : c.expr.lib.Defined)
    (k : Enum.RelType) {ds : List Detail} (names : List Str) (h : ∀ d ∈ ds, FormedDetail d)
    (h2 : ∀ d ∈ ds, soundDetail d = true)
    (ho : OwnColumns first c (startState first c k names) ds) :
    (readPass first c k ds names).Defined := by
  unfold readPass
  refine (readDetails_defined hl ds _ h h2 ho).bind fun r => ?_
  refine Defined.bind ?_ fun s => ?_
  · unfold addProject
    split
    · exact (addExpressions_defined _ _ _ _ _ _).map
    · trivial
  · split
    · trivial
    · exact (Defined.map (applyText_defined _ _)).map

end Rel

namespace Pipe

theorem connect_ok {parents : List Ref} {r : Ref} {left : Option Ref} {s : State}
    (hr : s.table.isRel r.name = true) (hp : ∀ p ∈ parents, s.table.isRel p.name = true)
    (hleft : ∀ l, left = some l → s.table.isRel l.name = true) :
    ∃ s', connect parents r left s = .ok s' ∧ Steps s s' := by
  obtain ⟨k, d, hd⟩ := isRel_iff.mp hr
  unfold connect
  simp only [hd]
  by_cases hc : d.cont.isSome = true
  · simp only [hc, if_true]
    exact ⟨_, rfl, steps_error s _⟩
  · have hc' : d.cont.isSome = false := by simpa using hc
    simp only [hc', Bool.false_eq_true, if_false]
    have hrm : ∃ x, rightmost s.table parents = .ok x := by
      cases parents with
      | nil => exact ⟨_, rfl⟩
      | cons p ps => simp [rightmost, hp p (by simp)]
    obtain ⟨x, hx⟩ := hrm
    rw [hx]
    simp only [Outcome.bind_ok]
    split
    · exact ⟨_, rfl, steps_error s _⟩
    · have hlo : ∃ y, leftOf s.table left = .ok y := by
        cases left with
        | none => exact ⟨_, rfl⟩
        | some l => simp [leftOf, hleft l rfl]
      obtain ⟨y, hy⟩ := hlo
      rw [hy]
      exact ⟨_, rfl, steps_set s _ k d x y hd hc'⟩

theorem visit_ok : ∀ (q parents : List Ref) (s : State),
    (∀ r ∈ q, ¬ IsOther s.table r.name) → (∀ p ∈ parents, s.table.isRel p.name = true) →
    ∃ s', visit parents q s = .ok s' ∧ Steps s s' ∧ ∀ r ∈ q, s'.table.isRel r.name = true
  | [], parents, s, _, _ => ⟨s, rfl, Steps.refl s, by simp⟩
  | r :: rest, parents, s, ho, hp => by
    have ht := steps_touch s r.name
    have hrr : (touch s.table r.name).isRel r.name = true := isRel_touch (ho r (by simp))
    obtain ⟨s1, e1, st1, hr1⟩ := visit_ok rest (r :: parents)
      { s with table := touch s.table r.name }
      (fun n hn hc => ho n (by simp [hn]) ((ht.others n.name).mp hc))
      (fun n hn => by
        rcases List.mem_cons.mp hn with rfl | hn
        · exact hrr
        · exact ht.isRel (hp n hn))
    have st : Steps s s1 := ht.trans st1
    have hr : s1.table.isRel r.name = true := st1.isRel hrr
    obtain ⟨s2, e2, st2⟩ := connect_ok (parents := parents) (left := rest.head?) hr
      (fun p hp' => st.isRel (hp p hp'))
      (fun l hl => hr1 l (List.mem_of_mem_head? (by simp [hl])))
    refine ⟨s2, by rw [visit, e1]; exact e2, st.trans st2, fun x hx => st2.isRel ?_⟩
    rcases List.mem_cons.mp hx with rfl | hx
    · exact hr
    · exact hr1 x hx

theorem visitAll_ok : ∀ (ps : List (List Ref)) (s : State),
    (∀ p ∈ ps, ∀ r ∈ p, ¬ IsOther s.table r.name) → ∃ s', visitAll ps s = .ok s'
  | [], s, _ => ⟨s, rfl⟩
  | p :: ps, s, h => by
    obtain ⟨s1, e1, st1, -⟩ := visit_ok p [] s (h p (by simp)) (by simp)
    obtain ⟨s2, e2⟩ := visitAll_ok ps s1
      (fun q hq r hr hc => h q (by simp [hq]) r hr ((st1.others r.name).mp hc))
    exact ⟨s2, by rw [visitAll, e1]; exact e2⟩

end Pipe

namespace Sec

open Tree

theorem stoul_defined (s : Str) : (stoul s).Defined := by
  unfold stoul
  simp only
  repeat (first | trivial | split)

theorem applyDetail_defined (d : FileDetail) (f : File) : (applyDetail d f).Defined := by
  cases d <;> first | exact (stoul_defined _).map | trivial

theorem foldDetails_defined : ∀ (ds : List FileDetail) (o : Outcome File), o.Defined →
    (ds.foldl (fun (o : Outcome File) d => o.bind (applyDetail d)) o).Defined
  | [], _, h => h
  | d :: ds, _, h => foldDetails_defined ds _ (h.bind fun f => applyDetail_defined d f)

theorem applyDetails_defined (name : Str) (ds : List FileDetail) : ∀ (l : List Symbol),
    (∃ s ∈ l, s.name = name) → (applyDetails name ds l).Defined
  | [], h => by obtain ⟨s, hs, -⟩ := h; simp at hs
  | s :: ss, h => by
    unfold applyDetails
    split
    · split
      · trivial
      · exact (foldDetails_defined _ _ (defined_ok _)).map
      · trivial
    · rename_i hn
      refine (applyDetails_defined name ds ss ?_).map
      obtain ⟨x, hx, e⟩ := h
      rcases List.mem_cons.mp hx with rfl | hx
      · exact absurd e hn
      · exact ⟨x, hx, e⟩

theorem addFiles_defined (loc : Nat) : ∀ (fs : List FileTree) (l : List Symbol),
    (addFiles loc fs l).Defined
  | [], _ => trivial
  | f :: fs, l => by
    rw [addFiles]
    exact (applyDetails_defined f.text f.details _ ⟨⟨f.text, loc, .file File.empty⟩,
      List.mem_append_right _ (List.mem_singleton.mpr rfl), rfl⟩).bind
      fun l' => addFiles_defined loc fs l'

theorem addSource_defined (loc : Nat) (l : List Symbol) (t : SourceTree) :
    (addSource loc l t).Defined := by
  cases t with
  | localFiles id fs => exact addFiles_defined _ _ _
  | _ => trivial

theorem readColumns_defined (loc : Nat) : ∀ (cs : List (Str × TypeTree)),
    (∀ c ∈ cs, TyPb.WellFormed c.2) → (readColumns loc cs).Defined
  | [], _ => trivial
  | c :: cs, h => by
    rw [readColumns]
    exact (Expr.readType_defined (h c (by simp))).bind fun _ =>
      (readColumns_defined loc cs fun x hx => h x (by simp [hx])).map

theorem visitDefinitions_defined : ∀ (ds : List PlanDetail) (loc : Nat) (st : State),
    (∀ id cs, PlanDetail.schema id cs ∈ ds → ∀ c ∈ cs, TyPb.WellFormed c.2) →
    (visitDefinitions loc ds st).Defined
  | [], _, _, _ => trivial
  | d :: ds, loc, st, h => by
    rw [visitDefinitions]
    refine Defined.bind ?_ fun _ => visitDefinitions_defined ds _ _
      fun id cs hm => h id cs (by simp [hm])
    cases d with
    | schema id cs => exact (readColumns_defined loc cs (h id cs (by simp))).map
    | source t => exact (addSource_defined _ _ _).map
    | _ => trivial

theorem visitPlan_defined {ds : List PlanDetail}
    (h : ∀ id cs, PlanDetail.schema id cs ∈ ds → ∀ c ∈ cs, TyPb.WellFormed c.2) :
    (visitPlan ds).Defined := (visitDefinitions_defined ds 0 {} h).map

theorem sourceOf_defined (l : List Symbol) (n : Str) : (sourceOf l n).Defined := by
  unfold sourceOf
  repeat (first | trivial | split)

end Sec

namespace Whole

theorem readRelation_defined {lib : Literal.Lib} (hl : lib.Defined) {st : Sec.State}
    {g : Pipe.Table} {first : Bool} {u : Counters} {done : Relations} {t : Rel.RelTree}
    (hf : ∀ d ∈ t.details, Rel.FormedDetail d)
    (hd : ∀ d ∈ t.details, Rel.soundDetail d = true) (hg : GroupsOwn lib st g first u done t) :
    (readRelation lib st g first done (freshOf first u t).2 t).Defined := by
  unfold readRelation
  split
  · trivial
  · rename_i k hk
    refine Defined.bind (Rel.readPass_defined hl k _ hf hd (hg k hk)) fun r => ?_
    split <;> trivial

theorem readRelations_defined {lib : Literal.Lib} (hl : lib.Defined) {st : Sec.State}
    {g : Pipe.Table} {ts : List Rel.RelTree} {first : Bool}
    (hg : ∀ u done t rest, Reached lib st g ts first u done (t :: rest) →
      GroupsOwn lib st g first u done t) :
    ∀ (rest : List Rel.RelTree) (u : Counters) (done : Relations),
    (∀ t ∈ rest, ∀ d ∈ t.details, Rel.FormedDetail d) →
    (∀ t ∈ rest, ∀ d ∈ t.details, Rel.soundDetail d = true) →
    Reached lib st g ts first u done rest → (readRelations lib st g first u done rest).Defined
  | [], _, _, _, _, _ => trivial
  | t :: rest, u, done, hf, hd, hr => by
    rw [readRelations]
    refine (readRelation_defined hl (hf t (by simp)) (hd t (by simp)) (hg u done t rest hr)).bindOk fun r he => ?_
    exact readRelations_defined hl hg rest _ _ (fun x hx => hf x (by simp [hx]))
      (fun x hx => hd x (by simp [hx])) (.next hr he)

theorem readPasses_defined {lib : Literal.Lib} (hl : lib.Defined) {st : Sec.State}
    {g : Pipe.Table} {ts : List Rel.RelTree}
    (hf : ∀ t ∈ ts, ∀ d ∈ t.details, Rel.FormedDetail d)
    (hd : ∀ t ∈ ts, ∀ d ∈ t.details, Rel.soundDetail d = true)
    (hg : ∀ first u done t rest, Reached lib st g ts first u done (t :: rest) →
      GroupsOwn lib st g first u done t) : (readPasses lib st g ts).Defined :=
  (readRelations_defined hl (hg true) ts _ _ hf hd .start).bindOk fun _ he =>
    readRelations_defined hl (hg false) ts _ _ hf hd (.again he)

theorem ownOf_defined (l : List Sec.Symbol) (r : Rel.PbRel) : (ownOf l r).Defined := by
  unfold ownOf
  split
  · refine Defined.map ?_
    split
    · exact Sec.sourceOf_defined _ _
    · trivial
  · trivial

mutual
theorem attach_defined (l : List Sec.Symbol) (done : Relations) : ∀ r : Pipe.Rel,
    (attach l done r).Defined
  | .node k n ins subs => by
    rw [attach]
    refine (ownOf_defined _ _).bind fun o => (attachL_defined l done ins).bind fun a =>
      (attachL_defined l done subs).bind fun b => ?_
    split
    · split <;> trivial
    · trivial
theorem attachL_defined (l : List Sec.Symbol) (done : Relations) : ∀ rs : List Pipe.Rel,
    (attachL l done rs).Defined
  | [] => by rw [attachL]; trivial
  | r :: rs => by
    rw [attachL]
    exact (attach_defined l done r).bind fun _ => (attachL_defined l done rs).map
end

end Whole

end Verif
