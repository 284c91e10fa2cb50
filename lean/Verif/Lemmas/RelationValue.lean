import Verif.Prop.ExpressionLoss
import Verif.Lemmas.RelationText

/-!
# Lemmas on the expressions of relations in the two passes
-/

namespace Verif.Rel

open Verif Verif.TyPb Verif.Tree Verif.Literal Verif.Lex Verif.Parse Verif.Expr

/-! ## The printer does not look at the reader's fields -/

section
variable (c : Context) (s : List Schema.RelData)

mutual
theorem printExpr_scopes : (d : Nat) → (e : PbExpr) →
    printExpr { c with readScopes := s } d e = printExpr c d e
  | d, .notSet => by rw [printExpr, printExpr]
  | d, .literal l => by rw [printExpr, printExpr]
  | d, .field seg base => by rw [printExpr, printExpr]; rfl
  | d, .masked _ => by rw [printExpr, printExpr]
  | d, .noReference _ => by rw [printExpr, printExpr]
  | d, .call f o as args out => by
    rw [printExpr, printExpr, printArgs_scopes (d + 1) as, printExprs_scopes (d + 1) args]; rfl
  | d, .ifThen cs els => by
    rw [printExpr, printExpr, printClauses_scopes d cs, printExpr_scopes d els]
  | d, .cast e t k => by rw [printExpr, printExpr, printExpr_scopes d e]
  | d, .scalar r => by rw [printExpr, printExpr]
  | d, .inPredicate es r => by rw [printExpr, printExpr, printExprs_scopes d es]
  | d, .setPredicate op r => by rw [printExpr, printExpr]
  | d, .setComparison e op red r => by rw [printExpr, printExpr, printExpr_scopes d e]
  | d, .noSubquery => by rw [printExpr, printExpr]
  | d, .other k => by rw [printExpr, printExpr]
theorem printArgs_scopes : (d : Nat) → (as : List PbArg) →
    printArgs { c with readScopes := s } d as = printArgs c d as
  | d, [] => by rw [printArgs, printArgs]
  | d, a :: as => by rw [printArgs, printArgs, printArg_scopes d a, printArgs_scopes d as]
theorem printArg_scopes : (d : Nat) → (a : PbArg) →
    printArg { c with readScopes := s } d a = printArg c d a
  | d, .notSet => by rw [printArg, printArg]
  | d, .enum _ => by rw [printArg, printArg]
  | d, .type _ => by rw [printArg, printArg]
  | d, .value e => by rw [printArg, printArg, printExpr_scopes d e]
theorem printExprs_scopes : (d : Nat) → (es : List PbExpr) →
    printExprs { c with readScopes := s } d es = printExprs c d es
  | d, [] => by rw [printExprs, printExprs]
  | d, e :: es => by rw [printExprs, printExprs, printExpr_scopes d e, printExprs_scopes d es]
theorem printClauses_scopes : (d : Nat) → (cs : List PbClause) →
    printClauses { c with readScopes := s } d cs = printClauses c d cs
  | d, [] => by rw [printClauses, printClauses]
  | d, a :: as => by
    rw [printClauses, printClauses, printClause_scopes d a, printClauses_scopes d as]
theorem printClause_scopes : (d : Nat) → (a : PbClause) →
    printClause { c with readScopes := s } d a = printClause c d a
  | d, .mk a b => by rw [printClause, printClause, printExpr_scopes d a, printExpr_scopes d b]
end
end

/-! ## What the first pass accepts -/

theorem ifClauses_plain : ∀ (es : List PbExpr), PlainClauses (ifClauses es).1 →
    Plain (ifClauses es).2 → ∀ e ∈ es, Plain e
  | [], _, _ => by simp
  | [e], _, h => by simpa [ifClauses] using h
  | a :: b :: r, h1, h2 => by
    rw [ifClauses, PlainClauses, PlainClause] at h1
    intro e he
    rcases List.mem_cons.mp he with rfl | he
    · exact h1.1.1
    rcases List.mem_cons.mp he with rfl | he
    · exact h1.1.2
    · exact ifClauses_plain r h1.2 (by rw [ifClauses] at h2; exact h2) e he

theorem ifThenOf_plain {es : List PbExpr} (h : Plain (ifThenOf es)) : ∀ e ∈ es, Plain e := by
  unfold ifThenOf at h
  split at h
  · rename_i he
    rw [List.isEmpty_iff.mp he]
    simp
  · rw [Plain] at h
    exact ifClauses_plain es h.1 h.2

mutual
theorem acceptable_of_visit (c : Context) : (t : ExprTree) → (e : PbExpr) →
    visit c t = .ok (e, []) → Plain e → Acceptable t
  | .call id args commas ty, e, h, hp => by
    rw [visit] at h
    rw [Acceptable]
    by_cases hif : isIfThen id = true
    · rw [if_pos hif] at h ⊢
      obtain ⟨⟨xs, errs⟩, hx, h⟩ := ok_of_map h
      cases h
      exact acceptableAll_of_visit c args xs hx (ifThenOf_plain hp)
    · rw [if_neg hif]; trivial
  | .const _, _, _, _ => by rw [Acceptable]; trivial
  | .column _ _, _, _, _ => by rw [Acceptable]; trivial
  | .cast t kw ty, e, h, hp => by
    rw [visit] at h
    rw [Acceptable]
    obtain ⟨⟨a, ea⟩, ⟨b, eb⟩, h1, hb, hab⟩ := ok_of_pair h
    simp only [Prod.mk.injEq] at hab
    obtain ⟨he, hab⟩ := hab
    obtain ⟨rfl, rfl⟩ := List.append_eq_nil_iff.mp hab.symm
    rw [he, Plain] at hp
    exact acceptable_of_visit c t a h1 hp
  | .scalarSubquery kw ref, e, h, hp => by
    rw [visit] at h
    unfold withRelation at h
    split at h <;> simp at h
    rw [← h, Plain] at hp
    exact hp.elim
  | .inSubquery es kw ref, e, h, hp => by
    rw [visit] at h
    unfold withRelation at h
    split at h
    · simp at h
    · obtain ⟨⟨xs, errs⟩, hx, h⟩ := ok_of_map h
      simp only [Prod.mk.injEq] at h
      rw [← h.1, Plain] at hp
      exact hp.elim
    · simp at h
  | .setPredicate ex kw ref, e, h, hp => by
    rw [visit] at h
    unfold withRelation at h
    split at h <;> simp at h
    rw [← h, Plain] at hp
    exact hp.elim
  | .setComparison t op all kw ref, e, h, hp => by
    rw [visit] at h
    rw [Acceptable]
    obtain ⟨⟨l, el⟩, hl, h⟩ := ok_of_bind h
    unfold withRelation at h
    split at h
    · simp at h
    · simp only [Outcome.ok.injEq, Prod.mk.injEq] at h
      obtain ⟨rfl, rfl⟩ := h
      rw [Plain] at hp
      exact acceptable_of_visit c t l hl hp
    · simp at h
theorem acceptableAll_of_visit (c : Context) : (ts : List ExprTree) → (es : List PbExpr) →
    visitList c ts = .ok (es, []) → (∀ e ∈ es, Plain e) → AcceptableAll ts
  | [], _, _, _ => by rw [AcceptableAll]; trivial
  | t :: ts, es, h, hp => by
    rw [visitList] at h
    rw [AcceptableAll]
    obtain ⟨⟨a, ea⟩, ⟨b, eb⟩, h1, hb, hab⟩ := ok_of_pair h
    simp only [Prod.mk.injEq] at hab
    obtain ⟨rfl, hab⟩ := hab
    obtain ⟨rfl, rfl⟩ := List.append_eq_nil_iff.mp hab.symm
    exact ⟨acceptable_of_visit c t a h1 (hp a (by simp)),
      acceptableAll_of_visit c ts b hb (fun e he => hp e (by simp [he]))⟩
end

/-! ## References in the first pass -/

theorem fieldOf_ifThenOf (es : List PbExpr) : fieldOf (ifThenOf es) = none := by
  unfold ifThenOf; split <;> rfl

theorem leftmost_ifThenOf (es : List PbExpr) : leftmost (ifThenOf es) = ifThenOf es := by
  unfold ifThenOf; split <;> rfl

theorem leftmost_readColumn (c : Context) (n : Str) :
    leftmost (readColumn c n).1 = (readColumn c n).1 := by
  unfold readColumn; split <;> rfl

/-- The first pass makes no references inside subqueries. -/
theorem first_inside (c : Context) : (t : ExprTree) → (x : PbExpr) → (errs : List RErr) →
    first c true t = .ok (.expr x, errs) → fieldOf x = none
  | .call id args commas ty, x, errs, h => by
    rw [first] at h
    split at h
    · obtain ⟨r, -, h⟩ := ok_of_map h
      cases h
      exact fieldOf_ifThenOf _
    · obtain ⟨r, -, h⟩ := ok_of_bind h
      split at h
      · obtain ⟨t, -, h⟩ := ok_of_map h
        cases h; rfl
      · cases h; rfl
  | .const k, x, errs, h => by
    rw [first] at h
    obtain ⟨r, -, h⟩ := ok_of_map h
    cases h; rfl
  | .column s id, x, errs, h => by
    rw [first, if_pos rfl] at h
    cases h; rfl
  | .cast t kw ty, x, errs, h => by
    rw [first] at h
    obtain ⟨⟨v, ev⟩, -, h⟩ := ok_of_bind h
    cases v with
    | nothing => simp [Value.asExpr] at h
    | list _ => simp [Value.asExpr] at h
    | expr e =>
      obtain ⟨t, -, h⟩ := ok_of_map h
      cases h; rfl
  | .scalarSubquery _ _, x, errs, h => by rw [first] at h; cases h
  | .inSubquery es _ _, x, errs, h => by
    rw [first] at h
    obtain ⟨r, -, h⟩ := ok_of_map h
    cases h
  | .setPredicate _ _ _, x, errs, h => by rw [first] at h; cases h
  | .setComparison t _ _ _ _, x, errs, h => by
    rw [first] at h
    exact first_inside c t x errs h

/-- A column of a relation around the subquery. -/
def Away (c : Context) (e : PbExpr) : Prop :=
  1 < c.readScopes.length ∧ (fieldOf e).isSome = true ∧ isOuter e = true

/-- A column that is found in the relation itself. -/
theorem column_cases (c : Context) (n : Str) :
    fieldOf (firstColumn c n) = fieldOf (readColumn c n).1 ∨ Away c (readColumn c n).1 := by
  unfold readColumn firstColumn Away
  match h : c.readScopes with
  | [] => exact .inl rfl
  | d :: ds =>
    rw [Schema.find]
    cases hf : Schema.findHere false d n with
    | some i =>
      left
      simp only [hf]
      rfl
    | none =>
      simp only [hf]
      cases ds with
      | nil => exact .inl rfl
      | cons a as =>
        cases hs : Schema.find false (a :: as) n with
        | none => exact .inl rfl
        | some k =>
          right
          refine ⟨by simp, rfl, ?_⟩
          simp only [Option.map_some]
          rw [if_pos (by simp)]
          rfl

/-- Where a relation is not itself named by a subquery it makes the references the second pass
makes, but it takes the left side of comparisons for them, and it does not look at what is around
the subquery. -/
theorem first_outside (c : Context) : (t : ExprTree) →
    (e x : PbExpr) → (errs errs' : List RErr) → visit c t = .ok (e, errs') →
    first c false t = .ok (.expr x, errs) →
    fieldOf x = fieldOf (leftmost e) ∨ Away c (leftmost e)
  | .call id args commas ty, e, x, errs, errs', hv, h => by
    rw [first] at h
    rw [visit] at hv
    by_cases hif : isIfThen id = true
    · rw [if_pos hif] at h hv
      obtain ⟨r, -, h⟩ := ok_of_map h
      obtain ⟨q, -, hv⟩ := ok_of_map hv
      cases h
      cases hv
      left
      rw [leftmost_ifThenOf, fieldOf_ifThenOf, fieldOf_ifThenOf]
    · rw [if_neg hif] at h hv
      obtain ⟨q, hq, hv⟩ := ok_of_map hv
      obtain ⟨a, b, -, -, hab⟩ := ok_of_pair hq
      have hx : fieldOf x = none := by
        obtain ⟨r, -, h⟩ := ok_of_bind h
        split at h
        · obtain ⟨t, -, h⟩ := ok_of_map h
          cases h; rfl
        · cases h; rfl
      simp only [Prod.mk.injEq] at hv
      left
      rw [hx, ← hv.1, hab]
      rfl
  | .const k, e, x, errs, errs', hv, h => by
    rw [first] at h
    rw [visit] at hv
    obtain ⟨r, -, h⟩ := ok_of_map h
    obtain ⟨q, -, hv⟩ := ok_of_map hv
    cases h; cases hv; exact .inl rfl
  | .column s id, e, x, errs, errs', hv, h => by
    rw [first, if_neg (by simp)] at h
    rw [visit] at hv
    cases h
    have hcase := column_cases c (ExprTree.column s id).text
    cases hv' : readColumn c (ExprTree.column s id).text with
    | mk a b =>
      rw [hv'] at hv
      cases hv
      have := leftmost_readColumn c (ExprTree.column s id).text
      rw [hv'] at this
      rw [hv'] at hcase
      rw [this]
      exact hcase
  | .cast t kw ty, e, x, errs, errs', hv, h => by
    rw [first] at h
    rw [visit] at hv
    obtain ⟨⟨v, ev⟩, -, h⟩ := ok_of_bind h
    obtain ⟨a, b, -, -, hab⟩ := ok_of_pair hv
    simp only [Prod.mk.injEq] at hab
    rw [hab.1]
    cases v with
    | nothing => simp [Value.asExpr] at h
    | list _ => simp [Value.asExpr] at h
    | expr e =>
      obtain ⟨t, -, h⟩ := ok_of_map h
      cases h; exact .inl rfl
  | .scalarSubquery _ _, _, x, errs, _, _, h => by rw [first] at h; cases h
  | .inSubquery es _ _, _, x, errs, _, _, h => by
    rw [first] at h
    obtain ⟨r, -, h⟩ := ok_of_map h
    cases h
  | .setPredicate _ _ _, _, x, errs, _, _, h => by rw [first] at h; cases h
  | .setComparison t op all kw ref, e, x, errs, errs', hv, h => by
    rw [first] at h
    rw [visit] at hv
    obtain ⟨⟨l, el⟩, hl, hv⟩ := ok_of_bind hv
    have := first_outside c t l x errs el hl h
    unfold withRelation at hv
    split at hv
    · cases hv; exact this
    · cases hv; exact this
    · simp at hv

theorem first_call {c : Context} {inside : Bool} {id : Str} {args : List ExprTree}
    {commas : List Bool} {ty : Option TypeTree} {x : PbExpr} {errs : List RErr}
    (hif : isIfThen id = false) (h : first c inside (.call id args commas ty) = .ok (.expr x, errs)) :
    ∃ f as out, x = .call f 0 as [] out := by
  rw [first, hif, if_neg (by simp)] at h
  obtain ⟨r, -, h⟩ := ok_of_bind h
  split at h
  · obtain ⟨t, -, h⟩ := ok_of_map h
    cases h; exact ⟨_, _, _, rfl⟩
  · cases h; exact ⟨_, _, _, rfl⟩

/-! ## Values in either pass -/

/-- The pass does not know the fields: the first pass of relations in subqueries. -/
def loose (first : Bool) (c : RelContext) : Bool := first && c.inside

theorem value_ok (first : Bool) {c : RelContext} {d d' : Schema.RelData} (hd : loose first c = false → d' = d) {t : ExprTree} {e : PbExpr}
    (hv : visit (c.at d) t = .ok (e, [])) (hp : Plain e) :
    ∃ x, value first c d' t = .ok (.expr x, []) ∧ (first = false → x = e) ∧
      (FieldKept e → (c.inside = false → c.outer = [] ∨ isOuter e = false) →
        fieldOf x = if loose first c then none else fieldOf e) := by
  cases first with
  | false =>
    have := hd rfl
    subst this
    refine ⟨e, ?_, fun _ => rfl, fun _ _ => by simp [loose]⟩
    simp only [value, Bool.false_eq_true, if_false]
    unfold RelContext.at at hv
    rw [hv]
    rfl
  | true =>
    obtain ⟨x, hx⟩ := first_clean (c.at d) { c.expr with readScopes := d' :: c.outer }
      ⟨d' :: c.outer, rfl⟩ c.inside t (acceptable_of_visit _ t e hv hp) e hv
    refine ⟨x, by simpa only [value, if_true] using hx, by simp, fun hk ho => ?_⟩
    cases hin : c.inside with
    | true =>
      rw [hin] at hx
      simp only [loose, hin, Bool.and_self, if_true]
      exact first_inside _ t x _ hx
    | false =>
      have hd' := hd (by simp [loose, hin])
      subst hd'
      rw [hin] at hx
      simp only [loose, hin, Bool.and_false, Bool.false_eq_true, if_false]
      rcases first_outside (c.at d') t e x _ _ hv hx with h | ⟨h1, h2, h3⟩
      · rw [h]
        exact hk
      · exfalso
        rw [hk] at h2
        rcases ho hin with h | h
        · simp [RelContext.at, h] at h1
        · cases e with
          | setComparison => simp [fieldOf] at h2
          | _ => simp [leftmost, h] at h3

theorem exprValue_ok {first : Bool} {c : RelContext} {d : Schema.RelData} {t : ExprTree}
    {x : PbExpr} (h : value first c d t = .ok (.expr x, [])) :
    exprValue first c d t = .ok (x, []) := by
  rw [exprValue, h]; rfl

end Verif.Rel
