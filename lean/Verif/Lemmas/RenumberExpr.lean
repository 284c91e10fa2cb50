import Verif.Lemmas.RenumberQueries

/-! # Printing expressions with other numbers for functions -/

namespace Verif.Whole

open Verif Verif.Expr

/-- The same errors, and the same text if there are none; `n` says what is kept in any case. -/
def Nearby {α ε : Type} (n : α → Nat) (a b : α × List ε) : Prop :=
  a.2 = b.2 ∧ n a.1 = n b.1 ∧ (a.2 = [] → a.1 = b.1)

/-- The same outcome up to the text in case of an error. -/
def Likewise {α ε : Type} (n : α → Nat) : Outcome (α × List ε) → Outcome (α × List ε) → Prop
  | .ok a, .ok b => Nearby n a b
  | .throw a, .throw b => a = b
  | .ub, .ub => True
  | _, _ => False

/-- For texts. -/
abbrev none' {α : Type} : α → Nat := fun _ => 0

theorem Nearby.refl {α ε : Type} (n : α → Nat) (a : α × List ε) : Nearby n a a := ⟨rfl, rfl, fun _ => rfl⟩

theorem Likewise.refl {α ε : Type} (n : α → Nat) : ∀ (x : Outcome (α × List ε)), Likewise n x x
  | .ok a => Nearby.refl n a
  | .throw _ => rfl
  | .ub => trivial

theorem Likewise.bind {α β ε δ : Type} {n : α → Nat} {m : β → Nat} {f g : α × List ε → Outcome (β × List δ)} :
    ∀ {x y : Outcome (α × List ε)}, Likewise n x y → (∀ a b, Nearby n a b → Likewise m (f a) (g b)) →
      Likewise m (x.bind f) (y.bind g)
  | .ok a, .ok b, h, hf => hf a b h
  | .throw _, .throw _, h, _ => h
  | .ub, .ub, _, _ => trivial
  | .ok _, .throw _, h, _ => h.elim
  | .ok _, .ub, h, _ => h.elim
  | .throw _, .ok _, h, _ => h.elim
  | .throw _, .ub, h, _ => h.elim
  | .ub, .ok _, h, _ => h.elim
  | .ub, .throw _, h, _ => h.elim

theorem Likewise.map {α β ε δ : Type} {n : α → Nat} {m : β → Nat} {f g : α × List ε → β × List δ} :
    ∀ {x y : Outcome (α × List ε)}, Likewise n x y → (∀ a b, Nearby n a b → Nearby m (f a) (g b)) →
      Likewise m (x.map f) (y.map g)
  | .ok a, .ok b, h, hf => hf a b h
  | .throw _, .throw _, h, _ => h
  | .ub, .ub, _, _ => trivial
  | .ok _, .throw _, h, _ => h.elim
  | .ok _, .ub, h, _ => h.elim
  | .throw _, .ok _, h, _ => h.elim
  | .throw _, .ub, h, _ => h.elim
  | .ub, .ok _, h, _ => h.elim
  | .ub, .throw _, h, _ => h.elim

/-- Texts. -/
abbrev LikeT {ε : Type} : Outcome (Str × List ε) → Outcome (Str × List ε) → Prop := Likewise none'

/-- Texts in a row. -/
abbrev LikeP {ε : Type} : Outcome (List Str × List ε) → Outcome (List Str × List ε) → Prop :=
  Likewise List.length

theorem likewise_piece {p q : Printed} (h : LikeT p q) : LikeP (piece p) (piece q) :=
  h.map fun a b hab => ⟨hab.1, rfl, fun he => by rw [hab.2.2 he]⟩

theorem likewise_both {p q p' q' : Pieces} (h : LikeP p p') (h' : LikeP q q') :
    LikeP (both p q) (both p' q') :=
  h.bind fun a b hab => h'.map fun c d hcd => by
    obtain ⟨h1, h2, h3⟩ := hab
    obtain ⟨h4, h5, h6⟩ := hcd
    refine ⟨by simp [h1, h4], by simp [h2, h5], fun he => ?_⟩
    simp only [List.append_eq_nil_iff] at he
    simp [h3 he.1, h6 he.2]

/-- The context with other functions. -/
abbrev others (c : Context) (F : Nat → Option Str) : Context := { c with functionName := F }

theorem near_function {σ : Nat → Nat} {c : Context} {F : Nat → Option Str}
    (hF : ∀ f, F (σ f) = c.functionName f) (f : Nat) :
    Nearby none' (functionText c f) (functionText (others c F) (σ f)) := by
  unfold functionText
  simp only [hF]
  cases c.functionName f with
  | some s => exact Nearby.refl _ _
  | none => exact ⟨rfl, rfl, fun h => by simp at h⟩

theorem likewise_else {σ : Nat → Nat} (e : PbExpr) {r r' : Printed} (h : LikeT r r') :
    LikeP (elsePieces e r) (elsePieces (renumber σ e) r') := by
  cases e <;> first | exact likewise_piece h | exact Likewise.refl _ _

theorem likewise_left {σ : Nat → Nat} (e : PbExpr) {r r' : Printed} (h : LikeT r r') :
    LikeT (leftPrinted e r) (leftPrinted (renumber σ e) r') := by
  have hm : LikeT (r.map fun r => (r.1 ++ [' '], r.2)) (r'.map fun r => (r.1 ++ [' '], r.2)) :=
    h.map fun a b hab => ⟨hab.1, rfl, fun he => by rw [hab.2.2 he]⟩
  cases e <;> first | exact hm | exact Likewise.refl _ _

theorem likewise_clause {σ : Nat → Nat} (a b : PbExpr) {r r' q q' : Printed} (h : LikeT r r')
    (h' : LikeT q q') : LikeP (clausePieces a b r q) (clausePieces (renumber σ a) (renumber σ b) r' q') := by
  have hb := likewise_both (likewise_piece h) (likewise_piece h')
  cases a <;> cases b <;> first | exact hb | exact Likewise.refl _ _

theorem near_comparison {a b : Str × List PErr} (h : Nearby none' a b) (op red : Int) (rel : Option Str) :
    Nearby none' (printSetComparison a op red rel) (printSetComparison b op red rel) := by
  obtain ⟨h1, -, h3⟩ := h
  unfold printSetComparison
  split
  · refine ⟨by simp [h1], rfl, fun he => ?_⟩
    simp only [List.append_eq_nil_iff] at he
    simp [h3 he.1]
  · exact ⟨by simp [h1], rfl, fun he => rfl⟩

mutual
theorem likewise_expr {σ : Nat → Nat} {c : Context} {F : Nat → Option Str}
    (hF : ∀ f, F (σ f) = c.functionName f) :
    ∀ (e : PbExpr) (d : Nat), LikeT (printExpr c d e) (printExpr (others c F) d (renumber σ e))
  | .notSet, d => by rw [renumber, printExpr, printExpr]; exact Likewise.refl _ _
  | .literal l, d => by rw [renumber, printExpr, printExpr]; exact Likewise.refl _ _
  | .field s b, d => by rw [renumber, printExpr, printExpr]; exact Likewise.refl _ _
  | .masked _, d => by rw [renumber, printExpr, printExpr]; exact Likewise.refl _ _
  | .noReference _, d => by rw [renumber, printExpr, printExpr]; exact Likewise.refl _ _
  | .call f o as es t, d => by
    rw [renumber, printExpr, printExpr]
    refine (likewise_both (likewise_args hF as (d + 1)) (likewise_exprs hF es (d + 1))).map fun a b hab => ?_
    obtain ⟨h1, h2, h3⟩ := hab
    obtain ⟨h4, -, h6⟩ := near_function (σ := σ) hF f
    have he : a.1.isEmpty = b.1.isEmpty := by
      rw [Bool.eq_iff_iff, List.isEmpty_iff_length_eq_zero, List.isEmpty_iff_length_eq_zero, h2]
    refine ⟨by simp [h1, h4, he], rfl, fun hn => ?_⟩
    simp only [List.append_eq_nil_iff] at hn
    simp only [h3 hn.1.1.2, h6 hn.1.1.1]
  | .ifThen cs e, d => by
    rw [renumber, printExpr, printExpr]
    refine (likewise_both (likewise_clauses hF cs d) (likewise_else e (likewise_expr hF e d))).map fun a b hab => ?_
    exact ⟨hab.1, rfl, fun h => by rw [hab.2.2 h]⟩
  | .cast e t _, d => by
    rw [renumber, printExpr, printExpr]
    refine (likewise_expr hF e d).map fun a b hab => ?_
    refine ⟨by simp [hab.1], rfl, fun h => ?_⟩
    simp only [List.append_eq_nil_iff] at h
    rw [hab.2.2 h.1]
  | .scalar r, d => by rw [renumber, printExpr, printExpr]; exact Likewise.refl _ _
  | .inPredicate es r, d => by
    rw [renumber, printExpr, printExpr]
    refine (likewise_exprs hF es d).map fun a b hab => ?_
    refine ⟨by simp [hab.1], rfl, fun h => ?_⟩
    simp only [List.append_eq_nil_iff] at h
    rw [hab.2.2 h.1]
  | .setPredicate a r, d => by rw [renumber, printExpr, printExpr]; exact Likewise.refl _ _
  | .setComparison e a b r, d => by
    rw [renumber, printExpr, printExpr]
    exact (likewise_left e (likewise_expr hF e d)).map fun _ _ hab => near_comparison hab _ _ _
  | .noSubquery, d => by rw [renumber, printExpr, printExpr]; exact Likewise.refl _ _
  | .other _, d => by rw [renumber, printExpr, printExpr]; exact Likewise.refl _ _
theorem likewise_arg {σ : Nat → Nat} {c : Context} {F : Nat → Option Str}
    (hF : ∀ f, F (σ f) = c.functionName f) :
    ∀ (a : PbArg) (d : Nat), LikeT (printArg c d a) (printArg (others c F) d (renumberArg σ a))
  | .value e, d => by rw [renumberArg, printArg, printArg]; exact likewise_expr hF e d
  | .notSet, d => by rw [renumberArg, printArg, printArg]; exact Likewise.refl _ _
  | .enum _, d => by rw [renumberArg, printArg, printArg]; exact Likewise.refl _ _
  | .type _, d => by rw [renumberArg, printArg, printArg]; exact Likewise.refl _ _
theorem likewise_args {σ : Nat → Nat} {c : Context} {F : Nat → Option Str}
    (hF : ∀ f, F (σ f) = c.functionName f) :
    ∀ (as : List PbArg) (d : Nat), LikeP (printArgs c d as) (printArgs (others c F) d (renumberArgs σ as))
  | [], d => by rw [renumberArgs, printArgs, printArgs]; exact Likewise.refl _ _
  | a :: as, d => by
    rw [renumberArgs, printArgs, printArgs]
    exact likewise_both (likewise_piece (likewise_arg hF a d)) (likewise_args hF as d)
theorem likewise_exprs {σ : Nat → Nat} {c : Context} {F : Nat → Option Str}
    (hF : ∀ f, F (σ f) = c.functionName f) :
    ∀ (es : List PbExpr) (d : Nat), LikeP (printExprs c d es) (printExprs (others c F) d (renumberList σ es))
  | [], d => by rw [renumberList, printExprs, printExprs]; exact Likewise.refl _ _
  | e :: es, d => by
    rw [renumberList, printExprs, printExprs]
    exact likewise_both (likewise_piece (likewise_expr hF e d)) (likewise_exprs hF es d)
theorem likewise_clauses {σ : Nat → Nat} {c : Context} {F : Nat → Option Str}
    (hF : ∀ f, F (σ f) = c.functionName f) :
    ∀ (cs : List PbClause) (d : Nat),
      LikeP (printClauses c d cs) (printClauses (others c F) d (renumberClauses σ cs))
  | [], d => by rw [renumberClauses, printClauses, printClauses]; exact Likewise.refl _ _
  | .mk a b :: cs, d => by
    rw [renumberClauses, printClauses, printClauses, renumberClause, printClause, printClause]
    exact likewise_both (likewise_clause a b (likewise_expr hF a d) (likewise_expr hF b d)) (likewise_clauses hF cs d)
end

end Verif.Whole
