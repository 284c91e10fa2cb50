import Verif.Spec.Whole
import Verif.Lemmas.ExpressionPrint

/-! # Expressions that text can express -/

namespace Verif.Whole

open Verif Verif.TyPb Verif.Literal Verif.Expr

/-- The functions have names in both contexts, and the reader finds the new number. -/
structure Agree (ρ : Nat → Nat) (fn : Known) (c c' : Context) : Prop where
  lib : c'.lib = c.lib
  scopes : c'.scopes = c.scopes
  name : ∀ a, fn a → c'.functionName (ρ a) = c.functionName a
  ok : ∀ a, fn a → FunctionOk c' (ρ a)
  rel : ∀ n, fn.rel n → RelationOk c' (some n) ∧ ¬ "_enum".toList <:+ n

/-- The references are to fields the reader finds, and are no enumerations. -/
structure RefsOk (fn : Known) (ref : Int → Prop) (c : Context) : Prop where
  here : ∀ n, ref n → FieldOk c n .root ∧
    ∀ s, Schema.lookup c.scopes 0 n.toNat = some s → ¬ "_enum".toList <:+ s
  outer : ∀ k n, fn.outer k n → FieldOk c n (.outer (k + 1)) ∧
    ∀ s, Schema.lookup c.scopes (k + 1) n.toNat = some s → ¬ "_enum".toList <:+ s

variable {ρ : Nat → Nat} {fn : Known} {ref : Int → Prop} {lib : Lib} {c c' : Context}

theorem renumber_isSet (ρ : Nat → Nat) (e : PbExpr) : (renumber ρ e).isSet = e.isSet := by
  cases e <;> simp only [renumber, PbExpr.isSet]

theorem renumberArgs_nil {as : List PbArg} (h : as ≠ []) : renumberArgs ρ as ≠ [] := by
  cases as with
  | nil => exact absurd rfl h
  | cons a as => simp [renumberArgs]

theorem renumberClauses_nil {as : List PbClause} (h : as ≠ []) : renumberClauses ρ as ≠ [] := by
  cases as with
  | nil => exact absurd rfl h
  | cons a as => simp [renumberClauses]

theorem renumberList_nil {es : List PbExpr} (h : es ≠ []) : renumberList ρ es ≠ [] := by
  cases es with
  | nil => exact absurd rfl h
  | cons a as => simp [renumberList]

mutual
/-- What can be told can be read, with the new numbers. -/
theorem readable_told (ha : Agree ρ fn c c') (hl : c.lib = lib) (hr : RefsOk fn ref c') :
    ∀ e, Told lib fn ref e → Readable c' (renumber ρ e) ∧ NotEnum c' (renumber ρ e)
  | .literal l, h => by
    cases l <;> simp only [Told] at h
    simp only [renumber, Readable]
    refine ⟨?_, by intro s hs; simp [lastName] at hs⟩
    rw [LiteralOk, ha.lib, hl]
    exact h
  | .field seg base, h => by
    cases seg with
    | other => simp [Told] at h
    | field n b =>
      cases b with
      | true => cases base <;> simp [Told] at h
      | false =>
        cases base with
        | root =>
          simp only [Told] at h
          simp only [renumber, Readable]
          exact ⟨(hr.here n h).1, fun s hs => (hr.here n h).2 s hs⟩
        | outer m =>
          cases m with
          | zero => simp [Told] at h
          | succ k =>
            simp only [Told] at h
            simp only [renumber, Readable]
            exact ⟨(hr.outer k n h).1, fun s hs => (hr.outer k n h).2 s hs⟩
        | _ => simp [Told] at h
  | .call f o as es t, h => by
    unfold Told at h
    split at h <;> simp_all only [reduceCtorEq, PbExpr.call.injEq]
    rename_i heq
    obtain ⟨rfl, rfl, rfl, rfl, rfl⟩ := heq
    obtain ⟨h1, h2, h3, h4⟩ := h
    simp only [renumber, renumberList, Readable]
    exact ⟨⟨ha.ok _ h1, renumberArgs_nil h2, readableArgs_told ha hl hr _ h3, h4⟩,
      by intro s hs; simp [lastName] at hs⟩
  | .ifThen cs e, h => by
    simp only [Told] at h
    obtain ⟨h1, h2, h3⟩ := h
    have hc := readableClauses_told ha hl hr cs h2
    simp only [renumber, Readable, renumber_isSet]
    refine ⟨⟨?_, hc, fun hs => (readable_told ha hl hr e (h3 hs)).1⟩,
      by intro s hs; simp [lastName] at hs⟩
    rcases h1 with h1 | h1
    · exact .inl (renumberClauses_nil h1)
    · exact .inr h1
  | .cast e t k, h => by
    unfold Told at h
    split at h <;> simp_all only [reduceCtorEq, PbExpr.cast.injEq]
    rename_i heq
    obtain ⟨rfl, rfl, rfl⟩ := heq
    have := readable_told ha hl hr e h.1
    simp only [renumber, Readable]
    exact ⟨⟨this.1, h.2⟩, by intro s hs; simp [lastName] at hs⟩
  | .scalar r, h => by
    cases r <;> simp only [Told] at h
    simp only [renumber, Readable]
    exact ⟨(ha.rel _ h).1, fun s hs => by injection hs with hs; subst hs; exact (ha.rel _ h).2⟩
  | .inPredicate es r, h => by
    cases r <;> simp only [Told] at h
    obtain ⟨h1, h2, -, h3⟩ := h
    simp only [renumber, Readable]
    exact ⟨⟨renumberList_nil h1, readableList_told ha hl hr es h2, (ha.rel _ h3).1⟩,
      fun s hs => by injection hs with hs; subst hs; exact (ha.rel _ h3).2⟩
  | .setPredicate op r, h => by
    cases r <;> simp only [Told] at h
    simp only [renumber, Readable]
    exact ⟨⟨h.1, (ha.rel _ h.2).1⟩,
      fun s hs => by injection hs with hs; subst hs; exact (ha.rel _ h.2).2⟩
  | .setComparison e op red r, h => by
    cases r <;> simp only [Told] at h
    obtain ⟨h1, -, h2, h3, h4⟩ := h
    simp only [renumber, Readable]
    exact ⟨⟨(readable_told ha hl hr e h1).1, h2, h3, (ha.rel _ h4).1⟩,
      fun s hs => by injection hs with hs; subst hs; exact (ha.rel _ h4).2⟩
  | .notSet, h => by simp [Told] at h
  | .masked _, h => by simp [Told] at h
  | .noReference _, h => by simp [Told] at h
  | .noSubquery, h => by simp [Told] at h
  | .other _, h => by simp [Told] at h
theorem readableArgs_told (ha : Agree ρ fn c c') (hl : c.lib = lib) (hr : RefsOk fn ref c') :
    ∀ as, ToldArgs lib fn ref as → ReadableArgs c' (renumberArgs ρ as)
  | [], _ => by simp [renumberArgs, ReadableArgs]
  | a :: as, h => by
    simp only [ToldArgs] at h
    simp only [renumberArgs, ReadableArgs]
    refine ⟨?_, readableArgs_told ha hl hr as h.2⟩
    cases a with
    | value e =>
      have h1 := h.1
      simp only [ToldArg] at h1
      have := readable_told ha hl hr e h1
      simp only [renumberArg, ReadableArg]
      exact ⟨this.1, this.2⟩
    | enum s =>
      have h1 := h.1
      simp only [ToldArg] at h1
      simp only [renumberArg, ReadableArg]
      exact h1
    | notSet => exact absurd h.1 (by simp [ToldArg])
    | type t => exact absurd h.1 (by simp [ToldArg])
theorem readableList_told (ha : Agree ρ fn c c') (hl : c.lib = lib) (hr : RefsOk fn ref c') :
    ∀ es, ToldList lib fn ref es → ReadableList c' (renumberList ρ es)
  | [], _ => by simp [renumberList, ReadableList]
  | e :: es, h => by
    simp only [ToldList] at h
    simp only [renumberList, ReadableList]
    exact ⟨(readable_told ha hl hr e h.1).1, readableList_told ha hl hr es h.2⟩
theorem readableClauses_told (ha : Agree ρ fn c c') (hl : c.lib = lib) (hr : RefsOk fn ref c') :
    ∀ as, ToldClauses lib fn ref as → ReadableClauses c' (renumberClauses ρ as)
  | [], _ => by simp [renumberClauses, ReadableClauses]
  | .mk a b :: as, h => by
    simp only [ToldClauses, ToldClause] at h
    have h1 := readable_told ha hl hr a h.1.1
    have h2 := readable_told ha hl hr b h.1.2
    have h3 := readableClauses_told ha hl hr as h.2
    simp only [renumberClauses, renumberClause, ReadableClauses, ReadableClause]
    exact ⟨⟨h1.1, h2.1⟩, h3⟩
end

mutual
theorem plain_renumber : ∀ e, Rel.Plain e → Rel.Plain (renumber ρ e)
  | .ifThen cs e, h => by
    simp only [Rel.Plain] at h
    simp only [renumber, Rel.Plain]
    exact ⟨plainClauses_renumber cs h.1, plain_renumber e h.2⟩
  | .cast e _ _, h => by
    simp only [Rel.Plain] at h
    simp only [renumber, Rel.Plain]
    exact plain_renumber e h
  | .setComparison e _ _ _, h => by
    simp only [Rel.Plain] at h
    simp only [renumber, Rel.Plain]
    exact plain_renumber e h
  | .scalar _, h => by simp [Rel.Plain] at h
  | .inPredicate _ _, h => by simp [Rel.Plain] at h
  | .setPredicate _ _, h => by simp [Rel.Plain] at h
  | .call _ _ _ _ _, _ => by simp [renumber, Rel.Plain]
  | .literal _, _ => by simp [renumber, Rel.Plain]
  | .field _ _, _ => by simp [renumber, Rel.Plain]
  | .notSet, _ => by simp [renumber, Rel.Plain]
  | .masked _, _ => by simp [renumber, Rel.Plain]
  | .noReference _, _ => by simp [renumber, Rel.Plain]
  | .noSubquery, _ => by simp [renumber, Rel.Plain]
  | .other _, _ => by simp [renumber, Rel.Plain]
theorem plainClauses_renumber : ∀ as, Rel.PlainClauses as →
    Rel.PlainClauses (renumberClauses ρ as)
  | [], _ => by simp [renumberClauses, Rel.PlainClauses]
  | .mk a b :: as, h => by
    simp only [Rel.PlainClauses, Rel.PlainClause] at h
    simp only [renumberClauses, renumberClause, Rel.PlainClauses, Rel.PlainClause]
    exact ⟨⟨plain_renumber a h.1.1, plain_renumber b h.1.2⟩, plainClauses_renumber as h.2⟩
end

/-- What can be said can be read, with the new numbers. -/
theorem readable_said (ha : Agree ρ fn c c') (hl : c.lib = lib) (hr : RefsOk fn ref c') (e : PbExpr)
    (h : Said lib fn ref e) : Readable c' (renumber ρ e) ∧ NotEnum c' (renumber ρ e) ∧
      Rel.Plain (renumber ρ e) :=
  ⟨(readable_told ha hl hr e h.1).1, (readable_told ha hl hr e h.1).2, plain_renumber e h.2⟩

/-! ## Printing -/

theorem told_set {e : PbExpr} (h : Told lib fn ref e) : e.isSet = true := by
  cases e <;> first | rfl | simp [Told] at h

theorem functionText_said (ha : Agree ρ fn c c') {a : Nat} (h : fn a) :
    functionText c' (ρ a) = functionText c a ∨ c.functionName a = none := by
  cases hn : c.functionName a with
  | none => exact .inr rfl
  | some s =>
    left
    unfold functionText
    rw [ha.name a h, hn]

theorem functionText_agree (ha : Agree ρ fn c c') {a : Nat} (h : fn a) :
    functionText c' (ρ a) = functionText c a := by
  rcases functionText_said ha h with h1 | h1
  · exact h1
  · exfalso
    obtain ⟨s, hs, -⟩ := ha.ok a h
    rw [ha.name a h, h1] at hs
    exact absurd hs (by simp)

mutual
/-- The text is the same with the new numbers. -/
theorem printExpr_told (ha : Agree ρ fn c c') :
    ∀ (e : PbExpr) (k : Nat), Told lib fn ref e → printExpr c' k (renumber ρ e) = printExpr c k e
  | .literal l, k, h => by simp only [renumber, printExpr, ha.lib]
  | .field seg base, k, h => by simp only [renumber, printExpr, fieldText, ha.scopes]
  | .call f o as es t, k, h => by
    unfold Told at h
    split at h <;> simp_all only [reduceCtorEq, PbExpr.call.injEq]
    rename_i heq
    obtain ⟨rfl, rfl, rfl, rfl, rfl⟩ := heq
    obtain ⟨h1, h2, h3, h4⟩ := h
    simp only [renumber, renumberList, printExpr, printExprs, printArgs_told ha as (k + 1) h3,
      functionText_agree ha h1]
  | .ifThen cs e, k, h => by
    simp only [Told] at h
    obtain ⟨h1, h2, h3⟩ := h
    simp only [renumber, printExpr, printClauses_told ha cs k h2]
    congr 2
    by_cases hs : e.isSet = true
    · have := printExpr_told ha e k (h3 hs)
      rw [this, elsePieces_set hs, elsePieces_set (by rw [renumber_isSet]; exact hs)]
    · cases e <;> simp [PbExpr.isSet] at hs
      simp [renumber, elsePieces]
  | .cast e t n, k, h => by
    unfold Told at h
    split at h <;> simp_all only [reduceCtorEq, PbExpr.cast.injEq]
    rename_i heq
    obtain ⟨rfl, rfl, rfl⟩ := heq
    simp only [renumber, printExpr, printExpr_told ha e k h.1]
  | .scalar r, k, h => by simp only [renumber, printExpr]
  | .inPredicate es r, k, h => by
    cases r <;> simp only [Told] at h
    simp only [renumber, printExpr, printExprs_told ha es _ h.2.1]
  | .setPredicate _ _, _, h => by simp only [renumber, printExpr]
  | .setComparison e _ _ r, k, h => by
    cases r <;> simp only [Told] at h
    have hs : e.isSet = true := told_set h.1
    simp only [renumber, printExpr, printExpr_told ha e _ h.1]
    rw [leftPrinted_set hs, leftPrinted_set (by rw [renumber_isSet]; exact hs)]
  | .notSet, _, h => by simp [Told] at h
  | .masked _, _, h => by simp [Told] at h
  | .noReference _, _, h => by simp [Told] at h
  | .noSubquery, _, h => by simp [Told] at h
  | .other _, _, h => by simp [Told] at h
theorem printArgs_told (ha : Agree ρ fn c c') : ∀ (as : List PbArg) (k : Nat),
    ToldArgs lib fn ref as → printArgs c' k (renumberArgs ρ as) = printArgs c k as
  | [], _, _ => by simp [renumberArgs, printArgs]
  | a :: as, k, h => by
    simp only [ToldArgs] at h
    simp only [renumberArgs, printArgs, printArgs_told ha as k h.2]
    congr 2
    cases a with
    | value e =>
      have h1 := h.1
      simp only [ToldArg] at h1
      simp only [renumberArg, printArg, printExpr_told ha e k h1]
    | enum s => simp only [renumberArg, printArg]
    | notSet => exact absurd h.1 (by simp [ToldArg])
    | type t => exact absurd h.1 (by simp [ToldArg])
theorem printExprs_told (ha : Agree ρ fn c c') : ∀ (es : List PbExpr) (k : Nat),
    ToldList lib fn ref es → printExprs c' k (renumberList ρ es) = printExprs c k es
  | [], _, _ => by simp [renumberList, printExprs]
  | e :: es, k, h => by
    simp only [ToldList] at h
    simp only [renumberList, printExprs, printExprs_told ha es k h.2, printExpr_told ha e k h.1]
theorem printClauses_told (ha : Agree ρ fn c c') : ∀ (as : List PbClause) (k : Nat),
    ToldClauses lib fn ref as → printClauses c' k (renumberClauses ρ as) = printClauses c k as
  | [], _, _ => by simp [renumberClauses, printClauses]
  | .mk a b :: as, k, h => by
    simp only [ToldClauses, ToldClause] at h
    simp only [renumberClauses, renumberClause, printClauses, printClauses_told ha as k h.2]
    congr 1
    have h1 := printExpr_told ha a k h.1.1
    have h2 := printExpr_told ha b k h.1.2
    have e1 : ∀ (c : Context) (a b : PbExpr), a.isSet = true → b.isSet = true →
        printClause c k (.mk a b) = both (piece (printExpr c k a)) (piece (printExpr c k b)) := by
      intro c a b h h'
      exact printClause_set c k h h'
    have s1 : ∀ e, Told lib fn ref e → e.isSet = true := fun _ he => told_set he
    rw [e1 c _ _ (s1 a h.1.1) (s1 b h.1.2), e1 c' _ _ (by rw [renumber_isSet]; exact s1 a h.1.1)
      (by rw [renumber_isSet]; exact s1 b h.1.2), h1, h2]
end

theorem printExpr_said (ha : Agree ρ fn c c') (e : PbExpr) (k : Nat) (h : Said lib fn ref e) :
    printExpr c' k (renumber ρ e) = printExpr c k e :=
  printExpr_told ha e k h.1

/-! ## References -/

theorem fieldOf_renumber (e : PbExpr) : Rel.fieldOf (renumber ρ e) = Rel.fieldOf e := by
  cases e <;> simp only [renumber] <;> first | rfl | simp [Rel.fieldOf]

theorem leftmost_renumber : ∀ e : PbExpr, Rel.leftmost (renumber ρ e) = renumber ρ (Rel.leftmost e)
  | .setComparison e _ _ _ => by
    simp only [renumber, Rel.leftmost]
    exact leftmost_renumber e
  | .ifThen _ _ => by simp [renumber, Rel.leftmost]
  | .cast _ _ _ => by simp [renumber, Rel.leftmost]
  | .scalar _ => by simp [renumber, Rel.leftmost]
  | .inPredicate _ _ => by simp [renumber, Rel.leftmost]
  | .setPredicate _ _ => by simp [renumber, Rel.leftmost]
  | .call _ _ _ _ _ => by simp [renumber, Rel.leftmost]
  | .literal _ => by simp [renumber, Rel.leftmost]
  | .field _ _ => by simp [renumber, Rel.leftmost]
  | .notSet => by simp [renumber, Rel.leftmost]
  | .masked _ => by simp [renumber, Rel.leftmost]
  | .noReference _ => by simp [renumber, Rel.leftmost]
  | .noSubquery => by simp [renumber, Rel.leftmost]
  | .other _ => by simp [renumber, Rel.leftmost]

theorem fieldKept_renumber {e : PbExpr} (h : Rel.FieldKept e) : Rel.FieldKept (renumber ρ e) := by
  unfold Rel.FieldKept at h ⊢
  rw [leftmost_renumber, fieldOf_renumber, fieldOf_renumber, h]

theorem reference_said (e : PbExpr) : reference e = Rel.fieldOf e := by
  cases e <;> simp only [reference, Rel.fieldOf] <;> rename_i s b <;> cases s <;> rfl

/-- A reference that can be said. -/
theorem said_field {e : PbExpr} {n : Int} (h : Said lib fn ref e) (ho : Rel.isOuter e = false)
    (hn : Rel.fieldOf e = some n) : e = .field (.field n false) .root ∧ ref n := by
  replace h := h.1
  cases e <;> simp [Rel.fieldOf] at hn
  rename_i seg base
  cases seg <;> simp at hn
  subst hn
  rename_i m b
  cases b <;> cases base <;> simp [Told, Rel.isOuter] at h ho
  exact ⟨rfl, h⟩

/-- The same functions and names, and other fields around. -/
abbrev Known.seeing (fn : Known) (outer : Nat → Int → Prop) : Known := { fn with outer := outer }

mutual
/-- What may be said with less may be said with more. -/
theorem told_more {outer : Nat → Int → Prop} {ref' : Int → Prop}
    (hr : ∀ n, ref n → ref' n) (ho : ∀ k n, fn.outer k n → outer k n) : ∀ e,
    Told lib fn ref e → Told lib (fn.seeing outer) ref' e
  | .literal l, h => by cases l <;> simp only [Told] at h ⊢ <;> exact h
  | .field seg base, h => by
    cases seg with
    | other => simp [Told] at h
    | field n b =>
      cases b with
      | true => cases base <;> simp [Told] at h
      | false =>
        cases base with
        | root => simp only [Told] at h ⊢; exact hr n h
        | outer m => cases m <;> simp only [Told] at h ⊢; exact ho _ n h
        | _ => simp [Told] at h
  | .call f o as es t, h => by
    unfold Told at h
    split at h <;> simp_all only [reduceCtorEq, PbExpr.call.injEq]
    rename_i heq
    obtain ⟨rfl, rfl, rfl, rfl, rfl⟩ := heq
    simp only [Told]
    exact ⟨h.1, h.2.1, toldArgs_more hr ho _ h.2.2.1, h.2.2.2⟩
  | .ifThen cs e, h => by
    simp only [Told] at h ⊢
    exact ⟨h.1, toldClauses_more hr ho cs h.2.1, fun hs => told_more hr ho e (h.2.2 hs)⟩
  | .cast e t k, h => by
    unfold Told at h
    split at h <;> simp_all only [reduceCtorEq, PbExpr.cast.injEq]
    rename_i heq
    obtain ⟨rfl, rfl, rfl⟩ := heq
    simp only [Told]
    exact ⟨told_more hr ho e h.1, h.2⟩
  | .scalar r, h => by cases r <;> simp only [Told] at h ⊢; exact h
  | .inPredicate es r, h => by
    cases r <;> simp only [Told] at h ⊢
    exact ⟨h.1, toldList_more hr ho es h.2.1, h.2.2⟩
  | .setPredicate _ r, h => by cases r <;> simp only [Told] at h ⊢; exact h
  | .setComparison e _ _ r, h => by
    cases r <;> simp only [Told] at h ⊢
    exact ⟨told_more hr ho e h.1, h.2⟩
  | .notSet, h => by simp [Told] at h
  | .masked _, h => by simp [Told] at h
  | .noReference _, h => by simp [Told] at h
  | .noSubquery, h => by simp [Told] at h
  | .other _, h => by simp [Told] at h
theorem toldArgs_more {outer : Nat → Int → Prop} {ref' : Int → Prop}
    (hr : ∀ n, ref n → ref' n) (ho : ∀ k n, fn.outer k n → outer k n) : ∀ as,
    ToldArgs lib fn ref as → ToldArgs lib (fn.seeing outer) ref' as
  | [], _ => by simp [ToldArgs]
  | a :: as, h => by
    simp only [ToldArgs] at h ⊢
    refine ⟨?_, toldArgs_more hr ho as h.2⟩
    cases a with
    | value e =>
      have h1 := h.1
      simp only [ToldArg] at h1 ⊢
      exact told_more hr ho e h1
    | enum s =>
      have h1 := h.1
      simp only [ToldArg] at h1 ⊢
      exact h1
    | notSet => exact absurd h.1 (by simp [ToldArg])
    | type t => exact absurd h.1 (by simp [ToldArg])
theorem toldList_more {outer : Nat → Int → Prop} {ref' : Int → Prop}
    (hr : ∀ n, ref n → ref' n) (ho : ∀ k n, fn.outer k n → outer k n) : ∀ es,
    ToldList lib fn ref es → ToldList lib (fn.seeing outer) ref' es
  | [], _ => by simp [ToldList]
  | e :: es, h => by
    simp only [ToldList] at h ⊢
    exact ⟨told_more hr ho e h.1, toldList_more hr ho es h.2⟩
theorem toldClauses_more {outer : Nat → Int → Prop} {ref' : Int → Prop}
    (hr : ∀ n, ref n → ref' n) (ho : ∀ k n, fn.outer k n → outer k n) : ∀ as,
    ToldClauses lib fn ref as → ToldClauses lib (fn.seeing outer) ref' as
  | [], _ => by simp [ToldClauses]
  | .mk a b :: as, h => by
    simp only [ToldClauses, ToldClause] at h ⊢
    exact ⟨⟨told_more hr ho a h.1.1, told_more hr ho b h.1.2⟩, toldClauses_more hr ho as h.2⟩
end

theorem said_more {outer : Nat → Int → Prop} {ref' : Int → Prop}
    (hr : ∀ n, ref n → ref' n) (ho : ∀ k n, fn.outer k n → outer k n) (e : PbExpr)
    (h : Said lib fn ref e) : Said lib (fn.seeing outer) ref' e :=
  ⟨told_more hr ho e h.1, h.2⟩

theorem told_mono {ref' : Int → Prop} (hr : ∀ n, ref n → ref' n) (e : PbExpr)
    (h : Told lib fn ref e) : Told lib fn ref' e :=
  told_more hr (fun _ _ h => h) e h

theorem toldArgs_mono {ref' : Int → Prop} (hr : ∀ n, ref n → ref' n) (as : List PbArg)
    (h : ToldArgs lib fn ref as) : ToldArgs lib fn ref' as :=
  toldArgs_more hr (fun _ _ h => h) as h

theorem said_mono {ref' : Int → Prop} (hr : ∀ n, ref n → ref' n) (e : PbExpr)
    (h : Said lib fn ref e) : Said lib fn ref' e :=
  said_more hr (fun _ _ h => h) e h

end Verif.Whole
