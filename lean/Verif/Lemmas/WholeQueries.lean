import Verif.Lemmas.WholeExpr

/-! # The subqueries of a relation, by number -/

namespace Verif.Whole

open Verif Verif.TyPb Verif.Literal Verif.Expr

/-- Every subquery gets a name. -/
abbrev total (h : Nat → Str) : Nat → Option Str := fun i => some (h i)

/-! ## Expressions -/

mutual
theorem queries_relabel (h : Nat → Str) : ∀ (e : PbExpr) (k : Nat),
    queries (relabel (total h) k e) = queries e
  | .call f o as es t, k => by
    rw [relabel, queries, queries, queriesArgs_relabel h as, queriesList_relabel h es]
  | .ifThen cs e, k => by
    rw [relabel, queries, queries, queriesClauses_relabel h cs, queries_relabel h e]
  | .cast e _ _, k => by rw [relabel, queries, queries, queries_relabel h e]
  | .scalar r, k => by cases r <;> rfl
  | .inPredicate es r, k => by
    rw [relabel, queries, queries, queriesList_relabel h es]
    cases r <;> rfl
  | .setPredicate _ r, k => by cases r <;> rfl
  | .setComparison e _ _ r, k => by
    rw [relabel, queries, queries, queries_relabel h e]
    cases r <;> rfl
  | .notSet, k => rfl
  | .literal _, k => rfl
  | .field _ _, k => rfl
  | .masked _, k => rfl
  | .noReference _, k => rfl
  | .noSubquery, k => rfl
  | .other _, k => rfl
theorem queriesArg_relabel (h : Nat → Str) : ∀ (a : PbArg) (k : Nat),
    queriesArg (relabelArg (total h) k a) = queriesArg a
  | .value e, k => by rw [relabelArg, queriesArg, queriesArg, queries_relabel h e]
  | .notSet, k => rfl
  | .enum _, k => rfl
  | .type _, k => rfl
theorem queriesArgs_relabel (h : Nat → Str) : ∀ (as : List PbArg) (k : Nat),
    queriesArgs (relabelArgs (total h) k as) = queriesArgs as
  | [], k => rfl
  | a :: as, k => by
    rw [relabelArgs, queriesArgs, queriesArgs, queriesArg_relabel h a, queriesArgs_relabel h as]
theorem queriesList_relabel (h : Nat → Str) : ∀ (es : List PbExpr) (k : Nat),
    queriesList (relabelList (total h) k es) = queriesList es
  | [], k => rfl
  | e :: es, k => by
    rw [relabelList, queriesList, queriesList, queries_relabel h e, queriesList_relabel h es]
theorem queriesClause_relabel (h : Nat → Str) : ∀ (a : PbClause) (k : Nat),
    queriesClause (relabelClause (total h) k a) = queriesClause a
  | .mk a b, k => by
    rw [relabelClause, queriesClause, queriesClause, queries_relabel h a, queries_relabel h b]
theorem queriesClauses_relabel (h : Nat → Str) : ∀ (as : List PbClause) (k : Nat),
    queriesClauses (relabelClauses (total h) k as) = queriesClauses as
  | [], k => rfl
  | a :: as, k => by
    rw [relabelClauses, queriesClauses, queriesClauses, queriesClause_relabel h a,
      queriesClauses_relabel h as]
end

mutual
theorem relabel_relabel (g : Nat → Option Str) (h : Nat → Str) : ∀ (e : PbExpr) (k : Nat),
    relabel g k (relabel (total h) k e) = relabel g k e
  | .call f o as es t, k => by
    rw [relabel, relabel, relabel, relabelArgs_relabel g h as, queriesArgs_relabel,
      relabelList_relabel g h es]
  | .ifThen cs e, k => by
    rw [relabel, relabel, relabel, queriesClauses_relabel, relabelClauses_relabel g h cs,
      relabel_relabel g h e]
  | .cast e _ _, k => by rw [relabel, relabel, relabel, relabel_relabel g h e]
  | .scalar r, k => by cases r <;> rfl
  | .inPredicate es r, k => by
    rw [relabel, relabel, relabel, queriesList_relabel, relabelList_relabel g h es]
    cases r <;> rfl
  | .setPredicate _ r, k => by cases r <;> rfl
  | .setComparison e _ _ r, k => by
    rw [relabel, relabel, relabel, queries_relabel, relabel_relabel g h e]
    cases r <;> rfl
  | .notSet, k => rfl
  | .literal _, k => rfl
  | .field _ _, k => rfl
  | .masked _, k => rfl
  | .noReference _, k => rfl
  | .noSubquery, k => rfl
  | .other _, k => rfl
theorem relabelArg_relabel (g : Nat → Option Str) (h : Nat → Str) : ∀ (a : PbArg) (k : Nat),
    relabelArg g k (relabelArg (total h) k a) = relabelArg g k a
  | .value e, k => by rw [relabelArg, relabelArg, relabelArg, relabel_relabel g h e]
  | .notSet, k => rfl
  | .enum _, k => rfl
  | .type _, k => rfl
theorem relabelArgs_relabel (g : Nat → Option Str) (h : Nat → Str) : ∀ (as : List PbArg) (k : Nat),
    relabelArgs g k (relabelArgs (total h) k as) = relabelArgs g k as
  | [], k => rfl
  | a :: as, k => by
    rw [relabelArgs, relabelArgs, relabelArgs, queriesArg_relabel, relabelArg_relabel g h a,
      relabelArgs_relabel g h as]
theorem relabelList_relabel (g : Nat → Option Str) (h : Nat → Str) :
    ∀ (es : List PbExpr) (k : Nat),
    relabelList g k (relabelList (total h) k es) = relabelList g k es
  | [], k => rfl
  | e :: es, k => by
    rw [relabelList, relabelList, relabelList, queries_relabel, relabel_relabel g h e,
      relabelList_relabel g h es]
theorem relabelClause_relabel (g : Nat → Option Str) (h : Nat → Str) : ∀ (a : PbClause) (k : Nat),
    relabelClause g k (relabelClause (total h) k a) = relabelClause g k a
  | .mk a b, k => by
    rw [relabelClause, relabelClause, relabelClause, queries_relabel, relabel_relabel g h a,
      relabel_relabel g h b]
theorem relabelClauses_relabel (g : Nat → Option Str) (h : Nat → Str) :
    ∀ (as : List PbClause) (k : Nat),
    relabelClauses g k (relabelClauses (total h) k as) = relabelClauses g k as
  | [], k => rfl
  | a :: as, k => by
    rw [relabelClauses, relabelClauses, relabelClauses, queriesClause_relabel,
      relabelClause_relabel g h a, relabelClauses_relabel g h as]
end

mutual
theorem queries_renumber (ρ : Nat → Nat) : ∀ e : PbExpr, queries (renumber ρ e) = queries e
  | .call f o as es t => by
    rw [renumber, queries, queries, queriesArgs_renumber ρ as, queriesList_renumber ρ es]
  | .ifThen cs e => by
    rw [renumber, queries, queries, queriesClauses_renumber ρ cs, queries_renumber ρ e]
  | .cast e _ _ => by rw [renumber, queries, queries, queries_renumber ρ e]
  | .scalar r => rfl
  | .inPredicate es r => by rw [renumber, queries, queries, queriesList_renumber ρ es]
  | .setPredicate _ r => rfl
  | .setComparison e _ _ r => by rw [renumber, queries, queries, queries_renumber ρ e]
  | .notSet => rfl
  | .literal _ => rfl
  | .field _ _ => rfl
  | .masked _ => rfl
  | .noReference _ => rfl
  | .noSubquery => rfl
  | .other _ => rfl
theorem queriesArg_renumber (ρ : Nat → Nat) : ∀ a : PbArg,
    queriesArg (renumberArg ρ a) = queriesArg a
  | .value e => by rw [renumberArg, queriesArg, queriesArg, queries_renumber ρ e]
  | .notSet => rfl
  | .enum _ => rfl
  | .type _ => rfl
theorem queriesArgs_renumber (ρ : Nat → Nat) : ∀ as : List PbArg,
    queriesArgs (renumberArgs ρ as) = queriesArgs as
  | [] => rfl
  | a :: as => by
    rw [renumberArgs, queriesArgs, queriesArgs, queriesArg_renumber ρ a, queriesArgs_renumber ρ as]
theorem queriesList_renumber (ρ : Nat → Nat) : ∀ es : List PbExpr,
    queriesList (renumberList ρ es) = queriesList es
  | [] => rfl
  | e :: es => by
    rw [renumberList, queriesList, queriesList, queries_renumber ρ e, queriesList_renumber ρ es]
theorem queriesClause_renumber (ρ : Nat → Nat) : ∀ a : PbClause,
    queriesClause (renumberClause ρ a) = queriesClause a
  | .mk a b => by
    rw [renumberClause, queriesClause, queriesClause, queries_renumber ρ a, queries_renumber ρ b]
theorem queriesClauses_renumber (ρ : Nat → Nat) : ∀ as : List PbClause,
    queriesClauses (renumberClauses ρ as) = queriesClauses as
  | [] => rfl
  | a :: as => by
    rw [renumberClauses, queriesClauses, queriesClauses, queriesClause_renumber ρ a,
      queriesClauses_renumber ρ as]
end

mutual
theorem relabel_renumber (g : Nat → Option Str) (ρ : Nat → Nat) : ∀ (e : PbExpr) (k : Nat),
    relabel g k (renumber ρ e) = renumber ρ (relabel g k e)
  | .call f o as es t, k => by
    rw [renumber, relabel, relabel, renumber, queriesArgs_renumber, relabelArgs_renumber g ρ as,
      relabelList_renumber g ρ es]
  | .ifThen cs e, k => by
    rw [renumber, relabel, relabel, renumber, queriesClauses_renumber,
      relabelClauses_renumber g ρ cs, relabel_renumber g ρ e]
  | .cast e _ _, k => by rw [renumber, relabel, relabel, renumber, relabel_renumber g ρ e]
  | .scalar r, k => rfl
  | .inPredicate es r, k => by
    rw [renumber, relabel, relabel, renumber, queriesList_renumber, relabelList_renumber g ρ es]
  | .setPredicate _ r, k => rfl
  | .setComparison e _ _ r, k => by
    rw [renumber, relabel, relabel, renumber, queries_renumber, relabel_renumber g ρ e]
  | .notSet, k => rfl
  | .literal _, k => rfl
  | .field _ _, k => rfl
  | .masked _, k => rfl
  | .noReference _, k => rfl
  | .noSubquery, k => rfl
  | .other _, k => rfl
theorem relabelArg_renumber (g : Nat → Option Str) (ρ : Nat → Nat) : ∀ (a : PbArg) (k : Nat),
    relabelArg g k (renumberArg ρ a) = renumberArg ρ (relabelArg g k a)
  | .value e, k => by rw [renumberArg, relabelArg, relabelArg, renumberArg, relabel_renumber g ρ e]
  | .notSet, k => rfl
  | .enum _, k => rfl
  | .type _, k => rfl
theorem relabelArgs_renumber (g : Nat → Option Str) (ρ : Nat → Nat) :
    ∀ (as : List PbArg) (k : Nat),
    relabelArgs g k (renumberArgs ρ as) = renumberArgs ρ (relabelArgs g k as)
  | [], k => rfl
  | a :: as, k => by
    rw [renumberArgs, relabelArgs, relabelArgs, renumberArgs, queriesArg_renumber,
      relabelArg_renumber g ρ a, relabelArgs_renumber g ρ as]
theorem relabelList_renumber (g : Nat → Option Str) (ρ : Nat → Nat) :
    ∀ (es : List PbExpr) (k : Nat),
    relabelList g k (renumberList ρ es) = renumberList ρ (relabelList g k es)
  | [], k => rfl
  | e :: es, k => by
    rw [renumberList, relabelList, relabelList, renumberList, queries_renumber,
      relabel_renumber g ρ e, relabelList_renumber g ρ es]
theorem relabelClause_renumber (g : Nat → Option Str) (ρ : Nat → Nat) :
    ∀ (a : PbClause) (k : Nat),
    relabelClause g k (renumberClause ρ a) = renumberClause ρ (relabelClause g k a)
  | .mk a b, k => by
    rw [renumberClause, relabelClause, relabelClause, renumberClause, queries_renumber,
      relabel_renumber g ρ a, relabel_renumber g ρ b]
theorem relabelClauses_renumber (g : Nat → Option Str) (ρ : Nat → Nat) :
    ∀ (as : List PbClause) (k : Nat),
    relabelClauses g k (renumberClauses ρ as) = renumberClauses ρ (relabelClauses g k as)
  | [], k => rfl
  | a :: as, k => by
    rw [renumberClauses, relabelClauses, relabelClauses, renumberClauses, queriesClause_renumber,
      relabelClause_renumber g ρ a, relabelClauses_renumber g ρ as]
end

mutual
/-- Without subqueries there is nothing to name. -/
theorem relabel_none (g : Nat → Option Str) : ∀ (e : PbExpr) (k : Nat), queries e = 0 →
    relabel g k e = e
  | .call f o as es t, k, h => by
    simp only [queries, Nat.add_eq_zero_iff] at h
    rw [relabel, relabelArgs_none g as k h.1, relabelList_none g es _ h.2]
  | .ifThen cs e, k, h => by
    simp only [queries, Nat.add_eq_zero_iff] at h
    rw [relabel, relabelClauses_none g cs k h.1, relabel_none g e _ h.2]
  | .cast e _ _, k, h => by
    simp only [queries] at h
    rw [relabel, relabel_none g e k h]
  | .scalar r, k, h => by cases r <;> simp [queries] at h; rfl
  | .inPredicate es r, k, h => by
    simp only [queries, Nat.add_eq_zero_iff] at h
    rw [relabel, relabelList_none g es k h.1]
    cases r <;> simp at h; rfl
  | .setPredicate _ r, k, h => by cases r <;> simp [queries] at h; rfl
  | .setComparison e _ _ r, k, h => by
    simp only [queries, Nat.add_eq_zero_iff] at h
    rw [relabel, relabel_none g e k h.1]
    cases r <;> simp at h; rfl
  | .notSet, k, _ => rfl
  | .literal _, k, _ => rfl
  | .field _ _, k, _ => rfl
  | .masked _, k, _ => rfl
  | .noReference _, k, _ => rfl
  | .noSubquery, k, _ => rfl
  | .other _, k, _ => rfl
theorem relabelArg_none (g : Nat → Option Str) : ∀ (a : PbArg) (k : Nat), queriesArg a = 0 →
    relabelArg g k a = a
  | .value e, k, h => by rw [relabelArg, relabel_none g e k h]
  | .notSet, k, _ => rfl
  | .enum _, k, _ => rfl
  | .type _, k, _ => rfl
theorem relabelArgs_none (g : Nat → Option Str) : ∀ (as : List PbArg) (k : Nat),
    queriesArgs as = 0 → relabelArgs g k as = as
  | [], k, _ => rfl
  | a :: as, k, h => by
    simp only [queriesArgs, Nat.add_eq_zero_iff] at h
    rw [relabelArgs, relabelArg_none g a k h.1, relabelArgs_none g as _ h.2]
theorem relabelList_none (g : Nat → Option Str) : ∀ (es : List PbExpr) (k : Nat),
    queriesList es = 0 → relabelList g k es = es
  | [], k, _ => rfl
  | e :: es, k, h => by
    simp only [queriesList, Nat.add_eq_zero_iff] at h
    rw [relabelList, relabel_none g e k h.1, relabelList_none g es _ h.2]
theorem relabelClause_none (g : Nat → Option Str) : ∀ (a : PbClause) (k : Nat),
    queriesClause a = 0 → relabelClause g k a = a
  | .mk a b, k, h => by
    simp only [queriesClause, Nat.add_eq_zero_iff] at h
    rw [relabelClause, relabel_none g a k h.1, relabel_none g b _ h.2]
theorem relabelClauses_none (g : Nat → Option Str) : ∀ (as : List PbClause) (k : Nat),
    queriesClauses as = 0 → relabelClauses g k as = as
  | [], k, _ => rfl
  | a :: as, k, h => by
    simp only [queriesClauses, Nat.add_eq_zero_iff] at h
    rw [relabelClauses, relabelClause_none g a k h.1, relabelClauses_none g as _ h.2]
end

/-! ## What does not change -/

theorem relabel_isSet (g : Nat → Option Str) (k : Nat) (e : PbExpr) :
    (relabel g k e).isSet = e.isSet := by
  cases e <;> rfl

theorem fieldOf_relabel (g : Nat → Option Str) (k : Nat) (e : PbExpr) :
    Rel.fieldOf (relabel g k e) = Rel.fieldOf e := by
  cases e <;> rfl

theorem itemOf_relabel (g : Nat → Option Str) (k : Nat) (e : PbExpr) :
    itemOf (relabel g k e) = itemOf e := by
  cases e <;> rfl

theorem groupOf_relabel (g : Nat → Option Str) (k : Nat) (e : PbExpr) :
    groupOf (relabel g k e) = groupOf e := by
  cases e <;> rfl

theorem leftmost_relabel (g : Nat → Option Str) : ∀ (e : PbExpr) (k : Nat),
    Rel.leftmost (relabel g k e) = relabel g k (Rel.leftmost e)
  | .setComparison e _ _ _, k => by
    simp only [relabel, Rel.leftmost]
    exact leftmost_relabel g e k
  | .ifThen _ _, k => rfl
  | .cast _ _ _, k => rfl
  | .scalar _, k => rfl
  | .inPredicate _ _, k => rfl
  | .setPredicate _ _, k => rfl
  | .call _ _ _ _ _, k => rfl
  | .notSet, k => rfl
  | .literal _, k => rfl
  | .field _ _, k => rfl
  | .masked _, k => rfl
  | .noReference _, k => rfl
  | .noSubquery, k => rfl
  | .other _, k => rfl

theorem isOuter_relabel (g : Nat → Option Str) (k : Nat) (e : PbExpr) :
    Rel.isOuter (relabel g k e) = Rel.isOuter e := by
  cases e <;> rfl

theorem fieldKept_relabel {g : Nat → Option Str} {k : Nat} {e : PbExpr} (h : Rel.FieldKept e) :
    Rel.FieldKept (relabel g k e) := by
  unfold Rel.FieldKept at h ⊢
  rw [leftmost_relabel, fieldOf_relabel, fieldOf_relabel, h]

mutual
theorem plain_relabel (g : Nat → Option Str) : ∀ (e : PbExpr) (k : Nat), Rel.Plain e →
    Rel.Plain (relabel g k e)
  | .ifThen cs e, k, h => by
    simp only [Rel.Plain] at h
    simp only [relabel, Rel.Plain]
    exact ⟨plainClauses_relabel g cs _ h.1, plain_relabel g e _ h.2⟩
  | .cast e _ _, k, h => by
    simp only [Rel.Plain] at h
    simp only [relabel, Rel.Plain]
    exact plain_relabel g e _ h
  | .setComparison e _ _ _, k, h => by
    simp only [Rel.Plain] at h
    simp only [relabel, Rel.Plain]
    exact plain_relabel g e _ h
  | .scalar _, k, h => by simp [Rel.Plain] at h
  | .inPredicate _ _, k, h => by simp [Rel.Plain] at h
  | .setPredicate _ _, k, h => by simp [Rel.Plain] at h
  | .call _ _ _ _ _, k, _ => by simp [relabel, Rel.Plain]
  | .notSet, k, _ => by simp [relabel, Rel.Plain]
  | .literal _, k, _ => by simp [relabel, Rel.Plain]
  | .field _ _, k, _ => by simp [relabel, Rel.Plain]
  | .masked _, k, _ => by simp [relabel, Rel.Plain]
  | .noReference _, k, _ => by simp [relabel, Rel.Plain]
  | .noSubquery, k, _ => by simp [relabel, Rel.Plain]
  | .other _, k, _ => by simp [relabel, Rel.Plain]
theorem plainClauses_relabel (g : Nat → Option Str) : ∀ (as : List PbClause) (k : Nat),
    Rel.PlainClauses as → Rel.PlainClauses (relabelClauses g k as)
  | [], k, _ => by simp [relabelClauses, Rel.PlainClauses]
  | .mk a b :: as, k, h => by
    simp only [Rel.PlainClauses, Rel.PlainClause] at h
    simp only [relabelClauses, relabelClause, Rel.PlainClauses, Rel.PlainClause]
    exact ⟨⟨plain_relabel g a _ h.1.1, plain_relabel g b _ h.1.2⟩, plainClauses_relabel g as _ h.2⟩
end

/-! ## What can be said -/

variable {lib : Lib} {fn : Known} {ref : Int → Prop}

theorem relabelArgs_nil {g : Nat → Option Str} {k : Nat} {as : List PbArg} (h : as ≠ []) :
    relabelArgs g k as ≠ [] := by
  cases as with
  | nil => exact absurd rfl h
  | cons a as => simp [relabelArgs]

theorem relabelClauses_nil {g : Nat → Option Str} {k : Nat} {as : List PbClause} (h : as ≠ []) :
    relabelClauses g k as ≠ [] := by
  cases as with
  | nil => exact absurd rfl h
  | cons a as => simp [relabelClauses]

/-- The names of the relations with numbers below `n` are known. -/
def Named (rel : Str → Prop) (h : Nat → Str) (n : Nat) : Prop := ∀ i, i < n → rel (h i)

theorem Named.less {rel : Str → Prop} {h : Nat → Str} {n m : Nat} (hn : Named rel h n)
    (hm : m ≤ n) : Named rel h m :=
  fun i hi => hn i (Nat.lt_of_lt_of_le hi hm)

/-- The same functions and other names. -/
abbrev Known.names (fn : Known) (rel : Str → Prop) : Known := { fn with rel := rel }

mutual
theorem told_relabel {rel : Str → Prop} {h : Nat → Str} : ∀ (e : PbExpr) (k : Nat),
    Told lib fn ref e → Named rel h (k + queries e) →
      Told lib (fn.names rel) ref (relabel (total h) k e)
  | .literal l, k, ht, hn => by cases l <;> simp only [Told, relabel] at ht ⊢ <;> exact ht
  | .field seg base, k, ht, hn => by
    cases seg with
    | other => simp [Told] at ht
    | field n b =>
      cases b with
      | true => cases base <;> simp [Told] at ht
      | false =>
        cases base with
        | root => simp only [Told, relabel] at ht ⊢; exact ht
        | outer m => cases m <;> simp only [Told, relabel] at ht ⊢; exact ht
        | _ => simp [Told] at ht
  | .call f o as es t, k, ht, hn => by
    unfold Told at ht
    split at ht <;> simp_all only [reduceCtorEq, PbExpr.call.injEq]
    rename_i heq
    obtain ⟨rfl, rfl, rfl, rfl, rfl⟩ := heq
    simp only [relabel, relabelList, Told]
    exact ⟨ht.1, relabelArgs_nil ht.2.1, toldArgs_relabel _ k ht.2.2.1
      (hn.less (by simp only [queries]; omega)), ht.2.2.2⟩
  | .ifThen cs e, k, ht, hn => by
    simp only [Told] at ht
    simp only [relabel, Told, relabel_isSet]
    simp only [queries] at hn
    refine ⟨?_, toldClauses_relabel cs k ht.2.1 (hn.less (by omega)), fun hs =>
      told_relabel e _ (ht.2.2 hs) (hn.less (by omega))⟩
    rcases ht.1 with h1 | h1
    · exact .inl (relabelClauses_nil h1)
    · exact .inr h1
  | .cast e t n, k, ht, hn => by
    unfold Told at ht
    split at ht <;> simp_all only [reduceCtorEq, PbExpr.cast.injEq]
    rename_i heq
    obtain ⟨rfl, rfl, rfl⟩ := heq
    simp only [relabel, Told]
    exact ⟨told_relabel e k ht.1 hn, ht.2⟩
  | .scalar r, k, ht, hn => by
    cases r <;> simp only [Told] at ht
    simp only [relabel, Option.bind_some, Told]
    exact hn k (by simp [queries])
  | .inPredicate es r, k, ht, hn => by
    cases r <;> simp only [Told] at ht
    obtain ⟨h1, h2, h3, h4⟩ := ht
    simp only [relabel, Option.bind_some, Told]
    simp only [queries, Option.toList_some, List.length_singleton] at hn
    refine ⟨?_, toldList_relabel es k h2 (hn.less (by omega)), ?_, hn _ (by omega)⟩
    · rw [relabelList_none _ es k h3]; exact h1
    · rw [relabelList_none _ es k h3]; exact h3
  | .setPredicate op r, k, ht, hn => by
    cases r <;> simp only [Told] at ht
    simp only [relabel, Option.bind_some, Told]
    exact ⟨ht.1, hn k (by simp [queries])⟩
  | .setComparison e op red r, k, ht, hn => by
    cases r <;> simp only [Told] at ht
    obtain ⟨h1, h2, h3, h4, h5⟩ := ht
    simp only [relabel, Option.bind_some, Told]
    simp only [queries, Option.toList_some, List.length_singleton] at hn
    refine ⟨told_relabel e k h1 (hn.less (by omega)), ?_, h3, h4, hn _ (by omega)⟩
    rw [relabel_none _ e k h2]; exact h2
  | .notSet, _, h, _ => by simp [Told] at h
  | .masked _, _, h, _ => by simp [Told] at h
  | .noReference _, _, h, _ => by simp [Told] at h
  | .noSubquery, _, h, _ => by simp [Told] at h
  | .other _, _, h, _ => by simp [Told] at h
theorem toldArgs_relabel {rel : Str → Prop} {h : Nat → Str} : ∀ (as : List PbArg) (k : Nat),
    ToldArgs lib fn ref as → Named rel h (k + queriesArgs as) →
      ToldArgs lib (fn.names rel) ref (relabelArgs (total h) k as)
  | [], _, _, _ => by simp [relabelArgs, ToldArgs]
  | a :: as, k, ht, hn => by
    simp only [ToldArgs] at ht
    simp only [relabelArgs, ToldArgs]
    simp only [queriesArgs] at hn
    refine ⟨?_, toldArgs_relabel as _ ht.2 (hn.less (by omega))⟩
    cases a with
    | value e =>
      have h1 := ht.1
      simp only [ToldArg] at h1
      simp only [relabelArg, ToldArg]
      simp only [queriesArg] at hn
      exact told_relabel e k h1 (hn.less (by omega))
    | enum s =>
      have h1 := ht.1
      simp only [ToldArg] at h1
      simp only [relabelArg, ToldArg]
      exact h1
    | notSet => exact absurd ht.1 (by simp [ToldArg])
    | type t => exact absurd ht.1 (by simp [ToldArg])
theorem toldList_relabel {rel : Str → Prop} {h : Nat → Str} : ∀ (es : List PbExpr) (k : Nat),
    ToldList lib fn ref es → Named rel h (k + queriesList es) →
      ToldList lib (fn.names rel) ref (relabelList (total h) k es)
  | [], _, _, _ => by simp [relabelList, ToldList]
  | e :: es, k, ht, hn => by
    simp only [ToldList] at ht
    simp only [relabelList, ToldList]
    simp only [queriesList] at hn
    exact ⟨told_relabel e k ht.1 (hn.less (by omega)), toldList_relabel es _ ht.2
      (hn.less (by omega))⟩
theorem toldClauses_relabel {rel : Str → Prop} {h : Nat → Str} : ∀ (as : List PbClause) (k : Nat),
    ToldClauses lib fn ref as → Named rel h (k + queriesClauses as) →
      ToldClauses lib (fn.names rel) ref (relabelClauses (total h) k as)
  | [], _, _, _ => by simp [relabelClauses, ToldClauses]
  | .mk a b :: as, k, ht, hn => by
    simp only [ToldClauses, ToldClause] at ht
    simp only [relabelClauses, relabelClause, ToldClauses, ToldClause]
    simp only [queriesClauses, queriesClause] at hn
    exact ⟨⟨told_relabel a k ht.1.1 (hn.less (by omega)),
      told_relabel b _ ht.1.2 (hn.less (by omega))⟩,
      toldClauses_relabel as _ ht.2 (hn.less (by simp only [queriesClause]; omega))⟩
end

mutual
/-- Names that are empty are taken out without a change. -/
theorem told_blank (hf : ∀ n, fn.rel n → n = []) : ∀ (e : PbExpr) (k : Nat), Told lib fn ref e →
    relabel (fun _ => some []) k e = e
  | .literal l, k, ht => rfl
  | .field seg base, k, ht => rfl
  | .call f o as es t, k, ht => by
    unfold Told at ht
    split at ht <;> simp_all only [reduceCtorEq, PbExpr.call.injEq]
    rename_i heq
    obtain ⟨rfl, rfl, rfl, rfl, rfl⟩ := heq
    rw [relabel, relabelList, toldArgs_blank hf _ k ht.2.2.1]
  | .ifThen cs e, k, ht => by
    simp only [Told] at ht
    rw [relabel, toldClauses_blank hf cs k ht.2.1]
    congr 1
    by_cases hs : e.isSet = true
    · exact told_blank hf e _ (ht.2.2 hs)
    · cases e <;> simp [PbExpr.isSet] at hs
      rfl
  | .cast e t n, k, ht => by
    unfold Told at ht
    split at ht <;> simp_all only [reduceCtorEq, PbExpr.cast.injEq]
    rename_i heq
    obtain ⟨rfl, rfl, rfl⟩ := heq
    rw [relabel, told_blank hf e k ht.1]
  | .scalar r, k, ht => by
    cases r <;> simp only [Told] at ht
    rw [hf _ ht]; rfl
  | .inPredicate es r, k, ht => by
    cases r <;> simp only [Told] at ht
    rw [relabel, toldList_blank hf es k ht.2.1, hf _ ht.2.2.2]; rfl
  | .setPredicate op r, k, ht => by
    cases r <;> simp only [Told] at ht
    rw [hf _ ht.2]; rfl
  | .setComparison e op red r, k, ht => by
    cases r <;> simp only [Told] at ht
    rw [relabel, told_blank hf e k ht.1, hf _ ht.2.2.2.2]; rfl
  | .notSet, _, h => by simp [Told] at h
  | .masked _, _, h => by simp [Told] at h
  | .noReference _, _, h => by simp [Told] at h
  | .noSubquery, _, h => by simp [Told] at h
  | .other _, _, h => by simp [Told] at h
theorem toldArgs_blank (hf : ∀ n, fn.rel n → n = []) : ∀ (as : List PbArg) (k : Nat),
    ToldArgs lib fn ref as → relabelArgs (fun _ => some []) k as = as
  | [], _, _ => rfl
  | a :: as, k, ht => by
    simp only [ToldArgs] at ht
    rw [relabelArgs, toldArgs_blank hf as _ ht.2]
    congr 1
    cases a with
    | value e =>
      have h1 := ht.1
      simp only [ToldArg] at h1
      rw [relabelArg, told_blank hf e k h1]
    | enum s => rfl
    | notSet => rfl
    | type t => rfl
theorem toldList_blank (hf : ∀ n, fn.rel n → n = []) : ∀ (es : List PbExpr) (k : Nat),
    ToldList lib fn ref es → relabelList (fun _ => some []) k es = es
  | [], _, _ => rfl
  | e :: es, k, ht => by
    simp only [ToldList] at ht
    rw [relabelList, told_blank hf e k ht.1, toldList_blank hf es _ ht.2]
theorem toldClauses_blank (hf : ∀ n, fn.rel n → n = []) : ∀ (as : List PbClause) (k : Nat),
    ToldClauses lib fn ref as → relabelClauses (fun _ => some []) k as = as
  | [], _, _ => rfl
  | .mk a b :: as, k, ht => by
    simp only [ToldClauses, ToldClause] at ht
    rw [relabelClauses, relabelClause, told_blank hf a k ht.1.1, told_blank hf b _ ht.1.2,
      toldClauses_blank hf as _ ht.2]
end

/-! ## The subqueries that the reader finds -/

/-- The names with the numbers from `k` to `k + n`. -/
def run (h : Nat → Str) (k n : Nat) : List Str := (List.range' k n).map h

theorem run_add (h : Nat → Str) (k n m : Nat) : run h k (n + m) = run h k n ++ run h (k + n) m := by
  unfold run
  rw [← List.map_append, List.range'_append_1]

theorem run_zero (h : Nat → Str) (k : Nat) : run h k 0 = [] := rfl

theorem run_one (h : Nat → Str) (k : Nat) : run h k 1 = [h k] := rfl

mutual
theorem asked_none : ∀ e : PbExpr, queries e = 0 → askedOf e = []
  | .call f o as es t, h => by
    simp only [queries, Nat.add_eq_zero_iff] at h
    rw [askedOf, askedArgs_none as h.1]
  | .ifThen cs e, h => by
    simp only [queries, Nat.add_eq_zero_iff] at h
    rw [askedOf, askedClauses_none cs h.1, asked_none e h.2]; rfl
  | .cast e _ _, h => by
    simp only [queries] at h
    rw [askedOf, asked_none e h]
  | .scalar r, h => by cases r <;> simp [queries] at h; rfl
  | .inPredicate es r, h => by
    simp only [queries, Nat.add_eq_zero_iff] at h
    rw [askedOf, askedList_none es h.1]
    cases r <;> simp at h; rfl
  | .setPredicate _ r, h => by cases r <;> simp [queries] at h; rfl
  | .setComparison e _ _ r, h => by
    simp only [queries, Nat.add_eq_zero_iff] at h
    rw [askedOf, asked_none e h.1]
    cases r <;> simp at h; rfl
  | .notSet, _ => by simp [askedOf]
  | .literal _, _ => by simp [askedOf]
  | .field _ _, _ => by simp [askedOf]
  | .masked _, _ => by simp [askedOf]
  | .noReference _, _ => by simp [askedOf]
  | .noSubquery, _ => by simp [askedOf]
  | .other _, _ => by simp [askedOf]
theorem askedArgs_none : ∀ as : List PbArg, queriesArgs as = 0 → askedArgs as = []
  | [], _ => rfl
  | a :: as, h => by
    simp only [queriesArgs, Nat.add_eq_zero_iff] at h
    rw [askedArgs, askedArgs_none as h.2]
    cases a with
    | value e => simp only [queriesArg] at h; simp [askedArg, asked_none e h.1]
    | notSet => simp [askedArg]
    | enum s => simp [askedArg]
    | type t => simp [askedArg]
theorem askedList_none : ∀ es : List PbExpr, queriesList es = 0 → askedList es = []
  | [], _ => rfl
  | e :: es, h => by
    simp only [queriesList, Nat.add_eq_zero_iff] at h
    rw [askedList, asked_none e h.1, askedList_none es h.2]; rfl
theorem askedClauses_none : ∀ as : List PbClause, queriesClauses as = 0 → askedClauses as = []
  | [], _ => rfl
  | .mk a b :: as, h => by
    simp only [queriesClauses, queriesClause, Nat.add_eq_zero_iff] at h
    rw [askedClauses, askedClause, asked_none a h.1.1, asked_none b h.1.2,
      askedClauses_none as h.2]; rfl
end

mutual
/-- The names are found in the order of their numbers. -/
theorem asked_told (h : Nat → Str) : ∀ (e : PbExpr) (k : Nat), Told lib fn ref e →
    askedOf (relabel (total h) k e) = run h k (queries e)
  | .literal l, k, ht => by simp [relabel, askedOf, queries, run_zero]
  | .field seg base, k, ht => by simp [relabel, askedOf, queries, run_zero]
  | .call f o as es t, k, ht => by
    unfold Told at ht
    split at ht <;> simp_all only [reduceCtorEq, PbExpr.call.injEq]
    rename_i heq
    obtain ⟨rfl, rfl, rfl, rfl, rfl⟩ := heq
    rw [relabel, askedOf, askedArgs_told h _ k ht.2.2.1, queries, queriesList, Nat.add_zero]
  | .ifThen cs e, k, ht => by
    simp only [Told] at ht
    rw [relabel, askedOf, askedClauses_told h cs k ht.2.1, queries, run_add]
    congr 1
    by_cases hs : e.isSet = true
    · exact asked_told h e _ (ht.2.2 hs)
    · cases e <;> simp [PbExpr.isSet] at hs
      simp [relabel, askedOf, queries, run_zero]
  | .cast e t n, k, ht => by
    unfold Told at ht
    split at ht <;> simp_all only [reduceCtorEq, PbExpr.cast.injEq]
    rename_i heq
    obtain ⟨rfl, rfl, rfl⟩ := heq
    rw [relabel, askedOf, asked_told h e k ht.1, queries]
  | .scalar r, k, ht => by cases r <;> simp only [Told] at ht; rfl
  | .inPredicate es r, k, ht => by
    cases r <;> simp only [Told] at ht
    rw [relabel, askedOf, relabelList_none _ es k ht.2.2.1, askedList_none es ht.2.2.1, queries,
      ht.2.2.1]
    simp [run_one]
  | .setPredicate op r, k, ht => by cases r <;> simp only [Told] at ht; rfl
  | .setComparison e op red r, k, ht => by
    cases r <;> simp only [Told] at ht
    rw [relabel, askedOf, relabel_none _ e k ht.2.1, asked_none e ht.2.1, queries, ht.2.1]
    simp [run_one]
  | .notSet, _, h => by simp [Told] at h
  | .masked _, _, h => by simp [Told] at h
  | .noReference _, _, h => by simp [Told] at h
  | .noSubquery, _, h => by simp [Told] at h
  | .other _, _, h => by simp [Told] at h
theorem askedArgs_told (h : Nat → Str) : ∀ (as : List PbArg) (k : Nat), ToldArgs lib fn ref as →
    askedArgs (relabelArgs (total h) k as) = run h k (queriesArgs as)
  | [], _, _ => rfl
  | a :: as, k, ht => by
    simp only [ToldArgs] at ht
    rw [relabelArgs, askedArgs, queriesArgs, run_add, askedArgs_told h as _ ht.2]
    congr 1
    cases a with
    | value e =>
      have h1 := ht.1
      simp only [ToldArg] at h1
      simp only [relabelArg, askedArg, queriesArg]
      exact asked_told h e k h1
    | enum s => simp [relabelArg, askedArg, queriesArg, run_zero]
    | notSet => simp [relabelArg, askedArg, queriesArg, run_zero]
    | type t => simp [relabelArg, askedArg, queriesArg, run_zero]
theorem askedClauses_told (h : Nat → Str) : ∀ (as : List PbClause) (k : Nat),
    ToldClauses lib fn ref as →
      askedClauses (relabelClauses (total h) k as) = run h k (queriesClauses as)
  | [], _, _ => rfl
  | .mk a b :: as, k, ht => by
    simp only [ToldClauses, ToldClause] at ht
    rw [relabelClauses, relabelClause, askedClauses, askedClause, queriesClauses, queriesClause,
      run_add, run_add, asked_told h a k ht.1.1, asked_told h b _ ht.1.2,
      askedClauses_told h as _ ht.2]
end

/-! ## Lists of expressions -/

theorem mem_relabelList {g : Nat → Option Str} {x : PbExpr} : ∀ {es : List PbExpr} {k : Nat},
    x ∈ relabelList g k es →
      ∃ e ∈ es, ∃ k', k' + queries e ≤ k + queriesList es ∧ x = relabel g k' e
  | [], _, h => by simp [relabelList] at h
  | e :: es, k, h => by
    simp only [relabelList, List.mem_cons] at h
    rcases h with h | h
    · exact ⟨e, .head _, k, by simp only [queriesList]; omega, h⟩
    · obtain ⟨e', he, k', hk, hx⟩ := mem_relabelList h
      exact ⟨e', .tail _ he, k', by simp only [queriesList]; omega, hx⟩

theorem relabelList_map {α : Type} {g : Nat → Option Str} (φ : PbExpr → α)
    (hφ : ∀ k e, φ (relabel g k e) = φ e) : ∀ (es : List PbExpr) (k : Nat),
    (relabelList g k es).map φ = es.map φ
  | [], _ => rfl
  | e :: es, k => by simp only [relabelList, List.map_cons, hφ, relabelList_map φ hφ es]

theorem relabelList_filterMap {α : Type} {g : Nat → Option Str} (φ : PbExpr → Option α)
    (hφ : ∀ k e, φ (relabel g k e) = φ e) : ∀ (es : List PbExpr) (k : Nat),
    (relabelList g k es).filterMap φ = es.filterMap φ
  | [], _ => rfl
  | e :: es, k => by
    simp only [relabelList, List.filterMap_cons, hφ, relabelList_filterMap φ hφ es]

theorem relabelList_length (g : Nat → Option Str) : ∀ (es : List PbExpr) (k : Nat),
    (relabelList g k es).length = es.length
  | [], _ => rfl
  | e :: es, k => by simp only [relabelList, List.length_cons, relabelList_length g es]

theorem relabelGroups_flatten {g : Nat → Option Str} : ∀ (gs : List (List PbExpr)) (k : Nat),
    (relabelGroups g k gs).flatten = relabelList g k gs.flatten
  | [], _ => rfl
  | es :: gs, k => by
    simp only [relabelGroups, List.flatten_cons]
    rw [relabelGroups_flatten gs]
    induction es generalizing k with
    | nil => simp [relabelList, queriesList]
    | cons e es ih =>
      simp only [relabelList, List.cons_append, queriesList, ← Nat.add_assoc]
      rw [ih]

theorem mem_relabelSorts {g : Nat → Option Str} {x : Rel.PbSort} :
    ∀ {ss : List Rel.PbSort} {k : Nat}, x ∈ relabelSorts g k ss →
      ∃ s ∈ ss, ∃ k', k' + queries s.expr ≤ k + queriesSorts ss ∧
        x = ⟨relabel g k' s.expr, s.kind⟩
  | [], _, h => by simp [relabelSorts] at h
  | s :: ss, k, h => by
    simp only [relabelSorts, List.mem_cons] at h
    rcases h with h | h
    · exact ⟨s, .head _, k, by simp only [queriesSorts]; omega, h⟩
    · obtain ⟨e', he, k', hk, hx⟩ := mem_relabelSorts h
      exact ⟨e', .tail _ he, k', by simp only [queriesSorts]; omega, hx⟩

theorem mem_relabelMeasures {g : Nat → Option Str} {x : Rel.PbMeasure} :
    ∀ {ms : List Rel.PbMeasure} {k : Nat}, x ∈ relabelMeasures g k ms →
      ∃ m ∈ ms, ∃ k', k' + queriesMeasure m ≤ k + queriesMeasures ms ∧ x = relabelMeasure g k' m
  | [], _, h => by simp [relabelMeasures] at h
  | s :: ss, k, h => by
    simp only [relabelMeasures, List.mem_cons] at h
    rcases h with h | h
    · exact ⟨s, .head _, k, by simp only [queriesMeasures]; omega, h⟩
    · obtain ⟨e', he, k', hk, hx⟩ := mem_relabelMeasures h
      exact ⟨e', .tail _ he, k', by simp only [queriesMeasures]; omega, hx⟩

theorem relabelMeasures_length (g : Nat → Option Str) : ∀ (ms : List Rel.PbMeasure) (k : Nat),
    (relabelMeasures g k ms).length = ms.length
  | [], _ => rfl
  | e :: es, k => by simp only [relabelMeasures, List.length_cons, relabelMeasures_length g es]

theorem map_const {α β : Type} (x : β) {l l' : List α} (h : l.length = l'.length) :
    l.map (fun _ => x) = l'.map fun _ => x := by
  rw [List.map_const', List.map_const', h]

/-! ## Relations: numbers and names -/

theorem queriesOpt_relabel (h : Nat → Str) (k : Nat) (e : Option PbExpr) :
    queriesOpt (relabelOpt (total h) k e) = queriesOpt e := by
  cases e with
  | none => rfl
  | some e => exact queries_relabel h e k

theorem queriesSorts_relabel (h : Nat → Str) : ∀ (ss : List Rel.PbSort) (k : Nat),
    queriesSorts (relabelSorts (total h) k ss) = queriesSorts ss
  | [], _ => rfl
  | s :: ss, k => by
    simp only [relabelSorts, queriesSorts, queries_relabel, queriesSorts_relabel h ss]

theorem queriesAggregate_relabel (h : Nat → Str) (k : Nat) (f : Rel.PbAggregate) :
    queriesAggregate (relabelAggregate (total h) k f) = queriesAggregate f := by
  simp only [relabelAggregate, queriesAggregate, queriesArgs_relabel, queriesSorts_relabel,
    queriesList_relabel]

theorem queriesMeasure_relabel (h : Nat → Str) (k : Nat) (m : Rel.PbMeasure) :
    queriesMeasure (relabelMeasure (total h) k m) = queriesMeasure m := by
  simp only [relabelMeasure, queriesMeasure, queriesOpt_relabel]
  cases m.measure with
  | none => rfl
  | some f => simp [queriesAggregate_relabel]

theorem queriesMeasures_relabel (h : Nat → Str) : ∀ (ms : List Rel.PbMeasure) (k : Nat),
    queriesMeasures (relabelMeasures (total h) k ms) = queriesMeasures ms
  | [], _ => rfl
  | s :: ss, k => by
    simp only [relabelMeasures, queriesMeasures, queriesMeasure_relabel,
      queriesMeasures_relabel h ss]

theorem queriesGroups_relabel (h : Nat → Str) : ∀ (gs : List (List PbExpr)) (k : Nat),
    queriesGroups (relabelGroups (total h) k gs) = queriesGroups gs
  | [], _ => rfl
  | s :: ss, k => by
    simp only [relabelGroups, queriesGroups, queriesList_relabel, queriesGroups_relabel h ss]

theorem queriesBody_relabel (h : Nat → Str) (b : Rel.Body) :
    queriesBody (relabelBody (total h) b) = queriesBody b := by
  cases b <;> simp only [relabelBody, queriesBody, queriesOpt_relabel, queriesSorts_relabel,
    queriesMeasures_relabel, queriesGroups_relabel, queriesList_relabel]

theorem relabelOpt_relabel (g : Nat → Option Str) (h : Nat → Str) (k : Nat) (e : Option PbExpr) :
    relabelOpt g k (relabelOpt (total h) k e) = relabelOpt g k e := by
  cases e with
  | none => rfl
  | some e => simp only [relabelOpt, Option.map_some, relabel_relabel]

theorem relabelSorts_relabel (g : Nat → Option Str) (h : Nat → Str) :
    ∀ (ss : List Rel.PbSort) (k : Nat),
    relabelSorts g k (relabelSorts (total h) k ss) = relabelSorts g k ss
  | [], _ => rfl
  | s :: ss, k => by
    simp only [relabelSorts, queries_relabel, relabel_relabel, relabelSorts_relabel g h ss]

theorem relabelMeasure_relabel (g : Nat → Option Str) (h : Nat → Str) (k : Nat)
    (m : Rel.PbMeasure) :
    relabelMeasure g k (relabelMeasure (total h) k m) = relabelMeasure g k m := by
  simp only [relabelMeasure, Option.map_map]
  cases m.measure with
  | none => simp [relabelOpt_relabel]
  | some f =>
    simp only [Option.map_some, Option.getD_some, Function.comp_apply, queriesAggregate_relabel,
      relabelOpt_relabel]
    simp only [relabelAggregate, queriesArgs_relabel, queriesSorts_relabel, relabelArgs_relabel,
      relabelSorts_relabel, relabelList_relabel]

theorem relabelMeasures_relabel (g : Nat → Option Str) (h : Nat → Str) :
    ∀ (ss : List Rel.PbMeasure) (k : Nat),
    relabelMeasures g k (relabelMeasures (total h) k ss) = relabelMeasures g k ss
  | [], _ => rfl
  | s :: ss, k => by
    simp only [relabelMeasures, queriesMeasure_relabel, relabelMeasure_relabel,
      relabelMeasures_relabel g h ss]

theorem relabelGroups_relabel (g : Nat → Option Str) (h : Nat → Str) :
    ∀ (ss : List (List PbExpr)) (k : Nat),
    relabelGroups g k (relabelGroups (total h) k ss) = relabelGroups g k ss
  | [], _ => rfl
  | s :: ss, k => by
    simp only [relabelGroups, queriesList_relabel, relabelList_relabel, relabelGroups_relabel g h ss]

theorem relabelBody_relabel (g : Nat → Option Str) (h : Nat → Str) (b : Rel.Body) :
    relabelBody g (relabelBody (total h) b) = relabelBody g b := by
  cases b <;> simp only [relabelBody, queriesOpt_relabel, relabelOpt_relabel, relabelSorts_relabel,
    relabelMeasures_relabel, relabelGroups_relabel, relabelList_relabel, queriesGroups_relabel]

/-! ## Relations: the numbers of functions -/

theorem renumberArgs_map (ρ : Nat → Nat) : ∀ es : List PbExpr,
    renumberList ρ es = es.map (renumber ρ)
  | [] => rfl
  | e :: es => by rw [renumberList, renumberArgs_map ρ es]; rfl

theorem queriesOpt_renumber (ρ : Nat → Nat) (e : Option PbExpr) :
    queriesOpt (e.map (renumber ρ)) = queriesOpt e := by
  cases e with
  | none => rfl
  | some e => exact queries_renumber ρ e

theorem queriesSorts_renumber (ρ : Nat → Nat) : ∀ ss : List Rel.PbSort,
    queriesSorts (ss.map (renumberSort ρ)) = queriesSorts ss
  | [] => rfl
  | s :: ss => by
    simp only [List.map_cons, queriesSorts, queriesSorts_renumber ρ ss, renumberSort,
      queries_renumber]

theorem queriesAggregate_renumber (ρ : Nat → Nat) (f : Rel.PbAggregate) :
    queriesAggregate (renumberAggregate ρ f) = queriesAggregate f := by
  simp only [renumberAggregate, queriesAggregate, queriesArgs_renumber, queriesSorts_renumber,
    queriesList_renumber]

theorem queriesMeasure_renumber (ρ : Nat → Nat) (m : Rel.PbMeasure) :
    queriesMeasure (renumberMeasure ρ m) = queriesMeasure m := by
  simp only [renumberMeasure, queriesMeasure, queriesOpt_renumber]
  cases m.measure with
  | none => rfl
  | some f => simp [queriesAggregate_renumber]

theorem queriesMeasures_renumber (ρ : Nat → Nat) : ∀ ms : List Rel.PbMeasure,
    queriesMeasures (ms.map (renumberMeasure ρ)) = queriesMeasures ms
  | [] => rfl
  | s :: ss => by
    simp only [List.map_cons, queriesMeasures, queriesMeasure_renumber,
      queriesMeasures_renumber ρ ss]

theorem queriesGroups_renumber (ρ : Nat → Nat) : ∀ gs : List (List PbExpr),
    queriesGroups (gs.map fun g => g.map (renumber ρ)) = queriesGroups gs
  | [] => rfl
  | s :: ss => by
    simp only [List.map_cons, queriesGroups, ← renumberArgs_map, queriesList_renumber]
    congr 1
    simp only [renumberArgs_map]
    exact queriesGroups_renumber ρ ss

theorem queriesBody_renumber (ρ : Nat → Nat) (b : Rel.Body) :
    queriesBody (renumberBody ρ b) = queriesBody b := by
  cases b <;> simp only [renumberBody, queriesBody, queriesOpt_renumber, queriesSorts_renumber,
    queriesMeasures_renumber, ← renumberArgs_map, queriesList_renumber]
  simp only [renumberArgs_map, queriesGroups_renumber]

theorem relabelOpt_renumber (g : Nat → Option Str) (ρ : Nat → Nat) (k : Nat) (e : Option PbExpr) :
    relabelOpt g k (e.map (renumber ρ)) = (relabelOpt g k e).map (renumber ρ) := by
  cases e with
  | none => rfl
  | some e => simp only [relabelOpt, Option.map_some, relabel_renumber]

theorem relabelSorts_renumber (g : Nat → Option Str) (ρ : Nat → Nat) :
    ∀ (ss : List Rel.PbSort) (k : Nat),
    relabelSorts g k (ss.map (renumberSort ρ)) = (relabelSorts g k ss).map (renumberSort ρ)
  | [], _ => rfl
  | s :: ss, k => by
    simp only [List.map_cons, relabelSorts, relabelSorts_renumber g ρ ss]
    simp only [renumberSort, queries_renumber, relabel_renumber]

theorem relabelMeasure_renumber (g : Nat → Option Str) (ρ : Nat → Nat) (k : Nat)
    (m : Rel.PbMeasure) :
    relabelMeasure g k (renumberMeasure ρ m) = renumberMeasure ρ (relabelMeasure g k m) := by
  simp only [relabelMeasure, renumberMeasure]
  cases m.measure with
  | none => simp [relabelOpt_renumber]
  | some f =>
    simp only [Option.map_some, Option.getD_some, queriesAggregate_renumber, relabelOpt_renumber]
    simp only [relabelAggregate, renumberAggregate, queriesArgs_renumber, queriesSorts_renumber,
      relabelArgs_renumber, relabelSorts_renumber, relabelList_renumber]

theorem relabelMeasures_renumber (g : Nat → Option Str) (ρ : Nat → Nat) :
    ∀ (ss : List Rel.PbMeasure) (k : Nat),
    relabelMeasures g k (ss.map (renumberMeasure ρ)) =
      (relabelMeasures g k ss).map (renumberMeasure ρ)
  | [], _ => rfl
  | s :: ss, k => by
    simp only [List.map_cons, relabelMeasures, queriesMeasure_renumber, relabelMeasure_renumber,
      relabelMeasures_renumber g ρ ss]

theorem relabelGroups_renumber (g : Nat → Option Str) (ρ : Nat → Nat) :
    ∀ (ss : List (List PbExpr)) (k : Nat),
    relabelGroups g k (ss.map fun es => es.map (renumber ρ)) =
      (relabelGroups g k ss).map fun es => es.map (renumber ρ)
  | [], _ => rfl
  | s :: ss, k => by
    simp only [List.map_cons, relabelGroups, relabelGroups_renumber g ρ ss]
    rw [← renumberArgs_map, relabelList_renumber, queriesList_renumber, renumberArgs_map]

theorem relabelBody_renumber (g : Nat → Option Str) (ρ : Nat → Nat) (b : Rel.Body) :
    relabelBody g (renumberBody ρ b) = renumberBody ρ (relabelBody g b) := by
  cases b <;> simp only [relabelBody, renumberBody, queriesOpt_renumber, relabelOpt_renumber,
    relabelSorts_renumber, relabelMeasures_renumber, relabelGroups_renumber,
    queriesGroups_renumber]
  rw [← renumberArgs_map, relabelList_renumber, renumberArgs_map]

/-! ## Relations: what does not change -/

theorem arity_relabel (g : Nat → Option Str) (b : Rel.Body) : arity (relabelBody g b) = arity b := by
  cases b <;> rfl

theorem isRead_relabel (g : Nat → Option Str) (b : Rel.Body) :
    isRead (relabelBody g b) = isRead b := by
  cases b <;> rfl

theorem pipeKind_relabel (g : Nat → Option Str) (b : Rel.Body) :
    pipeKind (relabelBody g b) = pipeKind b := by
  cases b <;> rfl

theorem kind_relabel (g : Nat → Option Str) (b : Rel.Body) : (relabelBody g b).kind = b.kind := by
  cases b <;> rfl

theorem madeKinds_relabel (g : Nat → Option Str) (f : List Bool) (b : Rel.Body) :
    madeKinds f (relabelBody g b) = madeKinds f b := by
  cases b <;> simp only [relabelBody, madeKinds]
  case project es =>
    exact relabelList_map _ (fun k e => by simp only [fieldOf_relabel]) es 0
  case aggregate gs ms =>
    rw [relabelGroups_flatten, relabelList_filterMap _ (fun k e => by simp only [fieldOf_relabel])]
    rw [map_const false (relabelMeasures_length g ms (queriesGroups gs))]

theorem stands_relabel (g : Nat → Option Str) (w : Nat) (es : List PbExpr) (k : Nat) (i : Int) :
    stands w (relabelList g k es) i = stands w es i := by
  have hh : ∀ (l : List PbExpr), stands w l i =
      if i < w then i else (((l.map Rel.fieldOf)[(i - w).toNat]?).getD none).getD i := by
    intro l
    unfold stands
    rw [List.getElem?_map]
    cases l[(i - w).toNat]? <;> rfl
  rw [hh, hh, relabelList_map _ (fieldOf_relabel g)]

theorem sameEmit_relabel {g : Nat → Option Str} {w : Nat} {b : Rel.Body} {e e' : List Int} :
    SameEmit w (relabelBody g b) e e' ↔ SameEmit w b e e' := by
  cases b <;> simp only [relabelBody, SameEmit]
  case project es =>
    have : stands w (relabelList g 0 es) = stands w es := funext fun i => stands_relabel g w es 0 i
    rw [this]

theorem grouped_relabel (g : Nat → Option Str) (k : Nat) (es : List PbExpr) :
    grouped (relabelList g k es) = grouped es :=
  relabelList_filterMap _ (fieldOf_relabel g) es k

/-! ## Relations: what can be said -/

theorem said_relabel {rel : Str → Prop} {h : Nat → Str} {e : PbExpr} {k : Nat}
    (he : Said lib fn ref e) (hn : Named rel h (k + queries e)) :
    Said lib (fn.names rel) ref (relabel (total h) k e) :=
  ⟨told_relabel e k he.1 hn, plain_relabel _ e k he.2⟩

theorem saidOpt_relabel {rel : Str → Prop} {h : Nat → Str} {e : Option PbExpr} {k : Nat}
    (he : SaidOpt lib fn ref e) (hn : Named rel h (k + queriesOpt e)) :
    SaidOpt lib (fn.names rel) ref (relabelOpt (total h) k e) := by
  intro x hx
  cases e with
  | none => simp [relabelOpt] at hx
  | some e =>
    simp only [relabelOpt, Option.map_some, Option.some.injEq] at hx
    rw [← hx]
    exact said_relabel (he e rfl) hn

theorem measureFits_relabel {rel : Str → Prop} {h : Nat → Str} {m : Rel.PbMeasure} {k : Nat}
    (hm : MeasureFits lib fn ref m) (hn : Named rel h (k + queriesMeasure m)) :
    MeasureFits lib (fn.names rel) ref (relabelMeasure (total h) k m) := by
  obtain ⟨⟨f, hf, h1, h2, h3, h4, h5, h6, h7, h8⟩, h9⟩ := hm
  simp only [queriesMeasure, hf, Option.map_some, Option.getD_some] at hn
  constructor
  · refine ⟨relabelAggregate (total h) k f, by simp [relabelMeasure, hf], h1, h2,
      toldArgs_relabel _ _ h3 (hn.less (by simp only [queriesAggregate]; omega)), ?_, h5, h6, h7, ?_⟩
    · simp only [relabelAggregate, h4, relabelList]
    · simp only [relabelAggregate, h8, relabelSorts]
  · simp only [relabelMeasure, hf, Option.map_some, Option.getD_some]
    exact saidOpt_relabel h9 (hn.less (by omega))

/-- The names may be filled in. -/
theorem bodyFits_relabel {rel : Str → Prop} {h : Nat → Str} {f : List Bool} {emit : List Int}
    {b : Rel.Body} (hb : BodyFits lib fn f emit b) (hn : Named rel h (queriesBody b)) :
    BodyFits lib (fn.names rel) f emit (relabelBody (total h) b) := by
  unfold BodyFits at hb
  split at hb
  · exact ⟨hb.1, saidOpt_relabel hb.2 (hn.less (by simp [queriesBody]))⟩
  · exact ⟨hb.1, saidOpt_relabel hb.2 (hn.less (by simp [queriesBody]))⟩
  · exact hb
  · refine ⟨hb.1, fun s hs => ?_⟩
    obtain ⟨s', hs', k', hk, rfl⟩ := mem_relabelSorts hs
    obtain ⟨h1, n, h2⟩ := hb.2 s' hs'
    exact ⟨said_relabel h1 (hn.less (by simpa [queriesBody] using hk)), n, h2⟩
  · exact ⟨hb.1, hb.2.1, saidOpt_relabel hb.2.2 (hn.less (by simp [queriesBody, queriesOpt]))⟩
  · exact hb
  · rename_i es
    obtain ⟨h1, h2, h3, h4⟩ := hb
    simp only [relabelBody, BodyFits]
    refine ⟨fun e he => ?_, fun hem e he => ?_, ?_, ?_⟩
    · obtain ⟨e', he', k', hk, rfl⟩ := mem_relabelList he
      exact ⟨said_relabel (h1 e' he').1 (hn.less (by simpa [queriesBody] using hk)),
        fieldKept_relabel (h1 e' he').2.1, (isOuter_relabel _ _ _).trans (h1 e' he').2.2⟩
    · obtain ⟨e', he', k', hk, rfl⟩ := mem_relabelList he
      rw [fieldOf_relabel]
      exact h2 hem e' he'
    · rw [relabelList_length]; exact h3
    · have : stands f.length (relabelList (total h) 0 es) = stands f.length es :=
        funext fun i => stands_relabel _ _ es 0 i
      rw [this]; exact h4
  · rename_i g ms
    obtain ⟨h1, h2, h3, h4, h5, h6⟩ := hb
    simp only [queriesBody, queriesGroups, Nat.add_zero] at hn
    have hu : ∀ i, Usable f (relabelList (total h) 0 g) i ↔ Usable f g i := by
      intro i
      unfold Usable
      rw [grouped_relabel]
    simp only [relabelBody, relabelGroups, BodyFits, grouped_relabel]
    have hu' : Usable f (relabelList (total h) 0 g) = Usable f g := funext fun i => propext (hu i)
    rw [hu']
    refine ⟨fun e he => ?_, h2, fun m hm => ?_, ?_, h5, fun i hi => ?_⟩
    · obtain ⟨e', he', k', hk, rfl⟩ := mem_relabelList he
      rcases h1 e' he' with h | ⟨n, rfl, h⟩
      · exact .inl ⟨said_relabel h.1 (hn.less (by omega)), fieldKept_relabel h.2.1,
          (isOuter_relabel _ _ _).trans h.2.2⟩
      · exact .inr ⟨n, rfl, h⟩
    · obtain ⟨m', hm', k', hk, rfl⟩ := mem_relabelMeasures hm
      exact measureFits_relabel (h3 m' hm') (hn.less (by simp only [queriesGroups] at hk; omega))
    · rcases h4 with h | h
      · exact .inl h
      · refine .inr ?_
        cases ms with
        | nil => exact absurd rfl h
        | cons m ms => simp [relabelMeasures]
    · refine ⟨(h6 i hi).1, ?_⟩
      have := madeKinds_relabel (total h) f (.aggregate [g] ms)
      simp only [relabelBody, relabelGroups] at this
      rw [this]
      exact (h6 i hi).2
  · exact absurd hb (by simp)

theorem saidOpt_blank (hf : ∀ n, fn.rel n → n = []) {e : Option PbExpr} {k : Nat}
    (h : SaidOpt lib fn ref e) : relabelOpt (fun _ => some []) k e = e := by
  cases e with
  | none => rfl
  | some e => simp only [relabelOpt, Option.map_some, told_blank hf e k (h e rfl).1]

theorem list_blank (hf : ∀ n, fn.rel n → n = []) : ∀ {es : List PbExpr} {k : Nat},
    (∀ e ∈ es, Told lib fn ref e ∨ queries e = 0) → relabelList (fun _ => some []) k es = es
  | [], _, _ => rfl
  | e :: es, k, h => by
    have he : relabel (fun _ => some []) k e = e := by
      rcases h e (.head _) with h | h
      · exact told_blank hf e k h
      · exact relabel_none _ e k h
    rw [relabelList, he, list_blank hf fun e he => h e (.tail _ he)]

theorem sorts_blank (hf : ∀ n, fn.rel n → n = []) : ∀ {ss : List Rel.PbSort} {k : Nat},
    (∀ s ∈ ss, Told lib fn ref s.expr) → relabelSorts (fun _ => some []) k ss = ss
  | [], _, _ => rfl
  | s :: ss, k, h => by
    rw [relabelSorts, told_blank hf _ k (h s (.head _)), sorts_blank hf fun e he => h e (.tail _ he)]

theorem measures_blank (hf : ∀ n, fn.rel n → n = []) : ∀ {ms : List Rel.PbMeasure} {k : Nat},
    (∀ m ∈ ms, MeasureFits lib fn ref m) → relabelMeasures (fun _ => some []) k ms = ms
  | [], _, _ => rfl
  | m :: ms, k, h => by
    rw [relabelMeasures, measures_blank hf fun e he => h e (.tail _ he)]
    congr 1
    obtain ⟨⟨f, hm, h1, h2, h3, h4, h5, h6, h7, h8⟩, h9⟩ := h m (.head _)
    obtain ⟨measure, filter⟩ := m
    simp only at hm h9
    subst hm
    simp only [relabelMeasure, Option.map_some, saidOpt_blank hf h9]
    congr 2
    obtain ⟨a, b, c, d, e, p, i, s⟩ := f
    simp only at h3 h4 h8
    subst h4 h8
    simp only [relabelAggregate, relabelList, relabelSorts, toldArgs_blank hf _ _ h3]

/-- Names that are empty are taken out without a change. -/
theorem bodyFits_blank (hf : ∀ n, fn.rel n → n = []) {f : List Bool} {emit : List Int}
    {b : Rel.Body} (hb : BodyFits lib fn f emit b) : blankBody b = b := by
  unfold blankBody
  unfold BodyFits at hb
  split at hb
  · simp only [relabelBody, saidOpt_blank hf hb.2]; rfl
  · simp only [relabelBody, saidOpt_blank hf hb.2]
  · rfl
  · simp only [relabelBody]
    rw [sorts_blank hf fun s hs => (hb.2 s hs).1.1]
  · simp only [relabelBody, saidOpt_blank hf hb.2.2]; rfl
  · rfl
  · simp only [relabelBody]
    rw [list_blank hf fun e he => .inl (hb.1 e he).1.1]
  · simp only [relabelBody, relabelGroups]
    rw [list_blank hf fun e he => (hb.1 e he).imp (fun h => h.1.1) fun ⟨n, hn, _⟩ => by
      rw [hn]; rfl, measures_blank hf hb.2.2.1]
  · exact absurd hb (by simp)

/-! ## Relations: the subqueries that the reader finds -/

theorem askedOpt_said (h : Nat → Str) {e : Option PbExpr} {k : Nat} (he : SaidOpt lib fn ref e) :
    Rel.askedOpt (relabelOpt (total h) k e) = run h k (queriesOpt e) := by
  cases e with
  | none => rfl
  | some e => exact asked_told h e k (he e rfl).1

theorem asked_list (h : Nat → Str) : ∀ {es : List PbExpr} {k : Nat},
    (∀ e ∈ es, Told lib fn ref e ∨ queries e = 0) →
      (relabelList (total h) k es).flatMap askedOf = run h k (queriesList es)
  | [], _, _ => rfl
  | e :: es, k, he => by
    have h1 : askedOf (relabel (total h) k e) = run h k (queries e) := by
      rcases he e (.head _) with hh | hh
      · exact asked_told h e k hh
      · rw [relabel_none _ e k hh, asked_none e hh, hh]; rfl
    rw [relabelList, List.flatMap_cons, h1, asked_list h fun e hh => he e (.tail _ hh), queriesList,
      run_add]

theorem asked_sorts (h : Nat → Str) : ∀ {ss : List Rel.PbSort} {k : Nat},
    (∀ s ∈ ss, Told lib fn ref s.expr) →
      (relabelSorts (total h) k ss).flatMap (fun s => askedOf s.expr) = run h k (queriesSorts ss)
  | [], _, _ => rfl
  | s :: ss, k, he => by
    rw [relabelSorts, List.flatMap_cons, asked_told h _ k (he s (.head _)),
      asked_sorts h fun e hh => he e (.tail _ hh), queriesSorts, run_add]

theorem asked_measures (h : Nat → Str) : ∀ {ms : List Rel.PbMeasure} {k : Nat},
    (∀ m ∈ ms, MeasureFits lib fn ref m) →
      (relabelMeasures (total h) k ms).flatMap Rel.askedMeasure = run h k (queriesMeasures ms)
  | [], _, _ => rfl
  | m :: ms, k, he => by
    rw [relabelMeasures, List.flatMap_cons, asked_measures h fun e hh => he e (.tail _ hh),
      queriesMeasures, run_add]
    congr 1
    obtain ⟨⟨f, hm, h1, h2, h3, h4, h5, h6, h7, h8⟩, h9⟩ := he m (.head _)
    simp only [Rel.askedMeasure, relabelMeasure, hm, Option.map_some, Option.getD_some,
      askedOpt_said h h9, queriesMeasure]
    rw [run_add]
    congr 1
    simp only [relabelAggregate, askedArgs_told h _ _ h3, queriesAggregate, h4, h8, queriesSorts,
      queriesList, Nat.add_zero]

/-- The names are found in the order of their numbers. -/
theorem asked_bodyFits (h : Nat → Str) {f : List Bool} {emit : List Int} {b : Rel.Body}
    (hb : BodyFits lib fn f emit b) :
    Rel.askedBody (relabelBody (total h) b) = run h 0 (queriesBody b) := by
  unfold BodyFits at hb
  split at hb
  · simp only [relabelBody, Rel.askedBody, askedOpt_said h hb.2, queriesBody]
    simp [relabelOpt, Rel.askedOpt, queriesOpt]
  · exact askedOpt_said h hb.2
  · rfl
  · exact asked_sorts h fun s hs => (hb.2 s hs).1.1
  · simp only [relabelBody, Rel.askedBody, askedOpt_said h hb.2.2, queriesBody]
    simp [relabelOpt, Rel.askedOpt, queriesOpt]
  · rfl
  · exact asked_list h fun e he => .inl (hb.1 e he).1.1
  · simp only [relabelBody, relabelGroups, Rel.askedBody, List.flatten_cons, List.flatten_nil,
      List.append_nil, queriesBody, queriesGroups, Nat.add_zero]
    rw [asked_list h fun e he => (hb.1 e he).imp (fun h => h.1.1) fun ⟨n, hn, _⟩ => by
      rw [hn]; rfl, asked_measures h hb.2.2.1, run_add, Nat.zero_add]
  · exact absurd hb (by simp)

/-! ## Names from a list -/

/-- The names by their numbers. -/
abbrev nth (names : List Str) (i : Nat) : Str := (names[i]?).getD []

theorem run_nth (names : List Str) : run (nth names) 0 names.length = names := by
  unfold run
  apply List.ext_getElem?
  intro i
  rw [List.getElem?_map]
  by_cases hi : i < names.length
  · rw [List.getElem?_range' hi]; simp [nth, hi]
  · rw [List.getElem?_eq_none (by simpa using hi), List.getElem?_eq_none (by simpa using hi)]
    rfl

theorem named_nth {rel : Str → Prop} {names : List Str} (h : ∀ n ∈ names, rel n) :
    Named rel (nth names) names.length := by
  intro i hi
  simp only [nth, List.getElem?_eq_getElem hi, Option.getD_some]
  exact h _ (List.getElem_mem hi)

theorem fillBody_def (names : List Str) (b : Rel.Body) :
    fillBody names b = relabelBody (total (nth names)) b := rfl

theorem queriesBody_fill (names : List Str) (b : Rel.Body) :
    queriesBody (fillBody names b) = queriesBody b := queriesBody_relabel _ b

theorem bodyFits_fill {rel : Str → Prop} {names : List Str} {f : List Bool} {emit : List Int}
    {b : Rel.Body} (hb : BodyFits lib fn f emit b) (hl : names.length = queriesBody b)
    (hn : ∀ n ∈ names, rel n) : BodyFits lib (fn.names rel) f emit (fillBody names b) :=
  bodyFits_relabel hb (hl ▸ named_nth hn)

theorem asked_fill {names : List Str} {f : List Bool} {emit : List Int} {b : Rel.Body}
    (hb : BodyFits lib fn f emit b) (hl : names.length = queriesBody b) :
    Rel.askedBody (fillBody names b) = names := by
  rw [fillBody_def, asked_bodyFits _ hb, ← hl, run_nth]

/-- The names are taken out again. -/
theorem blank_fill (hf : ∀ n, fn.rel n → n = []) (ρ : Nat → Nat) {names : List Str} {f : List Bool}
    {emit : List Int} {b : Rel.Body} (hb : BodyFits lib fn f emit b) :
    blankBody (renumberBody ρ (fillBody names b)) = renumberBody ρ b := by
  unfold blankBody
  rw [relabelBody_renumber, fillBody_def, relabelBody_relabel]
  congr 1
  exact bodyFits_blank hf hb

/-! ## Inputs and subqueries in one list -/

section Split

variable {α β : Type}

theorem arrange_split (b : Rel.Body) (l : List α) :
    Pipe.arrange (pipeKind b) (inputsIn b l) (queriesIn b l) = l := by
  unfold Pipe.arrange inputsIn queriesIn
  cases Pipe.inputsFirst (pipeKind b) <;> simp

theorem inputsIn_map (b : Rel.Body) (φ : α → β) (l : List α) :
    inputsIn b (l.map φ) = (inputsIn b l).map φ := by
  unfold inputsIn
  split <;> simp [List.map_take, List.map_drop]

theorem queriesIn_map (b : Rel.Body) (φ : α → β) (l : List α) :
    queriesIn b (l.map φ) = (queriesIn b l).map φ := by
  unfold queriesIn
  split <;> simp [List.map_take, List.map_drop]

theorem mem_inputsIn {b : Rel.Body} {l : List α} {x : α} (h : x ∈ inputsIn b l) : x ∈ l := by
  unfold inputsIn at h
  split at h
  · exact List.mem_of_mem_take h
  · exact List.mem_of_mem_drop h

theorem mem_queriesIn {b : Rel.Body} {l : List α} {x : α} (h : x ∈ queriesIn b l) : x ∈ l := by
  unfold queriesIn at h
  split at h
  · exact List.mem_of_mem_drop h
  · exact List.mem_of_mem_take h

theorem length_inputsIn {b : Rel.Body} {l : List α} {n : Nat}
    (h : l.length = n + queriesBody b) : (inputsIn b l).length = n := by
  unfold inputsIn
  split
  · rw [List.length_take]; omega
  · rw [List.length_drop]; omega

theorem length_queriesIn {b : Rel.Body} {l : List α} {n : Nat}
    (h : l.length = n + queriesBody b) : (queriesIn b l).length = queriesBody b := by
  unfold queriesIn
  split
  · rw [List.length_drop]; omega
  · rw [List.length_take]; omega

theorem sublist_inputsIn (b : Rel.Body) (l : List α) : (inputsIn b l).Sublist l := by
  unfold inputsIn
  split
  · exact List.take_sublist _ _
  · exact List.drop_sublist _ _

theorem sublist_queriesIn (b : Rel.Body) (l : List α) : (queriesIn b l).Sublist l := by
  unfold queriesIn
  split
  · exact List.drop_sublist _ _
  · exact List.take_sublist _ _

theorem perm_split (b : Rel.Body) (l : List α) :
    l.Perm (inputsIn b l ++ queriesIn b l) := by
  unfold inputsIn queriesIn
  cases Pipe.inputsFirst (pipeKind b)
  · simp only [Bool.false_eq_true, if_false]
    exact (List.Perm.of_eq (List.take_append_drop _ l).symm).trans List.perm_append_comm
  · simp

/-- The split depends on the kind of the relation and the number of subqueries. -/
theorem inputsIn_congr {b b' : Rel.Body} (hk : pipeKind b = pipeKind b')
    (hq : queriesBody b = queriesBody b') (l : List α) : inputsIn b l = inputsIn b' l := by
  unfold inputsIn; rw [hk, hq]

theorem queriesIn_congr {b b' : Rel.Body} (hk : pipeKind b = pipeKind b')
    (hq : queriesBody b = queriesBody b') (l : List α) : queriesIn b l = queriesIn b' l := by
  unfold queriesIn; rw [hk, hq]

theorem split_arrange {b : Rel.Body} {xs ys : List α} (h : ys.length = queriesBody b) :
    inputsIn b (Pipe.arrange (pipeKind b) xs ys) = xs ∧
      queriesIn b (Pipe.arrange (pipeKind b) xs ys) = ys := by
  unfold Pipe.arrange inputsIn queriesIn
  cases Pipe.inputsFirst (pipeKind b) <;> simp [← h]

end Split

end Verif.Whole
