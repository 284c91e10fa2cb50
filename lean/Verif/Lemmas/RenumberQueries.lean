import Verif.Spec.Renumber

/-! # Subqueries and other numbers for functions -/

namespace Verif.Whole

open Verif Verif.Expr

mutual
theorem queries_num (σ : Nat → Nat) : ∀ e, queries (renumber σ e) = queries e
  | .call f o as es t => by rw [renumber, queries, queries, queriesArgs_num σ as, queriesList_num σ es]
  | .ifThen cs e => by rw [renumber, queries, queries, queriesClauses_num σ cs, queries_num σ e]
  | .cast e _ _ => by rw [renumber, queries, queries, queries_num σ e]
  | .scalar r => rfl
  | .inPredicate es r => by rw [renumber, queries, queries, queriesList_num σ es]
  | .setPredicate _ r => rfl
  | .setComparison e _ _ r => by rw [renumber, queries, queries, queries_num σ e]
  | .notSet => rfl
  | .literal _ => rfl
  | .field _ _ => rfl
  | .masked _ => rfl
  | .noReference _ => rfl
  | .noSubquery => rfl
  | .other _ => rfl
theorem queriesArg_num (σ : Nat → Nat) : ∀ a, queriesArg (renumberArg σ a) = queriesArg a
  | .value e => by rw [renumberArg, queriesArg, queriesArg, queries_num σ e]
  | .notSet => rfl
  | .enum _ => rfl
  | .type _ => rfl
theorem queriesArgs_num (σ : Nat → Nat) : ∀ as, queriesArgs (renumberArgs σ as) = queriesArgs as
  | [] => rfl
  | a :: as => by rw [renumberArgs, queriesArgs, queriesArgs, queriesArg_num σ a, queriesArgs_num σ as]
theorem queriesList_num (σ : Nat → Nat) : ∀ es, queriesList (renumberList σ es) = queriesList es
  | [] => rfl
  | e :: es => by rw [renumberList, queriesList, queriesList, queries_num σ e, queriesList_num σ es]
theorem queriesClause_num (σ : Nat → Nat) : ∀ a, queriesClause (renumberClause σ a) = queriesClause a
  | .mk a b => by rw [renumberClause, queriesClause, queriesClause, queries_num σ a, queries_num σ b]
theorem queriesClauses_num (σ : Nat → Nat) : ∀ as, queriesClauses (renumberClauses σ as) = queriesClauses as
  | [] => rfl
  | a :: as => by
    rw [renumberClauses, queriesClauses, queriesClauses, queriesClause_num σ a, queriesClauses_num σ as]
end

mutual
theorem relabel_num (σ : Nat → Nat) (g : Nat → Option Str) : ∀ e k,
    relabel g k (renumber σ e) = renumber σ (relabel g k e)
  | .call f o as es t, k => by
    rw [renumber, relabel, relabel, renumber, relabelArgs_num σ g as, relabelList_num σ g es, queriesArgs_num]
  | .ifThen cs e, k => by
    rw [renumber, relabel, relabel, renumber, relabelClauses_num σ g cs, relabel_num σ g e, queriesClauses_num]
  | .cast e _ _, k => by rw [renumber, relabel, relabel, renumber, relabel_num σ g e]
  | .scalar r, k => rfl
  | .inPredicate es r, k => by
    rw [renumber, relabel, relabel, renumber, relabelList_num σ g es, queriesList_num]
  | .setPredicate _ r, k => rfl
  | .setComparison e _ _ r, k => by
    rw [renumber, relabel, relabel, renumber, relabel_num σ g e, queries_num]
  | .notSet, k => rfl
  | .literal _, k => rfl
  | .field _ _, k => rfl
  | .masked _, k => rfl
  | .noReference _, k => rfl
  | .noSubquery, k => rfl
  | .other _, k => rfl
theorem relabelArg_num (σ : Nat → Nat) (g : Nat → Option Str) : ∀ a k,
    relabelArg g k (renumberArg σ a) = renumberArg σ (relabelArg g k a)
  | .value e, k => by rw [renumberArg, relabelArg, relabelArg, renumberArg, relabel_num σ g e]
  | .notSet, k => rfl
  | .enum _, k => rfl
  | .type _, k => rfl
theorem relabelArgs_num (σ : Nat → Nat) (g : Nat → Option Str) : ∀ as k,
    relabelArgs g k (renumberArgs σ as) = renumberArgs σ (relabelArgs g k as)
  | [], k => rfl
  | a :: as, k => by
    rw [renumberArgs, relabelArgs, relabelArgs, renumberArgs, relabelArg_num σ g a, relabelArgs_num σ g as,
      queriesArg_num]
theorem relabelList_num (σ : Nat → Nat) (g : Nat → Option Str) : ∀ es k,
    relabelList g k (renumberList σ es) = renumberList σ (relabelList g k es)
  | [], k => rfl
  | e :: es, k => by
    rw [renumberList, relabelList, relabelList, renumberList, relabel_num σ g e, relabelList_num σ g es, queries_num]
theorem relabelClause_num (σ : Nat → Nat) (g : Nat → Option Str) : ∀ a k,
    relabelClause g k (renumberClause σ a) = renumberClause σ (relabelClause g k a)
  | .mk a b, k => by
    rw [renumberClause, relabelClause, relabelClause, renumberClause, relabel_num σ g a, relabel_num σ g b, queries_num]
theorem relabelClauses_num (σ : Nat → Nat) (g : Nat → Option Str) : ∀ as k,
    relabelClauses g k (renumberClauses σ as) = renumberClauses σ (relabelClauses g k as)
  | [], k => rfl
  | a :: as, k => by
    rw [renumberClauses, relabelClauses, relabelClauses, renumberClauses, relabelClause_num σ g a,
      relabelClauses_num σ g as, queriesClause_num]
end

theorem queriesOpt_num (σ : Nat → Nat) : ∀ e, queriesOpt (e.map (renumber σ)) = queriesOpt e
  | none => rfl
  | some e => queries_num σ e

theorem relabelOpt_num (σ : Nat → Nat) (g : Nat → Option Str) (k : Nat) :
    ∀ e, relabelOpt g k (e.map (renumber σ)) = (relabelOpt g k e).map (renumber σ)
  | none => rfl
  | some e => congrArg some (relabel_num σ g e k)

theorem queriesSorts_num (σ : Nat → Nat) : ∀ ss, queriesSorts (ss.map (renumberSort σ)) = queriesSorts ss
  | [] => rfl
  | s :: ss => by
    rw [List.map_cons, queriesSorts, queriesSorts, queriesSorts_num σ ss, renumberSort, queries_num]

theorem relabelSorts_num (σ : Nat → Nat) (g : Nat → Option Str) : ∀ ss k,
    relabelSorts g k (ss.map (renumberSort σ)) = (relabelSorts g k ss).map (renumberSort σ)
  | [], k => rfl
  | s :: ss, k => by
    simp only [List.map_cons, relabelSorts, relabelSorts_num σ g ss, renumberSort, queries_num, relabel_num]

theorem queriesAggregate_num (σ : Nat → Nat) (f : Rel.PbAggregate) :
    queriesAggregate (renumberAggregate σ f) = queriesAggregate f := by
  simp only [queriesAggregate, renumberAggregate, queriesArgs_num, queriesSorts_num, queriesList_num]

theorem relabelAggregate_num (σ : Nat → Nat) (g : Nat → Option Str) (k : Nat) (f : Rel.PbAggregate) :
    relabelAggregate g k (renumberAggregate σ f) = renumberAggregate σ (relabelAggregate g k f) := by
  simp only [relabelAggregate, renumberAggregate, queriesArgs_num, queriesSorts_num, relabelArgs_num,
    relabelList_num, relabelSorts_num]

theorem queriesMeasure_num (σ : Nat → Nat) (m : Rel.PbMeasure) :
    queriesMeasure (renumberMeasure σ m) = queriesMeasure m := by
  obtain ⟨f, e⟩ := m
  cases f <;> simp only [queriesMeasure, renumberMeasure, queriesOpt_num, Option.map_some, Option.map_none,
    queriesAggregate_num]

theorem relabelMeasure_num (σ : Nat → Nat) (g : Nat → Option Str) (k : Nat) (m : Rel.PbMeasure) :
    relabelMeasure g k (renumberMeasure σ m) = renumberMeasure σ (relabelMeasure g k m) := by
  obtain ⟨f, e⟩ := m
  cases f <;> simp only [relabelMeasure, renumberMeasure, relabelOpt_num, Option.map_some, Option.map_none,
    queriesAggregate_num, relabelAggregate_num]

theorem queriesMeasures_num (σ : Nat → Nat) : ∀ ms,
    queriesMeasures (ms.map (renumberMeasure σ)) = queriesMeasures ms
  | [] => rfl
  | m :: ms => by
    rw [List.map_cons, queriesMeasures, queriesMeasures, queriesMeasures_num σ ms, queriesMeasure_num]

theorem relabelMeasures_num (σ : Nat → Nat) (g : Nat → Option Str) : ∀ ms k,
    relabelMeasures g k (ms.map (renumberMeasure σ)) = (relabelMeasures g k ms).map (renumberMeasure σ)
  | [], k => rfl
  | m :: ms, k => by
    simp only [List.map_cons, relabelMeasures, relabelMeasures_num σ g ms, relabelMeasure_num,
      queriesMeasure_num]

theorem queriesGroups_num (σ : Nat → Nat) : ∀ gs, queriesGroups (gs.map (renumberList σ)) = queriesGroups gs
  | [] => rfl
  | es :: gs => by
    rw [List.map_cons, queriesGroups, queriesGroups, queriesGroups_num σ gs, queriesList_num]

theorem relabelGroups_num (σ : Nat → Nat) (g : Nat → Option Str) : ∀ gs k,
    relabelGroups g k (gs.map (renumberList σ)) = (relabelGroups g k gs).map (renumberList σ)
  | [], k => rfl
  | es :: gs, k => by
    simp only [List.map_cons, relabelGroups, relabelGroups_num σ g gs, relabelList_num, queriesList_num]

theorem num_list (σ : Nat → Nat) : ∀ es : List PbExpr, es.map (renumber σ) = renumberList σ es
  | [] => rfl
  | e :: es => by rw [List.map_cons, num_list σ es, renumberList]

theorem num_aggregate (σ : Nat → Nat) (gs : List (List PbExpr)) (ms : List Rel.PbMeasure) :
    renumberBody σ (.aggregate gs ms) = .aggregate (gs.map (renumberList σ)) (ms.map (renumberMeasure σ)) := by
  simp only [renumberBody, num_list]

theorem num_project (σ : Nat → Nat) (es : List PbExpr) :
    renumberBody σ (.project es) = .project (renumberList σ es) := by
  simp only [renumberBody, num_list]

theorem queriesBody_num (σ : Nat → Nat) (b : Rel.Body) : queriesBody (renumberBody σ b) = queriesBody b := by
  cases b <;> simp only [renumberBody, num_list, queriesBody, queriesOpt_num, queriesGroups_num, queriesMeasures_num,
    queriesSorts_num, queriesList_num]

theorem relabelBody_num (σ : Nat → Nat) (g : Nat → Option Str) (b : Rel.Body) :
    relabelBody g (renumberBody σ b) = renumberBody σ (relabelBody g b) := by
  cases b <;> simp only [renumberBody, num_list, relabelBody, queriesOpt_num, queriesGroups_num, relabelOpt_num,
    relabelGroups_num, relabelMeasures_num, relabelSorts_num, relabelList_num]

end Verif.Whole
