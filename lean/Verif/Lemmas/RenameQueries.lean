import Verif.Lemmas.RenameRel

/-! # The subqueries of a relation with other names -/

namespace Verif.Whole

open Verif Verif.Expr

variable {ρ : Str → Str} (g : Nat → Option Str)

mutual
theorem queries_ren : ∀ e : PbExpr, queries (renP ρ e) = queries e
  | .call _ _ as es _ => by simp only [renP, queries, queriesArgs_ren as, queriesList_ren es]
  | .ifThen cs e => by simp only [renP, queries, queriesClauses_ren cs, queries_ren e]
  | .cast e _ _ => by simp only [renP, queries, queries_ren e]
  | .scalar r => by cases r <;> simp [renP, queries]
  | .inPredicate es r => by cases r <;> simp [renP, queries, queriesList_ren es]
  | .setPredicate _ r => by cases r <;> simp [renP, queries]
  | .setComparison e _ _ r => by cases r <;> simp [renP, queries, queries_ren e]
  | .notSet => rfl
  | .literal _ => rfl
  | .field _ _ => rfl
  | .masked _ => rfl
  | .noReference _ => rfl
  | .noSubquery => rfl
  | .other _ => rfl
theorem queriesArg_ren : ∀ a : PbArg, queriesArg (renPArg ρ a) = queriesArg a
  | .value e => by simp only [renPArg, queriesArg, queries_ren e]
  | .notSet => rfl
  | .enum _ => rfl
  | .type _ => rfl
theorem queriesArgs_ren : ∀ as : List PbArg, queriesArgs (renPArgs ρ as) = queriesArgs as
  | [] => rfl
  | a :: as => by simp only [renPArgs, queriesArgs, queriesArg_ren a, queriesArgs_ren as]
theorem queriesList_ren : ∀ es : List PbExpr, queriesList (renPs ρ es) = queriesList es
  | [] => rfl
  | e :: es => by simp only [renPs, queriesList, queries_ren e, queriesList_ren es]
theorem queriesClause_ren : ∀ a : PbClause, queriesClause (renPClause ρ a) = queriesClause a
  | .mk a b => by simp only [renPClause, queriesClause, queries_ren a, queries_ren b]
theorem queriesClauses_ren : ∀ as : List PbClause, queriesClauses (renPClauses ρ as) = queriesClauses as
  | [] => rfl
  | a :: as => by
    simp only [renPClauses, queriesClauses, queriesClause_ren a, queriesClauses_ren as]
end

mutual
theorem relabel_ren : ∀ (e : PbExpr) (k : Nat), relabel g k (renP ρ e) = relabel g k e
  | .call _ _ as es _, k => by
    simp only [renP, relabel, queriesArgs_ren, relabelArgs_ren as, relabelList_ren es]
  | .ifThen cs e, k => by
    simp only [renP, relabel, queriesClauses_ren, relabelClauses_ren cs, relabel_ren e]
  | .cast e _ _, k => by simp only [renP, relabel, relabel_ren e]
  | .scalar r, k => by cases r <;> simp [renP, relabel]
  | .inPredicate es r, k => by
    cases r <;> simp [renP, relabel, relabelList_ren es, queriesList_ren]
  | .setPredicate _ r, k => by cases r <;> simp [renP, relabel]
  | .setComparison e _ _ r, k => by cases r <;> simp [renP, relabel, relabel_ren e, queries_ren]
  | .notSet, _ => rfl
  | .literal _, _ => rfl
  | .field _ _, _ => rfl
  | .masked _, _ => rfl
  | .noReference _, _ => rfl
  | .noSubquery, _ => rfl
  | .other _, _ => rfl
theorem relabelArg_ren : ∀ (a : PbArg) (k : Nat), relabelArg g k (renPArg ρ a) = relabelArg g k a
  | .value e, k => by simp only [renPArg, relabelArg, relabel_ren e]
  | .notSet, _ => rfl
  | .enum _, _ => rfl
  | .type _, _ => rfl
theorem relabelArgs_ren : ∀ (as : List PbArg) (k : Nat),
    relabelArgs g k (renPArgs ρ as) = relabelArgs g k as
  | [], _ => rfl
  | a :: as, k => by
    simp only [renPArgs, relabelArgs, relabelArg_ren a, relabelArgs_ren as, queriesArg_ren]
theorem relabelList_ren : ∀ (es : List PbExpr) (k : Nat),
    relabelList g k (renPs ρ es) = relabelList g k es
  | [], _ => rfl
  | e :: es, k => by simp only [renPs, relabelList, relabel_ren e, relabelList_ren es, queries_ren]
theorem relabelClause_ren : ∀ (a : PbClause) (k : Nat),
    relabelClause g k (renPClause ρ a) = relabelClause g k a
  | .mk a b, k => by
    simp only [renPClause, relabelClause, relabel_ren a, relabel_ren b, queries_ren]
theorem relabelClauses_ren : ∀ (as : List PbClause) (k : Nat),
    relabelClauses g k (renPClauses ρ as) = relabelClauses g k as
  | [], _ => rfl
  | a :: as, k => by
    simp only [renPClauses, relabelClauses, relabelClause_ren a, relabelClauses_ren as,
      queriesClause_ren]
end

theorem queriesOpt_ren (e : Option PbExpr) : queriesOpt (e.map (renP ρ)) = queriesOpt e := by
  cases e with
  | none => rfl
  | some e => exact queries_ren e

theorem relabelOpt_ren (k : Nat) (e : Option PbExpr) :
    relabelOpt g k (e.map (renP ρ)) = relabelOpt g k e := by
  cases e with
  | none => rfl
  | some e => exact congrArg some (relabel_ren g e k)

theorem queriesSorts_ren : ∀ ss : List Rel.PbSort,
    queriesSorts (ss.map (Rel.PbSort.ren ρ)) = queriesSorts ss
  | [] => rfl
  | s :: ss => by simp only [List.map_cons, queriesSorts, Rel.PbSort.ren, queries_ren, queriesSorts_ren ss]

theorem relabelSorts_ren : ∀ (ss : List Rel.PbSort) (k : Nat),
    relabelSorts g k (ss.map (Rel.PbSort.ren ρ)) = relabelSorts g k ss
  | [], _ => rfl
  | s :: ss, k => by
    simp only [List.map_cons, relabelSorts, Rel.PbSort.ren, queries_ren, relabel_ren,
      relabelSorts_ren ss]

theorem queriesAggregate_ren (f : Rel.PbAggregate) :
    queriesAggregate (f.ren ρ) = queriesAggregate f := by
  simp only [queriesAggregate, Rel.PbAggregate.ren, queriesArgs_ren, queriesSorts_ren, queriesList_ren]

theorem relabelAggregate_ren (k : Nat) (f : Rel.PbAggregate) :
    relabelAggregate g k (f.ren ρ) = relabelAggregate g k f := by
  simp only [relabelAggregate, Rel.PbAggregate.ren, queriesArgs_ren, queriesSorts_ren,
    relabelArgs_ren, relabelSorts_ren, relabelList_ren]

theorem queriesMeasure_ren (m : Rel.PbMeasure) : queriesMeasure (m.ren ρ) = queriesMeasure m := by
  obtain ⟨a, f⟩ := m
  cases a <;> simp [queriesMeasure, Rel.PbMeasure.ren, queriesOpt_ren, queriesAggregate_ren]

theorem relabelMeasure_ren (k : Nat) (m : Rel.PbMeasure) :
    relabelMeasure g k (m.ren ρ) = relabelMeasure g k m := by
  obtain ⟨a, f⟩ := m
  cases a <;> simp [relabelMeasure, Rel.PbMeasure.ren, relabelOpt_ren, relabelAggregate_ren,
    queriesAggregate_ren]

theorem queriesMeasures_ren : ∀ ms : List Rel.PbMeasure,
    queriesMeasures (ms.map (Rel.PbMeasure.ren ρ)) = queriesMeasures ms
  | [] => rfl
  | m :: ms => by simp only [List.map_cons, queriesMeasures, queriesMeasure_ren, queriesMeasures_ren ms]

theorem relabelMeasures_ren : ∀ (ms : List Rel.PbMeasure) (k : Nat),
    relabelMeasures g k (ms.map (Rel.PbMeasure.ren ρ)) = relabelMeasures g k ms
  | [], _ => rfl
  | m :: ms, k => by
    simp only [List.map_cons, relabelMeasures, queriesMeasure_ren, relabelMeasure_ren,
      relabelMeasures_ren ms]

theorem queriesGroups_ren : ∀ gs : List (List PbExpr),
    queriesGroups (gs.map (renPs ρ)) = queriesGroups gs
  | [] => rfl
  | e :: gs => by simp only [List.map_cons, queriesGroups, queriesList_ren, queriesGroups_ren gs]

theorem relabelGroups_ren : ∀ (gs : List (List PbExpr)) (k : Nat),
    relabelGroups g k (gs.map (renPs ρ)) = relabelGroups g k gs
  | [], _ => rfl
  | e :: gs, k => by
    simp only [List.map_cons, relabelGroups, queriesList_ren, relabelList_ren, relabelGroups_ren gs]

/-- Once the names of the subqueries are taken out, nothing is left of the other names but those of the
source and the schema. -/
theorem relabelBody_ren (b : Rel.Body) : relabelBody g (b.ren ρ) =
    match b with
    | .read s t f e p => relabelBody g (.read (s.map ρ) (t.map ρ) f e p)
    | b => relabelBody g b := by
  cases b <;> simp only [Rel.Body.ren, relabelBody, relabelOpt_ren, queriesOpt_ren, relabelGroups_ren,
    queriesGroups_ren, relabelMeasures_ren, relabelSorts_ren, relabelList_ren]

end Verif.Whole
