import Verif.Lemmas.SectionsPlan

/-! # Contexts of relations with other tables of sources and schemas -/

namespace Verif.Sec

open Verif Verif.Rel

/-- The context with these sources and schemas. -/
abbrev tables (c : RelContext) (s : Str → Option SourceSymbol)
    (f : Str → Option (List Schema.Field)) : RelContext :=
  { c with source := s, schema := f }

/-! ## Printing does not look at them -/

theorem printMeasures_tables (c : RelContext) (s f) : ∀ (ms : List PbMeasure) (k : Nat),
    printMeasures (tables c s f) k ms = printMeasures c k ms
  | [], _ => rfl
  | m :: ms, k => by
    rw [printMeasures, printMeasures, printMeasures_tables c s f ms]; rfl

theorem printEmitLines_tables (c : RelContext) (s f) : ∀ (is : List Int),
    printEmitLines (tables c s f) is = printEmitLines c is
  | [] => rfl
  | i :: is => by
    rw [printEmitLines, printEmitLines, printEmitLines_tables c s f is]; rfl

theorem printProject_tables (c : RelContext) (s f) : ∀ (es : List Expr.PbExpr) (k : Nat),
    printProject (tables c s f) k es = printProject c k es
  | [], _ => rfl
  | e :: es, k => by
    rw [printProject, printProject, printProject_tables c s f es]; rfl

theorem printRelation_tables (c : RelContext) (s f) (r : PbRel) :
    printRelation (tables c s f) r = printRelation c r := by
  have h : printBody (tables c s f) r = printBody c r := by
    unfold printBody
    cases r.body <;> simp only [printMeasures_tables, printCommon, printEmitLines_tables,
      printProject_tables]
  unfold printRelation
  rw [h]

/-! ## What can be read can be read with more in them -/

theorem groupsOk_tables {c : RelContext} {s f s' f'} : ∀ (es : List Expr.PbExpr)
    (d : Schema.RelData), GroupsOk (tables c s f) d es → GroupsOk (tables c s' f') d es
  | [], _, _ => trivial
  | _ :: es, _, h => ⟨h.1, groupsOk_tables es _ h.2⟩

theorem measuresOk_tables {c : RelContext} {s f s' f'} : ∀ (ms : List PbMeasure)
    (d : Schema.RelData) (k : Nat),
    MeasuresOk (tables c s f) d k ms → MeasuresOk (tables c s' f') d k ms
  | [], _, _, _ => trivial
  | _ :: ms, _, _, ⟨⟨⟨g, h1, h2⟩, h3, h4⟩, h⟩ =>
    ⟨⟨⟨g, h1, ⟨h2.function, h2.options, h2.arguments, h2.args, h2.output, h2.phase,
      h2.invocation, h2.sorts⟩⟩, h3, h4⟩, measuresOk_tables ms _ _ h⟩

theorem afterMeasures_tables {c : RelContext} {s f s' f'} : ∀ (ms : List PbMeasure)
    (d : Schema.RelData) (k : Nat),
    afterMeasures (tables c s f) d k ms = afterMeasures (tables c s' f') d k ms
  | [], _, _ => rfl
  | _ :: ms, d, k => by
    rw [afterMeasures, afterMeasures, afterMeasures_tables (s' := s') (f' := f') ms]; rfl

theorem projectFields_tables {c : RelContext} {s f s' f'} : ∀ (es : List Expr.PbExpr) (k : Nat),
    projectFields (tables c s f) k es = projectFields (tables c s' f') k es
  | [], _ => rfl
  | _ :: es, k => by
    rw [projectFields, projectFields, projectFields_tables (s' := s') (f' := f') es]; rfl

theorem projectsOk_tables {c : RelContext} {s f s' f'} : ∀ (es : List Expr.PbExpr)
    (d : Schema.RelData) (k : Nat),
    ProjectsOk (tables c s f) d k es → ProjectsOk (tables c s' f') d k es
  | [], _, _, _ => trivial
  | _ :: es, _, _, h => ⟨h.1, projectsOk_tables es _ _ h.2⟩

theorem readable_tables {c : RelContext} {s f s' f'} {r : PbRel}
    (h : RelReadable (tables c s f) r)
    (hs : ∀ n k, s n = some k → s' n = some k) (hf : ∀ n k, f n = some k → f' n = some k) :
    RelReadable (tables c s' f') r := by
  obtain ⟨h1, h2, h3⟩ := h
  refine ⟨h1, ?_, h3⟩
  cases hb : r.body <;> rw [hb] at h2
  case read src sch flt be pr =>
    cases src <;> cases be <;> cases pr <;> try exact h2
    case some.none.false n =>
    obtain ⟨e, i, k, cols, ho, hc⟩ := h2
    refine ⟨e, i, ?_, cols, ?_, hc⟩
    · rcases k with k | k
      · exact .inl (hs _ _ k)
      · exact .inr (hs _ _ k)
    · cases sch with
      | none => exact ho
      | some m => exact ⟨ho.1, hf _ _ ho.2⟩
  case fetch o n =>
    unfold BodyOk at h2 ⊢
    split at h2 <;> simp_all
  case join t e p => cases p <;> exact h2
  case aggregate gs ms =>
    match gs, h2 with
    | [g], ⟨a, b, d⟩ =>
      refine ⟨groupsOk_tables _ _ a, measuresOk_tables _ _ _ b, fun i hi => ?_⟩
      have := d i hi
      rw [afterMeasures_tables (s' := s') (f' := f')] at this
      exact this
  case project es =>
    obtain ⟨a, b⟩ := h2
    refine ⟨projectsOk_tables _ _ _ a, ?_⟩
    rcases b with b | ⟨b, d⟩
    · exact .inl b
    · refine .inr ⟨b, fun i hi => ?_⟩
      have := d i hi
      rw [projectFields_tables (s' := s') (f' := f')] at this
      exact this
  all_goals exact h2

end Verif.Sec
