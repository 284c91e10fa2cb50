import Verif.Prop.Whole

/-! # C62: plans that text changes or that are refused on the way back

Each plan meets all conditions of `Expressible` but one. -/

namespace Verif.Whole

open Verif Verif.TyPb Verif.Expr

/-- What comes back. -/
def throughText (lib : Literal.Lib) (sort : Ext.Sorter) (fuel : Nat) (p : Input) :
    Outcome (Option (Outcome Binary)) :=
  (toText lib sort fuel p).map (fromText lib fuel)

theorem throughText_some {lib : Literal.Lib} {sort : Ext.Sorter} {fuel : Nat} {p : Input}
    {x : Option (Outcome Binary)} (h : throughText lib sort fuel p = .ok x) :
    ∃ text, toText lib sort fuel p = .ok text ∧ fromText lib fuel text = x := by
  unfold throughText at h
  cases ht : toText lib sort fuel p with
  | ok t =>
    rw [ht] at h
    simp only [Outcome.map, Outcome.ok.injEq] at h
    exact ⟨t, rfl, h⟩
  | throw e => rw [ht] at h; cases h
  | ub => rw [ht] at h; cases h

/-- A filter of a table. -/
def filtered (columns : String × String) (table : String) (f : Nat) (i j : Int) : BRel :=
  .node ⟨.filter (some (sampleCall f (sampleField i) (sampleField j) .bool)), [], none, none⟩
    [.node ⟨.read none none none none false, [], some (sampleSchema columns.1 columns.2),
      some (.named [table.toList])⟩ []]

/-- The field an argument is. -/
def argField : PbArg → Option Int
  | .value e => Rel.fieldOf e
  | _ => none

/-- The function that is called and the fields it is called with, if the plan is a filter. -/
def called : Outcome (Option (Outcome Binary)) →
    Option (Nat × List (Option Int) × List Ext.PbFunction)
  | .ok (some (.ok b)) =>
    match b.rels with
    | [(_, .node ⟨.filter (some (.call n _ as _ _)), _, _, _⟩ _)] =>
      some (n, as.map argField, b.functions)
    | _ => none
  | _ => none

/-- The plan is printed and the text is refused. -/
def refused : Outcome (Option (Outcome Binary)) → Bool
  | .ok (some (.throw _)) => true
  | _ => false

theorem called_some {x : Outcome (Option (Outcome Binary))} {n : Nat} {is : List (Option Int)}
    {fs : List Ext.PbFunction} (h : called x = some (n, is, fs)) :
    ∃ b, x = .ok (some (.ok b)) ∧ b.functions = fs ∧
      ∃ names o as es t emit schema source ins, as.map argField = is ∧
        b.rels = [(names, .node ⟨.filter (some (.call n o as es t)), emit, schema, source⟩ ins)] := by
  unfold called at h
  split at h
  · next b =>
    split at h
    · next e =>
      simp only [Option.some.injEq, Prod.mk.injEq] at h
      obtain ⟨rfl, rfl, rfl⟩ := h
      exact ⟨b, rfl, rfl, _, _, _, _, _, _, _, _, _, rfl, e⟩
    · cases h
  · cases h

theorem refused_some {x : Outcome (Option (Outcome Binary))} (h : refused x = true) :
    ∃ e, x = .ok (some (.throw e)) := by
  unfold refused at h
  split at h
  · exact ⟨_, rfl⟩
  · cases h

/-! ## A call of another function -/

/-- The second function is called `add2` because there are two with the name `add`; the third
one has the name `add2`.  The filter calls the third one. -/
def shadowedPlan : Input where
  uris := [⟨"/f.yaml".toList, 3⟩]
  functions := [⟨7, "add:i32".toList, 3⟩, ⟨8, "add:i64".toList, 3⟩, ⟨9, "add2:i32".toList, 3⟩]
  names := []
  rel := filtered ("a", "b") "t" 9 0 1

/-- **C62** (violated without `symbols`).  The plan that comes back calls another function. -/
theorem shadowed_function : ∃ text out, toText sampleLib id 2 shadowedPlan = .ok text ∧
    fromText sampleLib 2 text = some (.ok out) ∧ ¬ SamePlan shadowedPlan out := by
  have h : called (throughText sampleLib id 2 shadowedPlan) =
      some (1, [some 0, some 1],
        [⟨0, "add:i32".toList, 1⟩, ⟨1, "add:i64".toList, 1⟩, ⟨2, "add2:i32".toList, 1⟩]) := by
    decide +kernel
  obtain ⟨b, hb, hf, names, o, as, es, t, emit, schema, source, ins, has, hr⟩ := called_some h
  obtain ⟨text, h1, h2⟩ := throughText_some hb
  refine ⟨text, b, h1, h2, ?_⟩
  rintro ⟨ρ, r, hsame, hr', hrel⟩
  rw [hr] at hr'
  simp only [List.cons.injEq, Prod.mk.injEq, and_true] at hr'
  obtain ⟨-, rfl⟩ := hr'
  have hcall := hrel.1
  simp only [renumberBody, sampleCall, Option.map_some, renumber, Rel.Body.filter.injEq,
    Option.some.injEq, PbExpr.call.injEq] at hcall
  obtain ⟨g, hg, h3, h4, -⟩ := hsame.kept ⟨9, "add2:i32".toList, 3⟩ (by decide)
  rw [hf] at hg
  have h5 : g.anchor = 1 := by rw [h3]; exact hcall.1.symm
  have : ∀ g ∈ [(⟨0, "add:i32".toList, 1⟩ : Ext.PbFunction), ⟨1, "add:i64".toList, 1⟩,
      ⟨2, "add2:i32".toList, 1⟩], g.anchor = 1 → g.name ≠ "add2:i32".toList := by decide
  exact this g hg h5 h4

/-! ## Another column -/

/-- Two columns with the same name; the filter compares them. -/
def twicePlan : Input where
  uris := [⟨"/f.yaml".toList, 3⟩]
  functions := [⟨7, "equal:i32_i32".toList, 3⟩]
  names := []
  rel := filtered ("a", "a") "t" 7 0 1

/-- **C62** (violated without `SchemaFits.once`).  The plan that comes back compares a column with
itself. -/
theorem same_columns : ∃ text out, toText sampleLib id 2 twicePlan = .ok text ∧
    fromText sampleLib 2 text = some (.ok out) ∧ ¬ SamePlan twicePlan out := by
  have h : called (throughText sampleLib id 2 twicePlan) =
      some (0, [some 1, some 1],
        [⟨0, "equal:i32_i32".toList, 1⟩]) := by
    decide +kernel
  obtain ⟨b, hb, hf, names, o, as, es, t, emit, schema, source, ins, has, hr⟩ := called_some h
  obtain ⟨text, h1, h2⟩ := throughText_some hb
  refine ⟨text, b, h1, h2, ?_⟩
  rintro ⟨ρ, r, hsame, hr', hrel⟩
  rw [hr] at hr'
  simp only [List.cons.injEq, Prod.mk.injEq, and_true] at hr'
  obtain ⟨-, rfl⟩ := hr'
  have hcall := hrel.1
  simp only [renumberBody, sampleCall, Option.map_some, renumber, Rel.Body.filter.injEq,
    Option.some.injEq, PbExpr.call.injEq, renumberArgs, renumberArg, sampleField] at hcall
  rw [hcall.2.2.1] at has
  revert has
  decide

/-! ## Another schema -/

/-- A column has the name of the second schema. -/
def schemaPlan : Input where
  uris := []
  functions := []
  names := []
  rel := .node ⟨.cross, [], none, none⟩
    [.node ⟨.read none none none none false, [], some (sampleSchema "a" "schema2"),
      some (.named ["t".toList])⟩ [],
    .node ⟨.read none none none none false, [], some (sampleSchema "c" "d"),
      some (.named ["u".toList])⟩ []]

/-- The names of the columns of the second input. -/
def secondSchema : Outcome (Option (Outcome Binary)) → Option (List Str)
  | .ok (some (.ok b)) =>
    match b.rels with
    | [(_, .node _ [_, .node o _])] => some o.columns
    | _ => none
  | _ => none

/-- **C62** (violated without `NamesFit.columns`).  The second table gets the schema of the first
one. -/
theorem other_schema : ∃ text out, toText sampleLib id 3 schemaPlan = .ok text ∧
    fromText sampleLib 3 text = some (.ok out) ∧ ¬ SamePlan schemaPlan out := by
  have h : secondSchema (throughText sampleLib id 3 schemaPlan) =
      some ["a".toList, "schema2".toList] := by decide +kernel
  unfold secondSchema at h
  split at h
  · next b hb =>
    obtain ⟨text, h1, h2⟩ := throughText_some hb
    refine ⟨text, b, h1, h2, ?_⟩
    rintro ⟨ρ, r, -, hr, hrel⟩
    split at h
    · next hr' =>
      rw [hr'] at hr
      simp only [List.cons.injEq, Prod.mk.injEq, and_true] at hr
      obtain ⟨-, rfl⟩ := hr
      have hs := hrel.2.2.2.2.2.1.2.2.1
      simp only [Own.columns, hs] at h
      revert h
      decide
    · cases h
  · cases h

/-! ## Refused texts -/

/-- A column has the name of the function. -/
def columnPlan : Input where
  uris := [⟨"/f.yaml".toList, 3⟩]
  functions := [⟨7, "equal:i32_i32".toList, 3⟩]
  names := []
  rel := filtered ("equal", "b") "t" 7 0 1

/-- A table has the name of the function. -/
def tablePlan : Input where
  uris := [⟨"/f.yaml".toList, 3⟩]
  functions := [⟨7, "equal:i32_i32".toList, 3⟩]
  names := []
  rel := filtered ("a", "b") "equal" 7 0 1

/-- A table has the name of a relation. -/
def relationPlan : Input where
  uris := [⟨"/f.yaml".toList, 3⟩]
  functions := [⟨7, "equal:i32_i32".toList, 3⟩]
  names := []
  rel := filtered ("a", "b") "filter" 7 0 1

/-- **C62** (violated without `NamesFit`).  The printed text of a plan is refused when a column or
a table has the name of a function or a table that of a relation. -/
theorem same_names_refused : ∀ p ∈ [columnPlan, tablePlan, relationPlan],
    ∃ text e, toText sampleLib id 2 p = .ok text ∧ fromText sampleLib 2 text = some (.throw e) := by
  have h : ([columnPlan, tablePlan, relationPlan].all fun p =>
      refused (throughText sampleLib id 2 p)) = true := by decide +kernel
  intro p hp
  obtain ⟨e, he⟩ := refused_some (List.all_eq_true.mp h p hp)
  obtain ⟨text, h1, h2⟩ := throughText_some he
  exact ⟨text, e, h1, h2⟩

end Verif.Whole
