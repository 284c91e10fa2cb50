import Verif.Lemmas.Results
import Verif.Prop.WholeLoss

/-! # C63: the results of a plan survive the way to text and back -/

namespace Verif.Whole

open Verif Verif.TyPb Verif.Literal Verif.Expr

section
variable {V : Type} [DecidableEq V] {m : Meaning V} {lib : Lib} {dcl : Known}
  {fn fn' : Nat → FunId} {ρ : Nat → Nat}

mutual
theorem result_same (hw : m.Wide) (hs : m.Sorts) (h : Renamed ρ dcl fn fn') :
    ∀ (r r' : BRel) (up : List Nat), TreeFits lib dcl up r → GroupsByColumns r → Same ρ r r' →
      result m fn' r' = result m fn r ∧ ∀ around, Even (result m fn r around) ∧
        (result m fn r around).1 = (kinds r).length
  | .node o kids, .node o' kids', up, ht, hg, hsame => by
    simp only [TreeFits] at ht
    simp only [Same] at hsame
    obtain ⟨t1, t2, ⟨t3, -⟩, -, t5⟩ := ht
    obtain ⟨s1, s2, s3, s4, s5⟩ := hsame
    have hgo : ∀ gs ms, o.body = .aggregate gs ms → ∀ g ∈ gs, ∀ e ∈ g, (Rel.fieldOf e).isSome :=
      hg o (by simp [owns])
    have hgi : ∀ o ∈ ownsL kids, ∀ gs ms, o.body = .aggregate gs ms →
        ∀ g ∈ gs, ∀ e ∈ g, (Rel.fieldOf e).isSome := fun x hx => hg x (by simp [owns, hx])
    obtain ⟨i1, i2, i3, i4⟩ := results_same hw hs h kids kids' _ t5 hgi s5
    have hread : isRead o.body = true → o.schema.isSome := by
      intro hr
      unfold TablesFit at t2
      rw [if_pos hr] at t2
      obtain ⟨⟨s, hs, -⟩, -⟩ := t2
      simp [hs]
    have hk : pipeKind o'.body = pipeKind o.body := by rw [s1, pipeKind_renumber]
    have hq : queriesBody o'.body = queriesBody o.body := by rw [s1, queriesBody_renumber]
    have hin : ∀ around, ∀ a ∈ (inputsIn o.body (results m fn kids)).map (fun q => q around),
        Even a := by
      intro around a ha
      obtain ⟨q, hq, rfl⟩ := List.mem_map.mp ha
      exact i2 q (mem_inputsIn hq) around
    have hlen : ∀ around, ((inputsIn o.body (results m fn kids)).map fun q => q around).length =
        arity o.body := by
      intro around
      rw [List.length_map, length_inputsIn (i4.trans t3)]
    have hsum : ∀ around, (((inputsIn o.body (results m fn kids)).map fun q => q around).map
        (·.1)).sum = (inKinds o kids).length := by
      intro around
      rw [inKinds, List.length_flatten, ← inputsIn_map o.body List.length, ← i3 around,
        inputsIn_map, List.map_map]
      rfl
    refine ⟨?_, fun around => ?_⟩
    · funext around
      simp only [result, i1, inputsIn_congr hk hq, queriesIn_congr hk hq]
      exact emitted_same (dcl := dcl.within up) h t1 (hin around) (hlen around) (hsum around) s1 s2 s3 s4
    · simp only [result, kinds]
      exact ⟨emitted_even (direct_even hw hs hread (hin around)),
        emitted_width t1 hgo (hlen around) (hsum around)⟩
theorem results_same (hw : m.Wide) (hs : m.Sorts) (h : Renamed ρ dcl fn fn') :
    ∀ (rs rs' : List BRel) (up : Nat → List Nat), TreesFit lib dcl up rs → (∀ o ∈ ownsL rs, ∀ gs ms,
        o.body = .aggregate gs ms → ∀ g ∈ gs, ∀ e ∈ g, (Rel.fieldOf e).isSome) → SameL ρ rs rs' →
      results m fn' rs' = results m fn rs ∧ (∀ q ∈ results m fn rs, ∀ around, Even (q around)) ∧
        (∀ around, (results m fn rs).map (fun q => (q around).1) = (kindsL rs).map List.length) ∧
        (results m fn rs).length = rs.length
  | [], [], _, _, _, _ => by simp [results, kindsL]
  | r :: rs, r' :: rs', up, ht, hg, hsame => by
    simp only [TreesFit] at ht
    simp only [SameL] at hsame
    obtain ⟨a1, a2⟩ := result_same hw hs h r r' _ ht.1
      (fun o ho => hg o (by simp [ownsL, ho])) hsame.1
    obtain ⟨b1, b2, b3, b4⟩ := results_same hw hs h rs rs' _ ht.2
      (fun o ho => hg o (by simp [ownsL, ho])) hsame.2
    refine ⟨by simp only [results, a1, b1], ?_, ?_, by simp [results, b4]⟩
    · intro q hq around
      simp only [results, List.mem_cons] at hq
      rcases hq with rfl | hq
      · exact (a2 around).1
      · exact b2 q hq around
    · intro around
      simp only [results, kindsL, List.map_cons, (a2 around).2, b3]
  | [], _ :: _, _, _, _, hsame => by simp [SameL] at hsame
  | _ :: _, [], _, _, _, hsame => by simp [SameL] at hsame
end

end

theorem find_anchor {fs : List Ext.PbFunction} (hn : (fs.map (·.anchor)).Nodup)
    {f : Ext.PbFunction} (hf : f ∈ fs) : (fs.find? fun g => g.anchor = f.anchor) = some f := by
  induction fs with
  | nil => cases hf
  | cons g gs ih =>
    simp only [List.map_cons, List.nodup_cons] at hn
    rcases List.mem_cons.mp hf with rfl | hf
    · simp
    · have : g.anchor ≠ f.anchor := fun e => hn.1 (e ▸ List.mem_map.mpr ⟨f, hf, rfl⟩)
      rw [List.find?_cons_of_neg (by simpa using this)]
      exact ih hn.2 hf

/-- The functions have the same meaning with the new numbers. -/
theorem renamed_of {p : Input} {b : Binary} {ρ : Nat → Nat} (hn : (p.functions.map (·.anchor)).Nodup)
    (h : SameFunctions ρ p b) :
    Renamed ρ (Declared p) (funId p.uris p.functions) (funId b.uris b.functions) := by
  rintro a ⟨f, hf, rfl⟩
  obtain ⟨g, hg, h1, h2, h3⟩ := h.kept f hf
  unfold funId
  rw [find_anchor hn hf, ← h1, find_anchor h.once hg]
  simp [h2, h3]

/-- Plans that say the same have the same results, whatever the functions mean and the tables
contain. -/
theorem answers_same {V : Type} [DecidableEq V] (m : Meaning V) (hw : m.Wide) (hs : m.Sorts)
    {lib : Lib} {p : Input} {b : Binary} (h : Expressible lib p) (hg : GroupsByColumns p.rel)
    (hb : SamePlan p b) : answers m b = answers m p.binary := by
  obtain ⟨ρ, r, h1, h2, h3⟩ := hb
  have := (result_same hw hs (renamed_of h.functions.anchors h1) p.rel r [] h.tree hg h3).1
  simp only [answers, Input.binary, h2, List.map_cons, List.map_nil, this]

/-- **C63** (`_partial`: for the plans that are `Expressible` and group by columns).  The plan that
comes back from text has the same results as the plan the text was made of: the same rows with the
same columns under the same names, for all contents of tables and all meanings of functions. -/
theorem results_kept_partial {V : Type} [DecidableEq V] (m : Meaning V) (hw : m.Wide)
    (hs : m.Sorts) (lib : Lib) (hl : lib.Numerals) (sort : Ext.Sorter) (hr : Ext.Rearranges sort)
    (p : Input) (h : Expressible lib p) (hg : GroupsByColumns p.rel) (fuel : Nat)
    (hf : (owns p.rel).length ≤ fuel) :
    ∃ text out, toText lib sort fuel p = .ok text ∧ fromText lib fuel text = some (.ok out) ∧
      answers m out = answers m p.binary := by
  obtain ⟨text, out, h1, h2, h3⟩ := binary_text_binary_partial lib hl sort hr p h fuel hf
  exact ⟨text, out, h1, h2, answers_same m hw hs h hg h3⟩

/-! ### Non-vacuity -/

/-- The numbers among the arguments. -/
def numbersOf : List (Arg Int) → List Int
  | [] => []
  | .value v :: as => v :: numbersOf as
  | _ :: as => numbersOf as

/-- Integers: `equal` is 1 or 0, all other functions add, all aggregates add; no order; two rows in
each table. -/
def sampleMeaning : Meaning Int where
  null := -1
  literal := fun _ => 2
  call := fun f _ as =>
    if f.map (·.2) = some "equal:i32_i32".toList then
      match numbersOf as with
      | [a, b] => if a = b then 1 else 0
      | _ => 0
    else (numbersOf as).sum
  cast := fun v _ => v
  holds := fun v => v ≠ 0
  aggregate := fun _ _ _ _ rows => (rows.map fun as => (numbersOf as).sum).sum
  sort := fun _ l => l
  scalar := fun a => (a.2.map List.sum).sum
  isIn := fun r a => if r ∈ a.2 then 1 else 0
  setPredicate := fun _ a => if a.2.isEmpty then 0 else 1
  compare := fun _ _ v a => if [v] ∈ a.2 then 1 else 0
  table := fun _ s =>
    match s with
    | some s => [(List.range s.names.length).map fun i : Nat => Int.ofNat i + 1,
        (List.range s.names.length).map fun i : Nat => Int.ofNat i + 3]
    | none => []

theorem sampleMeaning_wide : sampleMeaning.Wide := by
  intro source schema x hx
  simp only [sampleMeaning, List.mem_cons, List.not_mem_nil, or_false] at hx
  rcases hx with rfl | rfl <;> simp

theorem sampleMeaning_sorts : sampleMeaning.Sorts := fun _ l => .refl l

theorem groups_of {r : BRel} (h : ((owns r).all fun o =>
    match o.body with
    | .aggregate gs _ => gs.all fun g => g.all fun e => (Rel.fieldOf e).isSome
    | _ => true) = true) : GroupsByColumns r := by
  intro o ho gs ms hb g hg e he
  have := List.all_eq_true.mp h o ho
  simp only [hb, List.all_eq_true] at this
  exact this g hg e he

/-- Non-vacuity of C63: the plan has a row as result. -/
example : (answers sampleMeaning sampleInput.binary).map (fun r => r.2) = [(3, [[4, 1, 1]])] ∧
    ∃ text out, toText sampleLib id 8 sampleInput = .ok text ∧
      fromText sampleLib 8 text = some (.ok out) ∧
      answers sampleMeaning out = answers sampleMeaning sampleInput.binary :=
  ⟨by decide +kernel, results_kept_partial sampleMeaning sampleMeaning_wide sampleMeaning_sorts
    sampleLib sampleLib_numerals id (fun l => .refl l) sampleInput sampleInput_expressible
    (groups_of (by decide)) 8 (by decide)⟩

/-- Non-vacuity of C63 with subqueries. -/
example : (answers sampleMeaning sampleQueries.binary).map (fun r => r.2) = [(2, [[4, 4]])] ∧
    ∃ text out, toText sampleLib id 13 sampleQueries = .ok text ∧
      fromText sampleLib 13 text = some (.ok out) ∧
      answers sampleMeaning out = answers sampleMeaning sampleQueries.binary :=
  ⟨by decide +kernel, results_kept_partial sampleMeaning sampleMeaning_wide sampleMeaning_sorts
    sampleLib sampleLib_numerals id (fun l => .refl l) sampleQueries sampleQueries_expressible
    (groups_of (by decide)) 13 (by decide)⟩

/-- Non-vacuity of C63 with references to the relations around a subquery: for one of the two rows
there are rows of the subquery. -/
example : (answers sampleMeaning sampleRelated.binary).map (fun r => r.2) = [(2, [[1, 2]])] ∧
    ∃ text out, toText sampleLib id 7 sampleRelated = .ok text ∧
      fromText sampleLib 7 text = some (.ok out) ∧
      answers sampleMeaning out = answers sampleMeaning sampleRelated.binary :=
  ⟨by decide +kernel, results_kept_partial sampleMeaning sampleMeaning_wide sampleMeaning_sorts
    sampleLib sampleLib_numerals id (fun l => .refl l) sampleRelated sampleRelated_expressible
    (groups_of (by decide)) 7 (by decide)⟩

/-- The subqueries of an expression are counted from the left: the value is the first, and the
second is what it is looked up in. -/
example : value sampleMeaning (fun _ => none)
    ⟨byNumber [fun _ => (1, [[5]]), fun _ => (1, [[6], [5]]), fun _ => (1, [[6]])], []⟩ [] 0
      (.inPredicate [.scalar (some [])] (some [])) = 1 ∧
    value sampleMeaning (fun _ => none)
    ⟨byNumber [fun _ => (1, [[5]]), fun _ => (1, [[6]]), fun _ => (1, [[5]])], []⟩ [] 0
      (.inPredicate [.scalar (some [])] (some [])) = 0 := by decide

/-! ## Other results -/

/-- Grouped by a sum; the project keeps the sum. -/
def sumGroup : BRel :=
  .node ⟨.aggregate [[sampleCall 9 (sampleField 0) (sampleField 1) .i32]]
    [⟨some ⟨5, [], [.value (sampleField 1)], [], .scalar .i32 .required, 3, 1, []⟩, none⟩], [],
    none, none⟩ [sampleTable]

def sumPlan : Input where
  uris := sampleInput.uris
  functions := sampleInput.functions
  names := ["x".toList]
  rel := .node ⟨.project [sampleField 0], [0], none, none⟩ [sumGroup]

theorem sumGroup_fits {up : List Nat} : TreeFits sampleLib sampleKnown up sumGroup := by
  refine treeFits_of [true, true] (by decide)
    ⟨?_, by decide, ?_, .inr (by simp), by decide, by simp⟩ ⟨rfl, rfl⟩ rfl (fun _ => rfl)
    (by decide) ⟨sampleTable_fits, trivial⟩
  · intro e he
    simp only [List.mem_cons, List.not_mem_nil, or_false] at he
    subst he
    refine .inl ⟨sample_call (by decide) (by decide) ?_ ?_, rfl, rfl⟩ <;>
    · show Usable _ _ _
      unfold Usable InWidth
      decide
  · intro m hm
    simp only [List.mem_cons, List.not_mem_nil, or_false] at hm
    subst hm
    refine ⟨⟨_, rfl, sample_declared _ (by decide), rfl, ⟨?_, trivial⟩, rfl,
      sample_type (by decide), by decide, by decide, rfl⟩, fun _ h => by cases h⟩
    show Usable _ _ _
    unfold Usable InWidth
    decide

theorem sumPlan_expressible : Expressible sampleLib sumPlan where
  tree := by
    refine treeFits_of [false] (by decide) ⟨?_, by simp, ?_, by decide⟩ ⟨rfl, rfl⟩ rfl
      (fun _ => rfl) (by decide) ⟨sumGroup_fits, trivial⟩
    · intro e he
      simp only [List.mem_cons, List.not_mem_nil, or_false] at he
      subst he
      exact ⟨⟨told_sampleField (by decide), trivial⟩, rfl, rfl⟩
    · unfold InWidth
      decide
  functions := ⟨sample_functions.anchors, sample_functions.symbols, sample_functions.distinct,
    sample_functions.uris, sample_functions.named, sample_functions.typed⟩
  names := {
    columns := by
      intro n hn
      apply not_madeUp
      revert n
      decide +kernel
    tables := by
      intro n hn
      refine ⟨not_madeUp ?_, ?_⟩ <;> revert n <;> decide +kernel
    uris := sample_namesFit.uris
    files := by decide
    functions := by
      have : sumPlan.table.funs = sampleInput.table.funs := rfl
      rw [this, sample_funs]
      intro n hn
      refine ⟨not_madeUp ?_, ?_⟩ <;> revert n <;> decide +kernel }
  root := by
    intro n hn
    apply whole_names
    revert n
    decide

/-- The results of what comes back. -/
def answersOf : Outcome (Option (Outcome Binary)) → Option (List (Rows Int))
  | .ok (some (.ok b)) => some ((answers sampleMeaning b).map (·.2))
  | _ => none

/-- **C63** (violated for groupings that are no columns).  The column of the grouping is not counted:
the plan that comes back has the measures as its result in place of the groups. -/
theorem computed_groups : Expressible sampleLib sumPlan ∧
    ∃ text out, toText sampleLib id 3 sumPlan = .ok text ∧
      fromText sampleLib 3 text = some (.ok out) ∧
      (answers sampleMeaning sumPlan.binary).map (·.2) = [(1, [[3], [7]])] ∧
      (answers sampleMeaning out).map (·.2) = [(1, [[2], [4]])] := by
  refine ⟨sumPlan_expressible, ?_⟩
  have h : answersOf (throughText sampleLib id 3 sumPlan) = some [(1, [[2], [4]])] := by
    decide +kernel
  unfold answersOf at h
  split at h
  · next b hb =>
    obtain ⟨text, h1, h2⟩ := throughText_some hb
    exact ⟨text, b, h1, h2, by decide +kernel, by simpa using h⟩
  · cases h

end Verif.Whole
