import Verif.Lemmas.SchemaTree
import Verif.Prop.Schema

/-!
# C38, C43: the fields of whole relation trees
-/

namespace Verif.Schema

open Verif

/-- The fields of one relation of a binary plan. -/
theorem binary_step {ν : Naming} {rel : Str} {F new : List Field} {op : Op} {mo : MOp}
    {emit : List Int} {es : List Field} (h : opMeaning ν rel F op = some (mo, new))
    (he : emit.mapM (at? (opOutput F new op)) = some es)
    (hc : Computable op new) (hl : (F ++ new).length < 2 ^ 31)
    (ins : List RelData) (hF : inputFields ins = F) :
    ∃ d, stepBinary ν rel op emit ins = .ok (d, []) ∧
      exposed d = if es.isEmpty then opOutput F new op else es := by
  have hlo : (opOutput F new op).length < 2 ^ 31 := by
    rw [List.length_append] at hl
    cases op <;> simp only [opOutput, List.length_append] <;> omega
  have hlF : F.length < 2 ^ 31 := by rw [List.length_append] at hl; omega
  have hloc : ∃ d, localBinary ν rel op ins = .ok (d, []) ∧ Unmapped d ∧
      unmapped d = opOutput F new op ∧ exposed d = opOutput F new op := by
    cases op with
    | read s cols =>
      simp only [opMeaning, Option.some.injEq, Prod.mk.injEq] at h
      obtain ⟨rfl, rfl⟩ := h
      exact ⟨_, rfl, rfl, by simp [unmapped, opOutput], by simp [exposed, opOutput]⟩
    | pass is | join is =>
      simp only [opMeaning, Option.map_eq_some_iff, Prod.mk.injEq] at h
      obtain ⟨os, h1, rfl, rfl⟩ := h
      exact ⟨⟨false, F, [], []⟩, by simp [localBinary, hF], rfl, by simp [unmapped, opOutput],
        by simp [exposed, opOutput]⟩
    | project items =>
      simp only [opMeaning, Option.map_eq_some_iff, Prod.mk.injEq] at h
      obtain ⟨xs, h1, rfl, rfl⟩ := h
      exact ⟨⟨false, F, xs.map Prod.snd, []⟩,
        by simp [localBinary, hF, projectBinary_eq hlF ([], []) h1], rfl,
        by simp [unmapped, opOutput], by simp [exposed, opOutput]⟩
    | aggregate gs ms =>
      simp only [opMeaning, Option.bind_eq_some_iff, Option.map_eq_some_iff, Prod.mk.injEq] at h
      obtain ⟨xs, h1, os, h2, rfl, rfl⟩ := h
      refine ⟨⟨true, F, _, _⟩, by simp only [localBinary, hF,
        groupBinary_eq hlF ([], []) hc.1 h1]; rfl, rfl, ?_, ?_⟩
      · simp [unmapped, opOutput]
      · have := hc.2
        unfold exposed
        rw [if_neg (by simpa using this)]
        simp [opOutput]
  obtain ⟨d, b1, b2, b3, b4⟩ := hloc
  obtain ⟨out, a1, a2⟩ := apply_ok b2 (by rw [b3]; exact he) (by rw [b3]; exact hlo)
  refine ⟨_, ?_, a2.trans (by rw [b4])⟩
  simp [stepBinary, b1, applyBinary_eq_text b2, a1]

mutual
/-- C43 for whole plans: for every relation tree in which all field numbers are in range, the
converter reports no error and computes exactly the fields Substrait gives the tree, with
output mappings applied at every level.  The condition excludes aggregates that group by
computed values or give no field at all, for which this is false (`computed_grouping_lost`,
`empty_aggregate_gives_input`). -/
theorem binary_schema_partial (ν : Naming) (t : Tree) (m : MTree) (out : List Field)
    (h : meaning ν t = some (m, out)) (hc : AllComputable ν t) :
    ∃ d, binary ν t = .ok (d, []) ∧ exposed d = out := by
  cases t with
  | node rel op emit ins =>
    rw [meaning, Option.bind_eq_some_iff] at h
    obtain ⟨ms, h1, h2⟩ := h
    rw [Option.bind_eq_some_iff] at h2
    obtain ⟨⟨mo, new⟩, h3, h4⟩ := h2
    rw [Option.map_eq_some_iff] at h4
    obtain ⟨es, h5, h6⟩ := h4
    simp only [Prod.mk.injEq] at h6
    obtain ⟨rfl, rfl⟩ := h6
    obtain ⟨hl1, hl2⟩ := (show AllComputableL ν ins ∧ _ from hc)
    obtain ⟨hop, hlen⟩ := hl2 ms h1 _ h3
    obtain ⟨ds, b1, b2⟩ := binary_schemas ν ins ms h1 hl1
    obtain ⟨d, c1, c2⟩ := binary_step h3 h5 hop hlen ds b2
    exact ⟨d, by simp [binary, b1, c1], c2⟩
theorem binary_schemas (ν : Naming) (ts : List Tree) (ms : List MTree × List Field)
    (h : meaningL ν ts = some ms) (hc : AllComputableL ν ts) :
    ∃ ds, binaryL ν ts = .ok (ds, []) ∧ inputFields ds = ms.2 := by
  cases ts with
  | nil => simp [meaningL] at h; subst h; exact ⟨[], rfl, rfl⟩
  | cons t ts =>
    rw [meaningL, Option.bind_eq_some_iff] at h
    obtain ⟨⟨m, out⟩, h1, h2⟩ := h
    rw [Option.map_eq_some_iff] at h2
    obtain ⟨ms', h3, rfl⟩ := h2
    obtain ⟨d, a1, a2⟩ := binary_schema_partial ν t m out h1 hc.1
    obtain ⟨ds, b1, b2⟩ := binary_schemas ν ts ms' h3 hc.2
    exact ⟨d :: ds, by simp [binaryL, a1, b1], by simpa [inputFields, a2] using b2⟩
end

/-- C38 and C43 for whole plans: for every relation tree in which all field numbers are in
range and no field can be mistaken for another by its printed name, the tree can be printed,
the text is accepted, and in the plan made from it every field number, in expressions,
groupings, measures and output mappings, stands for the same field as before, although some
output mappings may use another number for it. -/
theorem fields_survive_text_partial (ν : Naming) (t : Tree) (m : MTree) (out : List Field)
    (h : meaning ν t = some (m, out)) (hleg : Legible ν t) :
    ∃ text d t', print ν t = some text ∧ readTree ν text = .ok (some (d, t')) ∧
      meaning ν t' = some (m, out) ∧ (exposed d).map Field.id = out.map Field.id := by
  obtain ⟨_, _, tt, d', t', _, _, h3, h4, h5, h6⟩ := tree_roundtrip h hleg
  refine ⟨tt, d', t', h3, h4, h6, ?_⟩
  rw [h5, List.map_map]
  rfl

/-- Names for computed fields and measures. -/
def sampleNaming : Naming
  | .computed _ k => "intermediate".toList ++ natText k
  | .measure _ k => "measurename".toList ++ natText k
  | .column _ _ => []

/-- `select a, sum(x) from (select a, b + c as x, a from r join s on a = b) group by a`. -/
def samplePlan : Tree :=
  .node "aggregate".toList (.aggregate [.ref 1] [[0]]) []
    [.node "project".toList (.project [.other [1, 2], .ref 0]) [3, 4]
      [.node "join".toList (.join [0, 1]) []
        [.node "read".toList (.read "schema".toList ["a".toList]) [] [],
         .node "read2".toList (.read "schema2".toList ["b".toList, "c".toList]) [] []]]]

/-- What `samplePlan` gives. -/
def sampleOut : List Field :=
  [col "read" 0 "a" "schema",
    ⟨.measure "aggregate".toList 0, "measurename0".toList, [], none⟩]

example : (meaning sampleNaming samplePlan).map Prod.snd = some sampleOut ∧
    (binary sampleNaming samplePlan).map (fun x => exposed x.1) = .ok sampleOut := by
  decide +kernel

/-! The conditions can be checked by computation. -/

instance decSome {α : Type} (o : Option α) (P : α → Prop) [∀ a, Decidable (P a)] :
    Decidable (∀ a, o = some a → P a) :=
  match o with
  | none => .isTrue (by simp)
  | some a => if h : P a then .isTrue (by simpa using h) else .isFalse (by simpa using h)

instance decRef (it : Item) : Decidable (∃ i, it = .ref i) :=
  match it with
  | .ref i => .isTrue ⟨i, rfl⟩
  | .other _ => .isFalse (by simp)

instance (items gs ms used) : Decidable (Groups items gs ms used) :=
  decidable_of_iff ((∀ it ∈ items, ∃ i, it = .ref i) ∧ gs ++ ms ≠ [] ∧
    (gs.filter fun f => decide (Plain f)).Nodup ∧ ∀ f ∈ used, Plain f → f ∉ gs ++ ms)
    ⟨fun h => ⟨h.1, h.2.1, h.2.2.1, h.2.2.2⟩, fun h => ⟨h.1, h.2, h.3, h.4⟩⟩

instance (ν rel fs new emit op) : Decidable (LegibleOp ν rel fs new emit op) := by
  cases op <;> unfold LegibleOp <;> infer_instance

instance (op new) : Decidable (Computable op new) := by
  cases op <;> unfold Computable <;> infer_instance

mutual
def decLegible (ν : Naming) : (t : Tree) → Decidable (Legible ν t)
  | .node rel op emit ins =>
    have := decLegibleL ν ins
    inferInstanceAs (Decidable (LegibleL ν ins ∧
      ∀ ms, meaningL ν ins = some ms → ∀ x, opMeaning ν rel ms.2 op = some x →
        LegibleOp ν rel ms.2 x.2 emit op ∧ (ms.2 ++ x.2).length < 2 ^ 31))
def decLegibleL (ν : Naming) : (ts : List Tree) → Decidable (LegibleL ν ts)
  | [] => .isTrue trivial
  | t :: ts =>
    have := decLegible ν t
    have := decLegibleL ν ts
    inferInstanceAs (Decidable (Legible ν t ∧ LegibleL ν ts))
end

mutual
def decComputable (ν : Naming) : (t : Tree) → Decidable (AllComputable ν t)
  | .node rel op _ ins =>
    have := decComputableL ν ins
    inferInstanceAs (Decidable (AllComputableL ν ins ∧
      ∀ ms, meaningL ν ins = some ms → ∀ x, opMeaning ν rel ms.2 op = some x →
        Computable op x.2 ∧ (ms.2 ++ x.2).length < 2 ^ 31))
def decComputableL (ν : Naming) : (ts : List Tree) → Decidable (AllComputableL ν ts)
  | [] => .isTrue trivial
  | t :: ts =>
    have := decComputable ν t
    have := decComputableL ν ts
    inferInstanceAs (Decidable (AllComputable ν t ∧ AllComputableL ν ts))
end

instance (ν t) : Decidable (Legible ν t) := decLegible ν t
instance (ν t) : Decidable (AllComputable ν t) := decComputable ν t

example : AllComputable sampleNaming samplePlan ∧ Legible sampleNaming samplePlan := by
  decide +kernel

/-- Two columns. -/
def sampleRead : Tree :=
  .node "read".toList (.read "schema".toList ["a".toList, "b".toList]) [] []

/-- C43 fails for an aggregate that groups by a computed value: the field is missing, and the
output mapping that selects it is refused. -/
theorem computed_grouping_lost :
    let t := Tree.node "aggregate".toList (.aggregate [.other [0, 1]] [[0]]) [1] [sampleRead]
    (meaning sampleNaming t).isSome = true ∧
      (binary sampleNaming t).map (fun x => x.2) = .ok [1] := by
  decide +kernel

/-- C43 fails for an aggregate that gives no field: it is taken to give the fields of its
input. -/
theorem empty_aggregate_gives_input :
    let t := Tree.node "aggregate".toList (.aggregate [] []) [] [sampleRead]
    (meaning sampleNaming t).map Prod.snd = some [] ∧
      (binary sampleNaming t).map (fun x => exposed x.1) =
        .ok [col "read" 0 "a" "schema", col "read" 1 "b" "schema"] := by
  decide +kernel

/-- C38 fails for the output mapping of a read (and of any relation other than a project or an
aggregate): the text does not have it, so that number 0 above it stands for another field. -/
theorem read_emit_lost :
    let t := Tree.node "project".toList (.project [.ref 0]) []
      [.node "read".toList (.read "schema".toList ["a".toList, "b".toList]) [1] []]
    ((meaning sampleNaming t).map fun x => x.2.map Field.id) =
        some [.column "read".toList 1, .column "read".toList 1] ∧
      ((print sampleNaming t).map fun tt => (readTree sampleNaming tt).map fun r =>
        r.bind fun x => (meaning sampleNaming x.2).map fun y => y.2.map Field.id) =
      some (.ok (some [.column "read".toList 0, .column "read".toList 1,
        .column "read".toList 1])) := by
  decide +kernel

/-- C38 fails when two inputs have a field of the same name and schema: the reference to the
first is read back as one to the second. -/
theorem same_name_captured :
    let r := fun n : String => Tree.node n.toList (.read "schema".toList ["a".toList]) [] []
    let t := Tree.node "project".toList (.project [.ref 0]) [2]
      [.node "join".toList (.join []) [] [r "read", r "read2"]]
    ((meaning sampleNaming t).map fun x => x.2.map Field.id) =
        some [.column "read".toList 0] ∧
      ((print sampleNaming t).map fun tt => (readTree sampleNaming tt).map fun r =>
        r.bind fun x => (meaning sampleNaming x.2).map fun y => y.2.map Field.id) =
      some (.ok (some [.column "read2".toList 0])) := by
  decide +kernel

end Verif.Schema
