import Verif.Lemmas.PipelineRead

/-!
# C40: the tree of relations survives the pipelines
-/

namespace Verif.Pipe

open Verif

/-- C40: for every binary plan with one relation tree whose relations can be written as text,
have as many inputs as they need, have distinct readable names, and keep their subqueries in
expressions other than those of a `read`, the pipelines that are printed for it can be parsed
and are accepted, and the binary plan made from the text has exactly the same tree: the same
relations with the same inputs and subqueries in the same order. -/
theorem relations_roundtrip_partial (root : Str) (named : Bool) (r : Rel) (fuel : Nat)
    (hf : Fits r) (hn : (names r).Nodup) (hr : root ∉ names r)
    (hid : IsName root ∧ ∀ n ∈ names r, IsName n) (hl : (names r).length ≤ fuel) :
    roundTrip root named r fuel = .ok [r] := by
  unfold roundTrip
  rw [lines_convert hf hn hr hl, Outcome.bind_ok]
  have hne : (allSegs root r).map lineOf ≠ [] := by simp [allSegs]
  rw [pipelinesOf_section _ hne]
  · obtain ⟨s, e, he, hb⟩ := read_back (named := named) hf hn hr hl
    simp only [e, Outcome.bind_ok, he, List.isEmpty_nil, if_true, hb]
  · intro p hp n hnp
    obtain ⟨y, hy, rfl⟩ := List.mem_map.mp hp
    rcases (mem_line (root := root) hf).mp ⟨y, hy, hnp⟩ with h | h
    · rw [h]; exact hid.1
    · exact hid.2 n h
  · intro p hp
    obtain ⟨y, hy, rfl⟩ := List.mem_map.mp hp
    have := allSegs_ne_nil y hy
    simp [lineOf, this]

/-- A join of a filtered read and of a projection, with a subquery in the filter. -/
def sampleTree : Rel :=
  .node .join "join".toList
    [.node .filter "filter".toList [.node .read "read".toList [] []]
      [.node .aggregate "aggregate".toList [.node .read "read2".toList [] []] []],
     .node .project "project".toList
      [.node .cross "cross".toList
        [.node .read "read3".toList [] [], .node .read "read4".toList [] []] []] []] []

/-- A name can be read. -/
def isNameB (s : Str) : Bool := ((Lex.lex s).bind Parse.parseId) == some (s, [])

theorem isName_of {s : Str} (h : isNameB s = true) : IsName s := by
  unfold isNameB at h
  rw [beq_iff_eq] at h
  cases hl : Lex.lex s with
  | none => rw [hl] at h; simp at h
  | some ts => rw [hl] at h; exact ⟨ts, hl, h⟩

example : Fits sampleTree ∧ (names sampleTree).Nodup ∧ "root".toList ∉ names sampleTree ∧
    IsName "root".toList ∧ (∀ n ∈ names sampleTree, IsName n) ∧
    (names sampleTree).length ≤ 10 := by
  refine ⟨?_, by decide, by decide, isName_of (by decide +kernel), ?_, by decide⟩
  · simp [sampleTree, Fits, FitsL, Writable, Arity]
  · have : (names sampleTree).all isNameB = true := by decide +kernel
    exact fun n hn => isName_of (List.all_eq_true.mp this n hn)

/-! ## What the hypotheses leave out -/

/-- The relations of a plan. -/
def planNames (p : Outcome (List Rel)) : Option (List Str) :=
  match p with
  | .ok rs => some (namesL rs)
  | _ => none

/-- C40 does not hold for subqueries in the filter of a `read`: their relations are printed,
read, and then left out of the binary plan. -/
theorem read_subquery_dropped : ∃ r, (names r).Nodup ∧
    planNames (roundTrip "root".toList true r 10) = some ["read".toList] ∧
    names r = ["read".toList, "read2".toList] :=
  ⟨.node .read "read".toList [] [.node .read "read2".toList [] []], by decide,
    by decide +kernel, rfl⟩

/-- C40 does not hold for hash joins, merge joins, exchanges, writes, ddl statements and
extension relations: what is printed for their type is not a relation type of the text
grammar, whatever they contain. -/
theorem kinds_unreadable (k : RelKind) : readKind (kindName k) = none ↔ ¬ Writable k := by
  cases k <;> decide +kernel

/-- A table of relations of these kinds. -/
def relTable (l : List (Str × RelKind)) : Table :=
  tableOf (l.map fun e => (e.1, .rel (some e.2) Data.empty))

/-- The plan made from a section and relations. -/
def planOf (l : List (Str × RelKind)) (ps : List (List Str)) (fuel : Nat) : Outcome (List Rel) :=
  (visitAll (ps.map refs) ⟨relTable l, []⟩).bind fun s =>
    if s.errors.isEmpty then binaryPlan s.table fuel else .throw .other

/-- A text whose pipeline does not end in `root` loses the relation at its end. -/
theorem no_root_dropped : planNames (planOf [("a".toList, .read), ("b".toList, .filter)]
    [["a".toList, "b".toList]] 10) = some ["a".toList] := by decide +kernel

/-- Of two pipelines that end in `root`, only the first gets into the plan. -/
theorem second_root_dropped : planNames (planOf [("a".toList, .read), ("b".toList, .read)]
    [["a".toList, "root".toList], ["b".toList, "root".toList]] 10) = some ["a".toList] := by
  decide +kernel

/-- A join that is not fed by exactly two pipelines loses its inputs. -/
theorem join_in_the_middle_dropped :
    planNames (planOf [("a".toList, .read), ("b".toList, .read), ("j".toList, .join)]
      [["b".toList, "j".toList], ["a".toList, "j".toList, "root".toList]] 10) = some ["j".toList] := by
  decide +kernel

/-- The table read from `b -> a; a -> b; b -> root;`: a cycle of filters below the root. -/
def cycleTable : Table :=
  match visitAll ([["b".toList, "a".toList], ["a".toList, "b".toList], ["b".toList, "root".toList]].map refs)
      ⟨relTable [("a".toList, .filter), ("b".toList, .filter)], []⟩ with
  | .ok s => s.table
  | _ => Table.empty

theorem cycle_build (fuel : Nat) : build cycleTable fuel "a".toList = .ub ∧
    build cycleTable fuel "b".toList = .ub := by
  induction fuel with
  | zero => exact ⟨rfl, rfl⟩
  | succ f ih =>
    have k1 : cycleTable.kind "a".toList = some .filter := by decide +kernel
    have k2 : cycleTable.kind "b".toList = some .filter := by decide +kernel
    have i1 : inputsOf .filter (cycleTable.data "a".toList) = .ok ["b".toList] := by decide +kernel
    have i2 : inputsOf .filter (cycleTable.data "b".toList) = .ok ["a".toList] := by decide +kernel
    constructor
    · rw [build, k1]
      simp only [i1, Outcome.bind_ok, Outcome.mapM_cons, ih.2, Outcome.bind_ub]
    · rw [build, k2]
      simp only [i2, Outcome.bind_ok, Outcome.mapM_cons, ih.1, Outcome.bind_ub]

/-- A section with a cycle that is accepted makes the conversion run without end, whatever
the size of the stack. -/
theorem cycle_diverges : ∃ s,
    visitAll ([["b".toList, "a".toList], ["a".toList, "b".toList], ["b".toList, "root".toList]].map refs)
      ⟨relTable [("a".toList, .filter), ("b".toList, .filter)], []⟩ = .ok s ∧
    s.errors = [] ∧ ∀ fuel, binaryPlan s.table fuel = .ub := by
  have hv : ∃ s, visitAll ([["b".toList, "a".toList], ["a".toList, "b".toList],
      ["b".toList, "root".toList]].map refs)
      ⟨relTable [("a".toList, .filter), ("b".toList, .filter)], []⟩ = .ok s := by
    obtain ⟨s, h, -⟩ := visitAll_plain [["b".toList, "a".toList], ["a".toList, "b".toList],
      ["b".toList, "root".toList]] ⟨relTable [("a".toList, .filter), ("b".toList, .filter)], []⟩
      (by
        intro p hp n hn ho
        have : ∀ n, (relTable [("a".toList, .filter), ("b".toList, .filter)]).get n ≠ some .other := by
          intro n h
          simp only [relTable, tableOf, Option.map_eq_some_iff] at h
          obtain ⟨x, hx, e⟩ := h
          have := List.mem_of_find?_eq_some hx
          simp only [List.map_cons, List.map_nil, List.mem_cons, List.not_mem_nil, or_false] at this
          rcases this with rfl | rfl <;> simp at e
        exact this n ho)
    exact ⟨s, h⟩
  obtain ⟨s, hs⟩ := hv
  have ht : cycleTable = s.table := by unfold cycleTable; rw [hs]
  have he : (visitAll ([["b".toList, "a".toList], ["a".toList, "b".toList],
      ["b".toList, "root".toList]].map refs)
      ⟨relTable [("a".toList, .filter), ("b".toList, .filter)], []⟩).map (·.errors) = .ok [] := by
    decide +kernel
  rw [hs] at he
  refine ⟨s, hs, by simpa [Outcome.map] using he, fun fuel => ?_⟩
  rw [← ht]
  have ho : cycleTable.order = ["a".toList, "b".toList, "root".toList] := by decide +kernel
  have p1 : ∀ f, planRel cycleTable f "a".toList = none := fun f => by
    unfold planRel
    rw [if_neg (by decide +kernel), if_pos (by decide +kernel)]
  have p2 : ∀ f, planRel cycleTable f "b".toList = none := fun f => by
    unfold planRel
    rw [if_neg (by decide +kernel), if_pos (by decide +kernel)]
  have p3 : ∀ f, planRel cycleTable f "root".toList = some (build cycleTable f "b".toList) := fun f => by
    have hnw : (cycleTable.data "root".toList).news = ["b".toList] := by decide +kernel
    unfold planRel
    rw [if_neg (by decide +kernel), if_neg (by decide +kernel), hnw]
  unfold binaryPlan
  rw [ho]
  simp only [List.filterMap_cons, List.filterMap_nil, p1, p2, p3, (cycle_build fuel).2,
    Outcome.mapM_cons, id, Outcome.bind_ub]

end Verif.Pipe
