import Verif.Lemmas.Debug

/-! # C81: the debug text of a symbol table shows its relations and their fields -/

namespace Verif.Debug

open Verif Schema

/-- **C81** (`_partial`: for names that are words, and relations without alternative expressions).
Tables with the same debug text have the same relations with the same fields. -/
theorem debug_shows_partial {ds es : List Entry} (hd : ∀ d ∈ ds, Clean d) (he : ∀ e ∈ es, Clean e)
    (h : debugText ds = debugText es) : ds.map shown = es.map shown := by
  unfold debugText at h
  have line : ∀ {l : List Entry}, (∀ e ∈ l, Clean e) →
      ∀ s ∈ linesFrom 0 l ++ (if l.isEmpty then [] else [[]]), '\n' ∉ s := by
    intro l hl s hs
    rcases List.mem_append.mp hs with hs | hs
    · exact linesFrom_line hl s hs
    · split at hs
      · simp at hs
      · simp only [List.mem_singleton] at hs
        subst hs
        simp
  have h1 := ended_inj (line hd) (line he) h
  cases ds with
  | nil =>
    cases es with
    | nil => rfl
    | cons e es => simp [linesFrom] at h1
  | cons d ds =>
    cases es with
    | nil => simp [linesFrom] at h1
    | cons e es => exact linesFrom_inj hd he (by simpa using h1)

/-- A line for every relation and for every field, and an empty one if there are any. -/
theorem debug_lines (es : List Entry) : ∃ ls, debugText es = ended ls ∧
    ls.length = (es.map fun e => 1 + e.data.fields.length + e.data.generated.length +
      e.data.output.length).sum + if es.isEmpty then 0 else 1 := by
  refine ⟨_, rfl, ?_⟩
  have : ∀ (es : List Entry) (n : Nat), (linesFrom n es).length =
      (es.map fun e => 1 + e.data.fields.length + e.data.generated.length +
        e.data.output.length).sum := by
    intro es
    induction es with
    | nil => intro n; rfl
    | cons e es ih =>
      intro n
      simp only [linesFrom, entryRows, List.length_cons, List.length_append, rows_length, ih,
        List.map_cons, List.sum_cons]
      omega
  rw [List.length_append, this]
  cases es <;> rfl

/-- **C81, numbers.**  The text has the lines of each relation together, after a line that starts with
the number of the relation, and the lines of its fields are numbered: generated fields after those of
the inputs, fields of the output by themselves. -/
theorem debug_numbers (as : List Entry) (e : Entry) (bs : List Entry) :
    ∃ before head lines after,
      debugText (as ++ e :: bs) = before ++ ended ((natText as.length ++ head) :: lines) ++ after ∧
      lines.length = e.data.fields.length + e.data.generated.length + e.data.output.length ∧
      (∀ k, k < e.data.fields.length → ∃ l, lines[k]? = some l ∧ Numbered ' ' k l) ∧
      (∀ k, k < e.data.generated.length → ∃ l, lines[e.data.fields.length + k]? = some l ∧
        Numbered 'g' (e.data.fields.length + k) l) ∧
      ∀ k, k < e.data.output.length →
        ∃ l, lines[e.data.fields.length + e.data.generated.length + k]? = some l ∧
          Numbered 'o' k l := by
  have hl : ∀ (as : List Entry) (n : Nat), linesFrom n (as ++ e :: bs) =
      linesFrom n as ++ (header (n + as.length) e :: (entryRows e ++
        linesFrom (n + as.length + 1) bs)) := by
    intro as
    induction as with
    | nil => intro n; rfl
    | cons a as ih =>
      intro n
      simp only [List.cons_append, linesFrom, ih, List.append_assoc, List.length_cons]
      rw [show n + 1 + as.length = n + (as.length + 1) by omega]
  have hh : ∃ head, header as.length e = natText as.length ++ head := by
    unfold header fit
    exact ⟨_, by simp only [List.append_assoc]; rfl⟩
  obtain ⟨head, hh⟩ := hh
  have gets : ∀ (a b c : List Str) (k : Nat),
      (k < a.length → (a ++ (b ++ c))[k]? = a[k]?) ∧
      (k < b.length → (a ++ (b ++ c))[a.length + k]? = b[k]?) ∧
      (k < c.length → (a ++ (b ++ c))[a.length + b.length + k]? = c[k]?) := by
    intro a b c k
    refine ⟨fun h => by rw [List.getElem?_append_left h], fun h => ?_, fun h => ?_⟩
    · rw [List.getElem?_append_right (by omega), show a.length + k - a.length = k by omega,
        List.getElem?_append_left h]
    · rw [List.getElem?_append_right (by omega), List.getElem?_append_right (by omega)]
      congr 1
      omega
  refine ⟨ended (linesFrom 0 as), head, entryRows e, ended (linesFrom (as.length + 1) bs ++ [[]]), ?_,
    ?_, fun k hk => ?_, fun k hk => ?_, fun k hk => ?_⟩
  · unfold debugText
    rw [hl, ← hh]
    simp [ended]
  · simp only [entryRows, List.length_append, rows_length]
    omega
  · obtain ⟨h1, -, -⟩ := gets (rows (row ' ') 0 e.data.fields)
      (rows (generatedRow e.alternative) e.data.fields.length e.data.generated)
      (rows (row 'o') 0 e.data.output) k
    unfold entryRows
    rw [h1 (by simpa [rows_length] using hk), rows_get, List.getElem?_eq_getElem hk]
    refine ⟨_, rfl, ?_⟩
    rw [Nat.zero_add]
    unfold row
    rw [List.append_assoc]
    exact rowStart_numbered _ _ _
  · obtain ⟨-, h1, -⟩ := gets (rows (row ' ') 0 e.data.fields)
      (rows (generatedRow e.alternative) e.data.fields.length e.data.generated)
      (rows (row 'o') 0 e.data.output) k
    have h2 := h1 (by simpa [rows_length] using hk)
    rw [rows_length] at h2
    unfold entryRows
    rw [h2, rows_get, List.getElem?_eq_getElem hk]
    refine ⟨_, rfl, ?_⟩
    unfold generatedRow
    rw [List.append_assoc]
    exact rowStart_numbered _ _ _
  · obtain ⟨-, -, h1⟩ := gets (rows (row ' ') 0 e.data.fields)
      (rows (generatedRow e.alternative) e.data.fields.length e.data.generated)
      (rows (row 'o') 0 e.data.output) k
    have h2 := h1 (by simpa [rows_length] using hk)
    rw [rows_length, rows_length] at h2
    unfold entryRows
    rw [h2, rows_get, List.getElem?_eq_getElem hk]
    refine ⟨_, rfl, ?_⟩
    rw [Nat.zero_add]
    unfold row
    rw [List.append_assoc]
    exact rowStart_numbered _ _ _

/-- **C81 is false** for alternative expressions.  The one of a generated field is looked up with the
number of another one: that of the line, and one. -/
theorem alternative_misplaced (alternative : Nat → Option Str) (before : Nat) (f : Field) :
    generatedRow alternative before f = rowStart 'g' before ++ fieldText f ++
      ((alternative (before + 1)).map (' ' :: ·)).getD (aliasText f.alias) := by
  unfold generatedRow
  cases alternative (before + 1) <;> rfl

/-- A field. -/
def sampleField (name : String) (schema : Option String) (alias : String) : Field :=
  ⟨.column "rel".toList 0, name.toList, alias.toList, schema.map (·.toList)⟩

/-- A project of two columns with the same name, with its alternative expressions
(InitialPlanProtoVisitor.cpp 528-546). -/
def sampleProject : Entry where
  name := "project".toList
  queries := 0
  data := ⟨false, [], [sampleField "a" none "", sampleField "a" none ""], []⟩
  alternative := fun k =>
    if k = 0 then some "s.a".toList else if k = 1 then some "t.a".toList else none

/-- The first one is shown with the expression of the second, the second one without any. -/
theorem alternative_wrong : debugText [sampleProject] =
    "0   project             \n   g0     a t.a\n   g1     a\n\n".toList := by decide +kernel

/-- **C81 is false** for names with dots: a column `b` of the schema `a` and a column `a.b` look the
same. -/
theorem dotted_name :
    let table := fun f => [(⟨"r".toList, 0, ⟨false, [f], [], []⟩, fun _ => none⟩ : Entry)]
    debugText (table (sampleField "b" (some "a") "")) = debugText (table (sampleField "a.b" none "")) ∧
    (table (sampleField "b" (some "a") "")).map shown ≠ (table (sampleField "a.b" none "")).map shown :=
  ⟨by decide +kernel, by intro h; simp [shown, seen, sampleField] at h⟩

/-- A table with all kinds of fields. -/
def sampleTable : List Entry :=
  [⟨"read".toList, 0, ⟨false, [sampleField "a" (some "s") "", sampleField "b" (some "s") "x y"], [], []⟩,
      fun _ => none⟩,
    ⟨"a_relation_with_a_long_name".toList, 2, ⟨true, [sampleField "a" (some "s") ""],
      [sampleField "m" none ""], [sampleField "m" none "n"]⟩, fun _ => none⟩]

/-- The conditions hold of it. -/
example : ∀ e ∈ sampleTable, Clean e := by
  intro e he
  simp only [sampleTable, List.mem_cons, List.not_mem_nil, or_false] at he
  rcases he with rfl | rfl <;> refine ⟨by decide, ?_, ?_, ?_, fun _ => rfl⟩ <;> intro f hf <;>
    simp only [List.mem_cons, List.not_mem_nil, or_false] at hf
  · rcases hf with rfl | rfl <;> exact ⟨by decide, by intro s hs; cases hs; decide, by decide⟩
  · subst hf
    exact ⟨by decide, by intro s hs; cases hs; decide, by decide⟩
  · subst hf
    exact ⟨by decide, (by intro s hs; cases hs), by decide⟩
  · subst hf
    exact ⟨by decide, (by intro s hs; cases hs), by decide⟩

end Verif.Debug
