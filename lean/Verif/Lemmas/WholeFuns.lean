import Verif.Lemmas.WholeItems
import Verif.Prop.Extension

/-! # The functions of a plan and their numbers -/

namespace Verif.Whole

open Verif Verif.Expr

/-- The functions the reader finds in the blocks. -/
def readTable (bs : List Ext.Block) : Ext.Table := (Ext.readSpaces (bs.map Ext.treeOf)).table

/-- The number of the first function with a name. -/
def anchorIn (t : Ext.Table) (n : Str) : Option Nat :=
  (t.funs.find? fun f => f.symbol = n).map (·.anchor)

/-- The new numbers of the functions. -/
def newNumber (t : Ext.Table) (bs : List Ext.Block) (a : Nat) : Nat :=
  ((functionName t a).bind (anchorIn (readTable bs))).getD 0

/-- The functions of the table are those of the blocks. -/
structure FunsFit (t : Ext.Table) (bs : List Ext.Block) : Prop where
  symbols : (t.funs.map (·.symbol)).Nodup
  anchors : (t.funs.map (·.anchor)).Nodup
  written : (Ext.written bs).Perm (Ext.described t)

theorem mapIdx_anchor (space : Option Nat) : ∀ (fs : List Ext.FunctionTree) (start : Nat),
    (fs.mapIdx (Ext.symbolOf space start)).map (·.anchor) = List.range' start fs.length
  | [], _ => rfl
  | f :: fs, start => by
    rw [List.mapIdx_cons, List.map_cons, List.length_cons, List.range'_succ,
      ← mapIdx_anchor space fs (start + 1)]
    congr 1
    congr 1
    apply List.mapIdx_eq_mapIdx_iff.mpr
    intro j hj
    simp [Ext.symbolOf]; omega

/-- The functions of a text are numbered from 0. -/
theorem anchors_range : ∀ ts : List Ext.SpaceTree,
    (Ext.readSpaces ts).table.funs.map (·.anchor) =
      List.range (Ext.readSpaces ts).table.funs.length := by
  intro ts
  induction ts using Ext.snoc_induction with
  | h0 => rfl
  | h1 ts t ih =>
    have hc := Ext.counts ts
    rw [Ext.readSpaces_snoc, Ext.visitSpace_eq]
    simp only [List.map_append, List.length_append, List.length_mapIdx, mapIdx_anchor, ih]
    rw [hc.2.1, ← hc.2.2, List.range_eq_range', List.range_eq_range']
    have := List.range'_append (s := 0) (m := (Ext.readSpaces ts).table.funs.length)
      (n := t.functions.length) (step := 1)
    simpa using this

theorem find_unique {α : Type} {key : α → Str} {l : List α} {x : α} (h : (l.map key).Nodup)
    (hx : x ∈ l) : l.find? (fun y => decide (key y = key x)) = some x := by
  induction l with
  | nil => simp at hx
  | cons a l ih =>
    rw [List.map_cons, List.nodup_cons] at h
    rcases List.mem_cons.mp hx with rfl | hx
    · simp
    · rw [List.find?_cons_of_neg, ih h.2 hx]
      simp only [decide_eq_true_eq]
      intro e
      exact h.1 (e ▸ List.mem_map.mpr ⟨x, hx, rfl⟩)

theorem find_number {α : Type} {key : α → Nat} {l : List α} {x : α} (h : (l.map key).Nodup)
    (hx : x ∈ l) : l.find? (fun y => decide (key y = key x)) = some x := by
  induction l with
  | nil => simp at hx
  | cons a l ih =>
    rw [List.map_cons, List.nodup_cons] at h
    rcases List.mem_cons.mp hx with rfl | hx
    · simp
    · rw [List.find?_cons_of_neg, ih h.2 hx]
      simp only [decide_eq_true_eq]
      intro e
      exact h.1 (e ▸ List.mem_map.mpr ⟨x, hx, rfl⟩)

variable {t : Ext.Table} {bs : List Ext.Block}

theorem described_perm (h : FunsFit t bs) :
    (Ext.described (readTable bs)).Perm (Ext.described t) := by
  rw [readTable, Ext.read_blocks]
  exact h.written

theorem read_symbols (h : FunsFit t bs) :
    ((readTable bs).funs.map (·.symbol)).Perm (t.funs.map (·.symbol)) := by
  have := (described_perm h).map fun x => x.2.1
  simpa only [Ext.described, List.map_map, Function.comp_def] using this

theorem read_symbols_nodup (h : FunsFit t bs) : ((readTable bs).funs.map (·.symbol)).Nodup :=
  (read_symbols h).nodup_iff.mpr h.symbols

theorem read_anchors_nodup (bs : List Ext.Block) : ((readTable bs).funs.map (·.anchor)).Nodup := by
  rw [readTable, anchors_range]
  exact List.nodup_range

/-- A function of the table among those that are read. -/
theorem function_read (h : FunsFit t bs) {f : Ext.FunSym} (hf : f ∈ t.funs) :
    ∃ g ∈ (readTable bs).funs, g.symbol = f.symbol ∧ g.name = f.name ∧
      g.space.bind (Ext.uriOf (readTable bs).spaces) = f.space.bind (Ext.uriOf t.spaces) ∧
      functionName t f.anchor = some f.symbol ∧
      anchorIn (readTable bs) f.symbol = some g.anchor ∧
      newNumber t bs f.anchor = g.anchor ∧
      functionName (readTable bs) g.anchor = some f.symbol := by
  have hm : (f.space.bind (Ext.uriOf t.spaces), f.symbol, f.name) ∈
      Ext.described (readTable bs) :=
    (described_perm h).mem_iff.mpr (List.mem_map.mpr ⟨f, hf, rfl⟩)
  obtain ⟨g, hg, e⟩ := List.mem_map.mp hm
  simp only [Prod.mk.injEq] at e
  have h1 : functionName t f.anchor = some f.symbol := by
    unfold functionName
    rw [find_number h.anchors hf]
    rfl
  have h2 : anchorIn (readTable bs) f.symbol = some g.anchor := by
    unfold anchorIn
    rw [← e.2.1, find_unique (key := Ext.FunSym.symbol) (read_symbols_nodup h) hg]
    rfl
  refine ⟨g, hg, e.2.1, e.2.2, e.1, h1, h2, ?_, ?_⟩
  · rw [newNumber, h1, Option.bind_some, h2]
    rfl
  · unfold functionName
    rw [find_number (read_anchors_nodup bs) hg, Option.map_some, e.2.1]

/-- The environment of the plan before its symbols are known to the reader. -/
def env (s : Setting) (bs : List Ext.Block) (anchor : Str → Option Nat)
    (relation : Str → Option Bool) (source : Str → Option Rel.SourceSymbol)
    (schema : Str → Option (List Schema.Field)) : Env where
  lib := s.lib
  ρ := newNumber s.functions bs
  printName := functionName s.functions
  readName := functionName (readTable bs)
  anchor := anchor
  relation := relation
  source := source
  schema := schema

/-- The function is in the table. -/
def InTable (t : Ext.Table) (a : Nat) : Prop := ∃ f ∈ t.funs, f.anchor = a

/-- The functions of a table; relations of subqueries have no name yet. -/
def tableKnown (t : Ext.Table) : Known := ⟨InTable t, fun n => n = [], fun _ _ => False⟩

theorem env_fits {s : Setting} {anchor relation source schema} (h : FunsFit s.functions bs)
    (hn : ∀ f ∈ s.functions.funs, Ext.IsName f.symbol ∧ f.symbol.map toLower ≠ "ifthen".toList)
    (ha : ∀ f ∈ s.functions.funs, anchor f.symbol = anchorIn (readTable bs) f.symbol)
    {rel : Str → Prop} {outer : Nat → Int → Prop}
    (hr : ∀ n, rel n → relation n = some true ∧ Ext.IsName n ∧ ¬ "_enum".toList <:+ n) :
    EnvFits (env s bs anchor relation source schema) (((tableKnown s.functions).names rel).seeing outer) where
  rel := hr
  name := by
    rintro a ⟨f, hf, rfl⟩
    obtain ⟨g, hg, -, -, -, h1, h2, h3, h4⟩ := function_read h hf
    show functionName (readTable bs) (newNumber s.functions bs f.anchor) = functionName s.functions _
    rw [h3, h4, h1]
  ok := by
    rintro a ⟨f, hf, rfl⟩
    obtain ⟨g, hg, -, -, -, h1, h2, h3, h4⟩ := function_read h hf
    refine ⟨f.symbol, ?_, (hn f hf).1, (hn f hf).2, ?_⟩
    · show functionName (readTable bs) (newNumber s.functions bs f.anchor) = _
      rw [h3, h4]
    · show anchor f.symbol = some (newNumber s.functions bs f.anchor)
      rw [ha f hf, h2, h3]

/-- The functions of the binary plan that is written from what was read. -/
theorem sameFunctions {p : Input} {b : Binary} (h : FunsFit p.table bs)
    (hu : b.uris = Ext.binaryUris (readTable bs))
    (hf : b.functions = Ext.binaryFunctions (readTable bs)) :
    SameFunctions (newNumber p.table bs) p b where
  kept := by
    intro f hf'
    have hm : (f.anchor, f.name, some f.uriRef) ∈
        p.table.funs.map fun f => (f.anchor, f.name, f.space) := by
      rw [Input.table, Ext.readBinary_funs]
      exact List.mem_map.mpr ⟨f, hf', rfl⟩
    obtain ⟨x, hx, e⟩ := List.mem_map.mp hm
    simp only [Prod.mk.injEq] at e
    obtain ⟨g, hg, h1, h2, h3, -, -, h4, -⟩ := function_read h hx
    refine ⟨Ext.declare (readTable bs).spaces g, ?_, ?_, ?_, ?_⟩
    · rw [hf, (Ext.binary_complete _).mem_iff]
      exact List.mem_map.mpr ⟨g, hg, rfl⟩
    · rw [← e.1, h4]
      rfl
    · rw [← e.2.1, ← h2]
      rfl
    · rw [hu, readTable, Ext.binary_resolves_text]
      rw [show (Ext.readSpaces (bs.map Ext.treeOf)).table = readTable bs from rfl, h3, e.2.2,
        Option.bind_some, Input.table, Ext.uriOf_readBinary]
  count := by
    rw [hf, (Ext.binary_complete _).length_eq, List.length_map]
    have h1 := (read_symbols h).length_eq
    have h2 := congrArg List.length (Ext.readBinary_funs p.uris p.functions)
    simp only [List.length_map] at h1 h2
    rw [h1, ← h2]
    rfl
  once := by
    rw [hf, ((Ext.binary_complete _).map _).nodup_iff, List.map_map]
    exact read_anchors_nodup bs

end Verif.Whole
