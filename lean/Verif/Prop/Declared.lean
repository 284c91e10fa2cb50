import Verif.Lemmas.Declared
import Verif.Prop.Renumber
import Verif.Prop.WholeAgain

/-! # C73: the order in which a binary plan declares URIs and functions -/

namespace Verif.Whole

open Verif Verif.Expr

theorem Shuffled.mem {l l' : List Ext.PbFunction} (h : Shuffled l l') :
    ∀ f, f ∈ l ↔ f ∈ l' := by
  induction h with
  | nil => simp
  | cons f _ ih => intro g; simp [ih]
  | swap f g l _ _ => intro x; simp only [List.mem_cons]; grind
  | trans _ _ ih1 ih2 => exact fun f => (ih1 f).trans (ih2 f)

theorem space_declared {us : List Ext.PbUri} {fs : List Ext.PbFunction} {f : Ext.FunSym}
    (hf : f ∈ (Ext.readBinary us fs).funs) : ∃ g ∈ fs, f.space = some g.uriRef := by
  have h : (f.anchor, f.name, f.space) ∈ fs.map fun f => (f.anchor, f.name, some f.uriRef) := by
    rw [← Ext.readBinary_funs us fs]
    exact List.mem_map.mpr ⟨f, hf, rfl⟩
  obtain ⟨g, hg, e⟩ := List.mem_map.mp h
  simp only [Prod.mk.injEq] at e
  exact ⟨g, hg, e.2.2.symm⟩

theorem distinct_apart {p : Input} (h : UrisApart p) :
    Ext.Distinct (Ext.readBinary p.uris p.functions) := by
  intro f hf g hg he
  obtain ⟨f', hf', e1⟩ := space_declared hf
  obtain ⟨g', hg', e2⟩ := space_declared hg
  rw [e1, e2, Option.bind_some, Option.bind_some, Ext.uriOf_readBinary, Ext.uriOf_readBinary] at he
  rw [e1, e2, h f' hf' g' hg' he]

/-- **C73.**  The order in which a binary plan declares its URIs and functions does not matter, as long
as functions with the same short name stay in order: it is the same text or is refused in the same way. -/
theorem redeclared_text {p p' : Input} (h : Redeclared p p') (hu : UrisApart p) {sort : Ext.Sorter}
    (hs : Ext.Sorts sort) (lib : Literal.Lib) (fuel : Nat) :
    toText lib sort fuel p' = toText lib sort fuel p := by
  have hu' : UrisApart p' := by
    intro f hf g hg he
    have hf := (h.functions.mem f).mpr hf
    have hg := (h.functions.mem g).mpr hg
    rw [h.uris f hf, h.uris g hg] at he
    exact hu f hf g hg he
  have h0 : Alike Sym.Table.empty Sym.Table.empty := ⟨[], [], counted_empty, counted_empty, fun _ => rfl⟩
  obtain ⟨h1, h2⟩ := paired_shuffled h.functions h0 (Paired.refl [])
  have hc : Alike (startCounters p) (startCounters p') := h1.next Sec.rootNamesName
  obtain ⟨h3, h4⟩ := alike_tree p.rel hc
  have hfun : ∀ a, functionName (Ext.readBinary p'.uris p'.functions) a =
      functionName (Ext.readBinary p.uris p.functions) a := by
    intro a
    unfold functionName Ext.readBinary
    rw [h2.find a]
  have hd : (Ext.described (Ext.readBinary p'.uris p'.functions)).Perm
      (Ext.described (Ext.readBinary p.uris p.functions)) := by
    refine ((h2.perm.map _).trans (.of_eq ?_)).symm
    apply List.map_congr_left
    intro f hf
    have hf : f ∈ (Ext.readBinary p'.uris p'.functions).funs := hf
    obtain ⟨g, hg, e⟩ := space_declared hf
    have hg := (h.functions.mem g).mpr hg
    simp only [e, Option.bind_some]
    rw [Ext.uriOf_readBinary, Ext.uriOf_readBinary, h.uris g hg]
  have hb : Ext.blocks sort (Ext.readBinary p'.uris p'.functions) =
      Ext.blocks sort (Ext.readBinary p.uris p.functions) :=
    Ext.blocks_same hs (Ext.binary_placed _ _) (Ext.binary_placed _ _) (distinct_apart hu')
      (distinct_apart hu) hd
  unfold toText
  simp only [h.rel, h.names]
  rw [← h3, ← h4.name]
  exact treeText_functions hfun hb fuel _ _ _

/-- URIs with different numbers may be declared in any order. -/
theorem resolve_perm {us us' : List Ext.PbUri} (hp : us.Perm us') (hn : (us.map (·.anchor)).Nodup)
    (a : Nat) : Ext.resolve us' a = Ext.resolve us a := by
  induction hp with
  | nil => rfl
  | cons u _ ih => simp only [List.map_cons, List.nodup_cons] at hn; simp only [Ext.resolve, ih hn.2]
  | swap u v l =>
    simp only [List.map_cons, List.nodup_cons, List.mem_cons, not_or] at hn
    simp only [Ext.resolve]
    by_cases h1 : u.anchor = a <;> by_cases h2 : v.anchor = a <;> simp [h1, h2]
    exact absurd (h2.trans h1.symm) hn.1.1
  | trans h1 _ ih1 ih2 => rw [ih2 ((h1.map _).nodup_iff.mp hn), ih1 hn]

/-- Functions with different short names and numbers may be declared in any order. -/
theorem shuffled_perm {fs fs' : List Ext.PbFunction} (hp : fs.Perm fs')
    (hs : (fs.map fun f => Ext.shortName f.name).Nodup) (hn : (fs.map (·.anchor)).Nodup) :
    Shuffled fs fs' := by
  induction hp with
  | nil => exact .nil
  | cons f _ ih =>
    simp only [List.map_cons, List.nodup_cons] at hs hn
    exact .cons f (ih hs.2 hn.2)
  | swap f g l =>
    simp only [List.map_cons, List.nodup_cons, List.mem_cons, not_or] at hs hn
    exact .swap g f l hs.1.1 hn.1.1
  | trans h1 _ ih1 ih2 =>
    exact .trans (ih1 hs hn) (ih2 ((h1.map _).nodup_iff.mp hs) ((h1.map _).nodup_iff.mp hn))

/-- **C73, any order.**  If the URIs have different numbers, and the functions have different numbers and
different short names, both may be declared in any order. -/
theorem redeclared_perm {p p' : Input} (hf : p.functions.Perm p'.functions) (hu : p.uris.Perm p'.uris)
    (hn : p'.names = p.names) (hr : p'.rel = p.rel) (h1 : (p.uris.map (·.anchor)).Nodup)
    (h2 : (p.functions.map (·.anchor)).Nodup) (h3 : NoOverloads p) (ha : UrisApart p)
    {sort : Ext.Sorter} (hs : Ext.Sorts sort) (lib : Literal.Lib) (fuel : Nat) :
    toText lib sort fuel p' = toText lib sort fuel p :=
  redeclared_text ⟨shuffled_perm hf h3 h2, fun f _ => resolve_perm hu h1 f.uriRef, hn, hr⟩ ha hs lib fuel

/-! ### Non-vacuity -/

/-- The declarations the other way round. -/
def declaredBackwards (p : Input) : Input :=
  { p with uris := p.uris.reverse, functions := p.functions.reverse }

example : toText sampleLib insertSort 8 (declaredBackwards sampleInput) =
    toText sampleLib insertSort 8 sampleInput :=
  redeclared_perm (p := sampleInput) (p' := declaredBackwards sampleInput) (List.reverse_perm _).symm (List.reverse_perm _).symm rfl rfl (by decide) (by decide)
    (by unfold NoOverloads; decide) (by unfold UrisApart; decide) insertSort_sorts sampleLib 8

/-- A URI that no function refers to is left out, and overloads stay in order. -/
def threeFunctions : Input where
  uris := [⟨"/f".toList, 1⟩, ⟨"/g".toList, 2⟩, ⟨"/g".toList, 3⟩]
  functions := [⟨5, "equal:i8_i8".toList, 1⟩, ⟨6, "add:i8_i8".toList, 2⟩, ⟨7, "equal:str_str".toList, 1⟩]
  names := []
  rel := sampleTable

def threeOthers : Input where
  uris := [⟨"/g".toList, 2⟩, ⟨"/f".toList, 1⟩]
  functions := [⟨6, "add:i8_i8".toList, 2⟩, ⟨5, "equal:i8_i8".toList, 1⟩, ⟨7, "equal:str_str".toList, 1⟩]
  names := []
  rel := sampleTable

example (lib : Literal.Lib) (fuel : Nat) :
    toText lib insertSort fuel threeOthers = toText lib insertSort fuel threeFunctions :=
  redeclared_text (p := threeFunctions) (p' := threeOthers)
    ⟨.swap ⟨5, "equal:i8_i8".toList, 1⟩ ⟨6, "add:i8_i8".toList, 2⟩ [⟨7, "equal:str_str".toList, 1⟩]
      (by decide) (by decide), by decide, rfl, rfl⟩ (by unfold UrisApart; decide) insertSort_sorts lib fuel

/-! ### What the order does matter for -/

/-- Two functions with the same short name. -/
def overloads (fs : List Ext.PbFunction) : Input where
  uris := [⟨"/f".toList, 1⟩]
  functions := fs
  names := []
  rel := .node ⟨.filter (some (sampleCall 5 (sampleField 0) (sampleField 1) .bool)), [], none, none⟩
    [sampleTable]

/-- Overloads get other names in another order, so that the text is another one. -/
theorem overloads_order :
    isOk (toText sampleLib insertSort 3 (overloads
        [⟨5, "equal:i32".toList, 1⟩, ⟨6, "equal:str".toList, 1⟩])) = true ∧
      toText sampleLib insertSort 3 (overloads [⟨6, "equal:str".toList, 1⟩, ⟨5, "equal:i32".toList, 1⟩]) ≠
        toText sampleLib insertSort 3 (overloads
          [⟨5, "equal:i32".toList, 1⟩, ⟨6, "equal:str".toList, 1⟩]) := by
  have h : isOk (toText sampleLib insertSort 3 (overloads
        [⟨5, "equal:i32".toList, 1⟩, ⟨6, "equal:str".toList, 1⟩])) = true ∧
      (textOf (toText sampleLib insertSort 3 (overloads
        [⟨6, "equal:str".toList, 1⟩, ⟨5, "equal:i32".toList, 1⟩]))).length ≠
      (textOf (toText sampleLib insertSort 3 (overloads
        [⟨5, "equal:i32".toList, 1⟩, ⟨6, "equal:str".toList, 1⟩]))).length := by decide +kernel
  exact ⟨h.1, fun he => h.2 (by rw [he])⟩

/-- If two numbers stand for the same URI, the order decides which functions are missing in the text. -/
theorem sameUri_order :
    (Ext.blocks insertSort (Ext.readBinary [⟨"/f".toList, 1⟩, ⟨"/f".toList, 2⟩]
        [⟨5, "equal:".toList, 1⟩, ⟨6, "add:".toList, 2⟩])) =
      .ok [⟨some "/f".toList, [("equal".toList, "equal:".toList)]⟩] ∧
    (Ext.blocks insertSort (Ext.readBinary [⟨"/f".toList, 1⟩, ⟨"/f".toList, 2⟩]
        [⟨6, "add:".toList, 2⟩, ⟨5, "equal:".toList, 1⟩])) =
      .ok [⟨some "/f".toList, [("add".toList, "add:".toList)]⟩] := by
  decide +kernel

end Verif.Whole
