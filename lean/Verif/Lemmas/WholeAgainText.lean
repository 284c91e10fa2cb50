import Verif.Lemmas.WholeAgainFuns
import Verif.Spec.WholeAgain

/-! # The text of what is read -/

namespace Verif.Ext

open Verif

theorem pairLess_total (x y : Str × Str) (h1 : pairLess x y = false) (h2 : pairLess y x = false) :
    x = y := by
  obtain ⟨a, b⟩ := x
  obtain ⟨c, d⟩ := y
  simp only [pairLess, Bool.or_eq_false_iff, Bool.and_eq_false_iff, Bool.not_eq_false'] at h1 h2
  have e := strLess_total a c h1.1 h2.1
  subst e
  rw [strLess_irrefl] at h1 h2
  simp only [Bool.false_eq_true, false_or] at h1 h2
  rw [strLess_total b d h1.2 h2.2]

/-- What is sorted does not depend on the order it had. -/
theorem Sorts.perm {sort : Sorter} (h : Sorts sort) {l l' : List (Str × Str)} (hp : l.Perm l') :
    sort l = sort l' := by
  apply List.Perm.eq_of_pairwise (le := fun a b => pairLess b a = false)
  · intro a b _ _ h1 h2
    exact pairLess_total a b h2 h1
  · exact h.sorted l
  · exact h.sorted l'
  · exact (h.same l).trans (hp.trans (h.same l').symm)

/-- Strictly sorted lists with the same members are the same. -/
theorem sorted_unique {l l' : List (Option Str)}
    (h : l.Pairwise fun a b => optLess a b = true) (h' : l'.Pairwise fun a b => optLess a b = true)
    (hm : ∀ a, a ∈ l ↔ a ∈ l') : l = l' := by
  have o := order_spaces []
  have nd : ∀ l : List (Option Str), (l.Pairwise fun a b => optLess a b = true) → l.Nodup := by
    intro l hl
    refine hl.imp ?_
    intro a b hab e
    subst e
    rw [o.irrefl] at hab
    exact absurd hab (by simp)
  have perm : l.Perm l' := (List.perm_ext_iff_of_nodup (nd l h) (nd l' h')).mpr hm
  apply List.Perm.eq_of_pairwise (le := fun a b => optLess a b = true) _ h h' perm
  intro a b _ _ h1 h2
  have := o.trans _ _ _ h1 h2
  rw [o.irrefl] at this
  exact absurd this (by simp)

/-- The URIs of the blocks. -/
def blockKeys (t : Table) : List (Option Str) := (setOf t).map (nameOf t.spaces)

theorem blockKeys_sorted (t : Table) : (blockKeys t).Pairwise fun a b => optLess a b = true := by
  rw [blockKeys, List.pairwise_map]
  exact (held_setOf t).sorted

theorem mem_blockKeys {t : Table} (h : AllPlaced t) (k : Option Str) :
    k ∈ blockKeys t ↔ ∃ x ∈ described t, x.1 = k := by
  constructor
  · intro hk
    obtain ⟨a, ha, rfl⟩ := List.mem_map.mp hk
    obtain ⟨f, hf, e⟩ := (mem_spaceNumbers _ _).mp ((held_setOf t).from_ a ha)
    refine ⟨_, List.mem_map.mpr ⟨f, hf, rfl⟩, ?_⟩
    simp [e, nameOf_eq]
  · rintro ⟨x, hx, rfl⟩
    obtain ⟨f, hf, rfl⟩ := List.mem_map.mp hx
    have hs := h f hf
    cases e : f.space with
    | none => simp [e] at hs
    | some a =>
      obtain ⟨b, hb, e'⟩ := (held_setOf t).all a ((mem_spaceNumbers _ _).mpr ⟨f, hf, e⟩)
      refine List.mem_map.mpr ⟨b, hb, ?_⟩
      simp [e', nameOf_eq]

/-- The blocks, told by what the functions are described as. -/
theorem blocks_described {sort : Sorter} {t : Table} (h : AllPlaced t) (hd : Distinct t) :
    blocks sort t = .ok ((blockKeys t).map fun k =>
      ⟨k, sort (((described t).filter fun x => x.1 = k).map (·.2))⟩) := by
  rw [blocks_placed sort t h, blockKeys, List.map_map]
  congr 1
  apply List.map_congr_left
  intro a ha
  obtain ⟨g, hg, eg⟩ := (mem_spaceNumbers _ _).mp ((held_setOf t).from_ a ha)
  simp only [blockOf, Function.comp]
  congr 2
  rw [described, List.filter_map, List.map_map]
  have : (t.funs.filter fun f => decide (f.space = none ∨ f.space = some a)) =
      t.funs.filter ((fun x => decide (x.1 = nameOf t.spaces a)) ∘
        fun f => (f.space.bind (uriOf t.spaces), f.symbol, f.name)) := by
    apply List.filter_congr
    intro f hf
    simp only [Function.comp]
    have hs := h f hf
    apply decide_eq_decide.mpr
    constructor
    · rintro (e | e)
      · simp [e] at hs
      · simp [e, nameOf_eq]
    · intro e
      right
      rw [← eg]
      apply hd f hf g hg
      rw [e, eg, Option.bind_some, nameOf_eq]
  rw [this]
  rfl

/-- Tables with the same functions have the same blocks. -/
theorem blocks_same {sort : Sorter} (hs : Sorts sort) {t t' : Table} (h : AllPlaced t)
    (h' : AllPlaced t') (hd : Distinct t) (hd' : Distinct t')
    (hp : (described t).Perm (described t')) : blocks sort t = blocks sort t' := by
  rw [blocks_described h hd, blocks_described h' hd']
  have hk : blockKeys t = blockKeys t' := by
    apply sorted_unique (blockKeys_sorted t) (blockKeys_sorted t')
    intro k
    rw [mem_blockKeys h, mem_blockKeys h']
    constructor
    · rintro ⟨x, hx, e⟩; exact ⟨x, hp.mem_iff.mp hx, e⟩
    · rintro ⟨x, hx, e⟩; exact ⟨x, hp.mem_iff.mpr hx, e⟩
  rw [hk]
  congr 1
  apply List.map_congr_left
  intro k _
  congr 1
  exact hs.perm ((hp.filter _).map _)

end Verif.Ext

namespace Verif.Whole

open Verif Verif.TyPb Verif.Literal Verif.Expr Verif.Schema

variable {p : Input} {bs : List Ext.Block} {names : List Str} {rel : BRel}

/-! ## The symbols of functions stay -/

/-- The functions get the symbols they have in the blocks. -/
def Kept (bs : List Ext.Block) : Prop :=
  ∀ f ∈ (Ext.readBinary (Ext.binaryUris (readTable bs)) (Ext.binaryFunctions (readTable bs))).funs,
    functionName (readTable bs) f.anchor = some f.symbol

theorem read_functionName {g : Ext.FunSym} (hg : g ∈ (readTable bs).funs) :
    functionName (readTable bs) g.anchor = some g.symbol := by
  unfold functionName
  rw [find_number (read_anchors_nodup bs) hg]
  rfl

theorem onward_described (hk : Kept bs) :
    (Ext.described (onward bs names rel).table).Perm (Ext.described (readTable bs)) := by
  have h1 : Ext.described (onward bs names rel).table =
      ((onward bs names rel).table.funs.map fun f => (f.anchor, f.name, f.space)).map
        fun x => (x.2.2.bind (Ext.uriOf (onward bs names rel).table.spaces),
          (functionName (readTable bs) x.1).getD [], x.2.1) := by
    rw [List.map_map]
    apply List.map_congr_left
    intro f hf
    simp only [Function.comp]
    rw [hk f hf, Option.getD_some]
  rw [h1, Input.table, Ext.readBinary_funs, List.map_map]
  refine ((Ext.binary_complete (readTable bs)).map _).trans (.of_eq ?_)
  rw [List.map_map]
  apply List.map_congr_left
  intro g hg
  simp only [Function.comp, Option.bind_some]
  rw [Ext.uriOf_readBinary]
  have h2 := Ext.binary_resolves_text (bs.map Ext.treeOf) g
  rw [show (Ext.readSpaces (bs.map Ext.treeOf)).table = readTable bs from rfl] at h2
  rw [show (onward bs names rel).uris = Ext.binaryUris (readTable bs) from rfl, h2,
    show (Ext.declare (readTable bs).spaces g).anchor = g.anchor from rfl, read_functionName hg]
  rfl

theorem onward_blocks {sort : Ext.Sorter} (hs : Ext.Sorts sort) (h : FunctionsFit p)
    (hb : Ext.blocks sort p.table = .ok bs) (hfit : FunsFit p.table bs) (hk : Kept bs) :
    Ext.blocks sort (onward bs names rel).table = .ok bs := by
  rw [← hb]
  exact Ext.blocks_same hs (Ext.binary_placed _ _) (Ext.binary_placed _ _)
    (onward_distinct (uris_nodup (blocks_uris (Ext.binary_placed _ _) hb))) h.distinct
    ((onward_described hk).trans (described_perm hfit))

theorem newNumber_kept (hk : Kept bs) (hfit : FunsFit (onward bs names rel).table bs)
    {g : Ext.FunSym} (hg : g ∈ (readTable bs).funs) :
    newNumber (onward bs names rel).table bs g.anchor = g.anchor := by
  have ha : g.anchor ∈ (onward bs names rel).table.funs.map (·.anchor) := by
    rw [funs_anchors]
    refine List.mem_map.mpr ⟨Ext.declare (readTable bs).spaces g, ?_, rfl⟩
    exact (Ext.binary_complete _).mem_iff.mpr (List.mem_map.mpr ⟨g, hg, rfl⟩)
  obtain ⟨f, hf, e⟩ := List.mem_map.mp ha
  have hs := hk f hf
  obtain ⟨g', hg', h1, -, -, -, -, h4, -⟩ := function_read hfit hf
  rw [e, read_functionName hg] at hs
  injection hs with hs
  have h5 : g' = g := by
    have h6 := find_unique (key := Ext.FunSym.symbol) (read_symbols_nodup hfit) hg
    have h7 := find_unique (key := Ext.FunSym.symbol) (read_symbols_nodup hfit) hg'
    rw [h1, ← hs] at h7
    rw [h6] at h7
    injection h7 with h7
    exact h7.symm
  rw [← e, h4, h5, e]

theorem newNumber_read (t : Ext.Table) (bs : List Ext.Block) (a : Nat) :
    (∃ g ∈ (readTable bs).funs, newNumber t bs a = g.anchor) ∨
      (newNumber t bs a = 0 ∧ (readTable bs).funs = []) := by
  cases he : (functionName t a).bind (anchorIn (readTable bs)) with
  | some n =>
    left
    obtain ⟨s, -, h2⟩ := Option.bind_eq_some_iff.mp he
    unfold anchorIn at h2
    obtain ⟨g, hg, rfl⟩ := Option.map_eq_some_iff.mp h2
    refine ⟨g, List.mem_of_find?_eq_some hg, ?_⟩
    rw [newNumber, he]
    rfl
  | none =>
    have h0 : newNumber t bs a = 0 := by rw [newNumber, he]; rfl
    cases hf : (readTable bs).funs with
    | nil => exact .inr ⟨h0, rfl⟩
    | cons g gs =>
      left
      have h1 := anchors_range (bs.map Ext.treeOf)
      rw [show (Ext.readSpaces (bs.map Ext.treeOf)).table = readTable bs from rfl, hf] at h1
      have h2 : 0 ∈ List.range (g :: gs).length := by simp
      rw [← h1] at h2
      obtain ⟨x, hx, e⟩ := List.mem_map.mp h2
      exact ⟨x, hx, h0.trans e.symm⟩

/-- The numbers that are read stay. -/
theorem newNumber_again (hk : Kept bs) (hfit : FunsFit (onward bs names rel).table bs) (a : Nat) :
    newNumber (onward bs names rel).table bs (newNumber p.table bs a) = newNumber p.table bs a := by
  rcases newNumber_read p.table bs a with ⟨g, hg, e⟩ | ⟨e, he⟩
  · rw [e]
    exact newNumber_kept hk hfit hg
  · rw [e]
    have : ∀ n, anchorIn (readTable bs) n = none := by
      intro n
      unfold anchorIn
      rw [he]
      rfl
    unfold newNumber
    cases functionName (onward bs names rel).table 0 <;> simp [this]

/-! ## The text of the plan -/

variable {lib : Lib} {gn : Known} {ρ : Nat → Nat}

theorem schemas_again (r : NRel) : schemas (again ρ r) = schemas r := by
  unfold schemas
  rw [subs_again, List.flatMap_map]
  congr 1
  funext x
  unfold NRel.toNode Node.schemas
  rw [again_names, again_own]
  rfl

theorem sources_again (r : NRel) : sources (again ρ r) = sources r := by
  unfold sources
  rw [subs_again, List.flatMap_map]
  congr 1
  funext x
  unfold NRel.toNode Node.sources
  rw [again_names, again_own]
  rfl

theorem relNames_again (r : NRel) : relNames (again ρ r) = relNames r := by
  unfold relNames
  rw [subs_again, List.map_map]
  apply List.map_congr_left
  intro x _
  exact congrArg Names.rel (again_names x)

theorem find_map_again {α : Type} (g : NRel → α) (g' : NRel → α) (n : Str) : ∀ l : List NRel,
    (∀ x ∈ l, g' (again ρ x) = g x) →
    ((l.map (again ρ)).find? fun y => y.names.rel = n).map g' =
      (l.find? fun y => y.names.rel = n).map g
  | [], _ => rfl
  | x :: l, h => by
    rw [List.map_cons, List.find?_cons, List.find?_cons, again_names]
    by_cases e : x.names.rel = n
    · simp [e, h x (by simp)]
    · have := find_map_again g g' n l fun y hy => h y (by simp [hy])
      simpa [e] using this

theorem subs_of_subs {r x y : NRel} (hx : x ∈ subs r) (hy : y ∈ subs x) : y ∈ subs r :=
  subs_trans hx hy

theorem place_again {r : NRel} (hg : ∀ x ∈ subs r, Good lib gn x) {x : NRel} :
    place0 (again ρ r) (again ρ x) = place0 r x := by
  have hsub : ∀ y ∈ subs r, ∀ z ∈ subs y, Good lib gn z := fun y hy z hz =>
    hg z (subs_of_subs hy hz)
  unfold place0
  congr 1
  · unfold upOf
    rw [skeleton_again, again_names]
    apply List.map_congr_left
    intro n _
    unfold dataIn
    rw [nodeList_subs, nodeList_subs, subs_again]
    have h1 : ∀ l : List NRel, ∀ n, ((l.map NRel.toNode).find? fun x => x.names.rel = n).map (·.data) =
        (l.find? fun y => y.names.rel = n).map fun y => convData y.names y.own y.inCols := by
      intro l n
      rw [List.find?_map, Option.map_map]
      rfl
    rw [h1, h1]
    congr 1
    apply find_map_again
    intro y hy
    rw [again_names, again_own, inCols_again (hsub y hy), (hg y hy).convData_again]
  · unfold outerOf
    rw [skeleton_again, again_names]
    apply List.map_congr_left
    intro n _
    congr 1
    rw [subs_again]
    apply find_map_again
    intro y hy
    rw [inCols_again (hsub y hy)]

theorem filled_again (x : NRel) : (again ρ x).filled.body = renumberBody ρ x.filled.body := by
  unfold NRel.filled Own.fill
  rw [again_own, again_names]
  simp only [Own.again, fillBody_def, relabelBody_renumber]

theorem relOf_again {r : NRel} (hg : ∀ x ∈ subs r, Good lib gn x) {x : NRel} (hx : x ∈ subs r)
    {e e' : Env} (hρ : ∀ a, e'.ρ (ρ a) = ρ a) (he : e.ρ = ρ) (h1 : e'.lib = e.lib)
    (h2 : e'.readName = e.readName) (h3 : e'.anchor = e.anchor) (h4 : e'.relation = e.relation)
    (h5 : e'.source = e.source) (h6 : e'.schema = e.schema) (pl : Place) :
    relOf e' pl (again ρ x) = relOf e pl x := by
  have hsub : ∀ z ∈ subs x, Good lib gn z := fun z hz => hg z (subs_of_subs hx hz)
  have g := hg x hx
  unfold relOf
  rw [again_names, inCols_again hsub]
  congr 1
  · have hc : convData x.names (again ρ x).filled x.inCols = convData x.names x.filled x.inCols := by
      unfold NRel.filled
      rw [convData_fill, convData_fill, again_own, g.convData_again]
    unfold ctx
    rw [hc, h1, h2, h3, h4, h5, h6]
  · unfold newRel
    rw [filled_again]
    congr 1
    · rw [withNames_renumber, renumberBody_again hρ, he]
    · rw [readEmit_renumber]
      have hf : readEmit x.names x.inCols x.filled.body = readEmit x.names x.inCols x.own.body :=
        funext fun i => readEmit_fill _ _ _ _ _
      rw [hf, show (again ρ x).filled.emit = (again ρ x).own.emit from rfl, again_own]
      exact g.emit_twice

theorem planOf_again {s : Setting} {r : NRel} (hg : ∀ x ∈ subs r, Good lib gn x)
    {t : Ext.Table} (hρ : ∀ a, newNumber t bs (newNumber s.functions bs a) =
      newNumber s.functions bs a) :
    planOf ⟨s.lib, t⟩ bs names (again (newNumber s.functions bs) r) = planOf s bs names r := by
  unfold planOf
  rw [skeleton_again, schemas_again, sources_again, subs_again, List.map_map]
  congr 1
  apply List.map_congr_left
  intro x hx
  simp only [Function.comp]
  rw [place_again hg]
  refine relOf_again (e := env0 s bs r)
    (e' := env0 ⟨s.lib, t⟩ bs (again (newNumber s.functions bs) r)) hg hx hρ rfl rfl rfl rfl ?_ ?_ ?_ _
  · show (fun n => if n ∈ relNames (again _ r) then some true else none) = _
    rw [relNames_again]
    rfl
  · show sourceIn (sources (again _ r)) = _
    rw [sources_again]
    rfl
  · show schemaIn (schemas (again _ r)) = _
    rw [schemas_again]
    rfl

/-! ## When the symbols stay -/

theorem issued_once : ∀ (l q : List Str), l.Nodup → (∀ b ∈ l, b ∉ q) → Sym.issued q l = l
  | [], _, _, _ => rfl
  | b :: l, q, h, hq => by
    rw [List.nodup_cons] at h
    rw [Sym.issued, List.count_eq_zero.mpr (hq b (by simp)), issued_once l _ h.2]
    · rfl
    · intro c hc hm
      rcases List.mem_append.mp hm with hm | hm
      · exact hq c (by simp [hc]) hm
      · rw [List.mem_singleton] at hm
        exact h.1 (hm ▸ hc)

theorem symbols_short {p : Input} (h : NoOverloads p) :
    ∀ f ∈ p.table.funs, f.symbol = Ext.shortName f.name := by
  have h1 := funs_symbols p
  rw [issued_once (shorts p) _ h (by simp)] at h1
  have h2 : shorts p = p.table.funs.map fun f => Ext.shortName f.name := by
    have := congrArg (List.map Ext.shortName) (funs_names p)
    rw [List.map_map, List.map_map] at this
    exact this.symm
  rw [h2] at h1
  exact List.map_inj_left.mp h1

theorem kept_noOverloads (h : NoOverloads p) (hfit : FunsFit p.table bs) : Kept bs := by
  have h1 : NoOverloads (onward bs [] p.rel) := (onward_shorts hfit).nodup_iff.mpr h
  intro f hf
  obtain ⟨g, hg, e1, e2, -, -⟩ := onward_function (names := []) (rel := p.rel) hf
  rw [e1, read_functionName hg, symbols_short h1 f hf, e2]
  congr 1
  have : (g.space.bind (Ext.uriOf (readTable bs).spaces), g.symbol, g.name) ∈
      Ext.described p.table :=
    (described_perm hfit).mem_iff.mp (List.mem_map.mpr ⟨g, hg, rfl⟩)
  obtain ⟨f', hf', e⟩ := List.mem_map.mp this
  simp only [Prod.mk.injEq] at e
  rw [← e.2.1, ← e.2.2]
  exact symbols_short h f' hf'

end Verif.Whole
