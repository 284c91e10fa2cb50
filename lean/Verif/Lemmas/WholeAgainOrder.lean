import Verif.Lemmas.WholeAgainText

/-! # The order of the functions of what is read -/

namespace Verif.Ext

open Verif

/-- The order of the functions in a binary plan. -/
def binaryOrder (t : Table) : List FunSym :=
  ((usedNumbers t.funs).flatMap fun a => t.funs.filter fun f => f.space = some a) ++
    t.funs.filter fun f => f.space = none

theorem binaryFunctions_order (t : Table) :
    binaryFunctions t = (binaryOrder t).map (declare t.spaces) := by
  unfold binaryFunctions binaryOrder
  rw [List.map_append, List.map_flatMap, List.flatMap_def]
  congr 1
  · congr 1
    apply List.map_congr_left
    intro a _
    apply List.map_congr_left
    intro f hf
    simp only [List.mem_filter, decide_eq_true_eq] at hf
    simp [declare, hf.2, nameOf_eq]
  · apply List.map_congr_left
    intro f hf
    simp only [List.mem_filter, decide_eq_true_eq] at hf
    simp [declare, hf.2]

/-- URIs in their order, and no URI after them. -/
def lateLess : Option Str → Option Str → Bool
  | some x, some y => strLess x y
  | some _, none => true
  | none, _ => false

theorem lateLess_irrefl (x : Option Str) : lateLess x x = false := by
  cases x <;> simp [lateLess, strLess_irrefl]

theorem lateLess_asymm {x y : Option Str} (h : lateLess x y = true) : lateLess y x = false := by
  cases x <;> cases y <;> simp_all [lateLess]
  rename_i a b
  cases e : strLess b a with
  | false => rfl
  | true =>
    have := strLess_trans _ _ _ h e
    rw [strLess_irrefl] at this
    exact absurd this (by simp)

/-- A function may be before another in a binary plan. -/
def Before (x y : Option Str × Str × Str) : Prop :=
  lateLess x.1 y.1 = true ∨ (x.1 = y.1 ∧ pairLess y.2 x.2 = false)

theorem Before.late {x y : Option Str × Str × Str} (h : Before x y) : lateLess y.1 x.1 = false := by
  rcases h with h | ⟨h, -⟩
  · exact lateLess_asymm h
  · rw [h, lateLess_irrefl]

theorem read_space_known (ts : List SpaceTree) : ∀ f ∈ (readSpaces ts).table.funs, ∀ a,
    f.space = some a → 1 ≤ a ∧ a ≤ (uris ts).length := by
  induction ts using snoc_induction with
  | h0 => intro f hf; simp [readSpaces] at hf
  | h1 ts t ih =>
    intro f hf a ha
    rw [readSpaces_snoc, visitSpace_eq] at hf
    rw [uris_snoc, List.length_append]
    simp only [List.mem_append, List.mem_mapIdx] at hf
    rcases hf with hf | ⟨i, hi, rfl⟩
    · have := ih f hf a ha
      omega
    · simp only [symbolOf, spaceIn] at ha
      cases hu : t.uri with
      | none => simp [hu] at ha
      | some u =>
        simp only [hu, Option.map_some, Option.some.injEq] at ha
        rw [(counts ts).1] at ha
        simp
        omega

theorem usedNumbers_sorted (funs : List FunSym) :
    (usedNumbers funs).Pairwise (· < ·) ∧ ∀ a ∈ usedNumbers funs, ∃ f ∈ funs, f.space = some a := by
  have held : Held id (fun a b => decide (a < b)) (spaceNumbers funs) (usedNumbers funs) := by
    unfold usedNumbers
    rw [usedNumbers_eq]
    exact held_fold order_nat _
  refine ⟨held.sorted.imp (by simp), fun a ha => ?_⟩
  exact (mem_spaceNumbers _ _).mp (held.from_ a ha)

theorem strLess_sorted {us : List Str} (h : us.Pairwise fun x y => strLess x y = true)
    {i j : Nat} {x y : Str} (hij : i < j) (hx : us[i]? = some x) (hy : us[j]? = some y) :
    strLess x y = true := by
  obtain ⟨hi, rfl⟩ := List.getElem?_eq_some_iff.mp hx
  obtain ⟨hj, rfl⟩ := List.getElem?_eq_some_iff.mp hy
  exact List.pairwise_iff_getElem.mp h i j hi hj hij

end Verif.Ext

namespace Verif.Whole

open Verif Verif.TyPb Verif.Literal Verif.Expr Verif.Schema

variable {p : Input} {bs : List Ext.Block} {names : List Str} {rel : BRel}

/-- The blocks are sorted. -/
structure BlocksSorted (bs : List Ext.Block) : Prop where
  uris : bs.Pairwise fun a b => Ext.optLess a.uri b.uri = true
  functions : ∀ b ∈ bs, b.functions.Pairwise fun x y => Ext.pairLess y x = false

theorem blocks_sorted {sort : Ext.Sorter} (hs : Ext.Sorts sort) {t : Ext.Table}
    (hp : Ext.AllPlaced t) (hb : Ext.blocks sort t = .ok bs) : BlocksSorted bs where
  uris := blocks_uris hp hb
  functions := by
    rw [Ext.blocks_placed sort t hp] at hb
    simp only [Outcome.ok.injEq] at hb
    subst hb
    intro b hb
    obtain ⟨a, -, rfl⟩ := List.mem_map.mp hb
    exact hs.sorted _

theorem read_pairs (h : BlocksSorted bs) :
    (Ext.described (readTable bs)).Pairwise
      fun x y => x.1 = y.1 → Ext.pairLess y.2 x.2 = false := by
  rw [readTable, Ext.read_blocks, Ext.written, List.pairwise_flatMap]
  constructor
  · intro b hb
    rw [List.pairwise_map]
    refine (h.functions b hb).imp ?_
    intro x y hxy _
    exact hxy
  · refine h.uris.imp ?_
    intro a b hab x hx y hy e
    obtain ⟨f, -, rfl⟩ := List.mem_map.mp hx
    obtain ⟨g, -, rfl⟩ := List.mem_map.mp hy
    simp only at e
    rw [e, (Ext.order_spaces []).irrefl] at hab
    exact absurd hab (by simp)

theorem read_uri_some {f : Ext.FunSym} (hf : f ∈ (readTable bs).funs) {a : Nat}
    (ha : f.space = some a) :
    ∃ u, Ext.uriOf (readTable bs).spaces a = some u ∧ (bs.filterMap (·.uri))[a - 1]? = some u ∧
      1 ≤ a := by
  obtain ⟨h1, h2⟩ := Ext.read_space_known (bs.map Ext.treeOf) f hf a ha
  have hl : (Ext.uris (bs.map Ext.treeOf)).length = (bs.filterMap (·.uri)).length := by
    rw [Ext.uris, List.filterMap_map]
    rfl
  rw [hl] at h2
  have h3 : (bs.filterMap (·.uri))[a - 1]? = some (bs.filterMap (·.uri))[a - 1] :=
    List.getElem?_eq_getElem (by omega)
  refine ⟨_, ?_, h3, h1⟩
  have := Ext.getElem?_uriOf _ 0 (a - 1) _ h3
  rw [read_spaces]
  have e : 0 + (a - 1) + 1 = a := by omega
  rw [e] at this
  simpa using this

theorem uris_sorted (h : BlocksSorted bs) :
    (bs.filterMap (·.uri)).Pairwise fun x y => Ext.strLess x y = true := by
  rw [List.pairwise_filterMap]
  refine h.uris.imp ?_
  intro a b hab x hx y hy
  rw [hx, hy] at hab
  exact hab

/-- The functions of what is read are in the order of their URIs, and in those of their names. -/
theorem binaryOrder_before (h : BlocksSorted bs) :
    ((Ext.binaryOrder (readTable bs)).map (Ext.describe (readTable bs).spaces)).Pairwise
      Ext.Before := by
  have hp : (readTable bs).funs.Pairwise fun f g =>
      (Ext.describe (readTable bs).spaces f).1 = (Ext.describe (readTable bs).spaces g).1 →
        Ext.pairLess (Ext.describe (readTable bs).spaces g).2
          (Ext.describe (readTable bs).spaces f).2 = false := by
    have := read_pairs h
    rw [Ext.described, List.pairwise_map] at this
    exact this
  obtain ⟨u1, u2⟩ := Ext.usedNumbers_sorted (readTable bs).funs
  rw [List.pairwise_map, Ext.binaryOrder, List.pairwise_append, List.pairwise_flatMap]
  have key : ∀ (s : Option Nat), ((readTable bs).funs.filter fun f => decide (f.space = s)).Pairwise
      fun f g => Ext.Before (Ext.describe (readTable bs).spaces f)
        (Ext.describe (readTable bs).spaces g) := by
    intro s
    have h1 := hp.filter (p := fun f => decide (f.space = s))
    refine List.Pairwise.imp_of_mem ?_ h1
    intro f g hf hg hfg
    simp only [List.mem_filter, decide_eq_true_eq] at hf hg
    right
    have e : (Ext.describe (readTable bs).spaces f).1 = (Ext.describe (readTable bs).spaces g).1 := by
      simp only [Ext.describe, hf.2, hg.2]
    exact ⟨e, hfg e⟩
  refine ⟨⟨fun a _ => key (some a), ?_⟩, key none, ?_⟩
  · refine u1.imp_of_mem ?_
    intro a b _ _ hab f hf g hg
    simp only [List.mem_filter, decide_eq_true_eq] at hf hg
    obtain ⟨u, hu1, hu2, hu3⟩ := read_uri_some hf.1 hf.2
    obtain ⟨v, hv1, hv2, hv3⟩ := read_uri_some hg.1 hg.2
    left
    simp only [Ext.describe, hf.2, hg.2, Option.bind_some, hu1, hv1, Ext.lateLess]
    exact Ext.strLess_sorted (uris_sorted h) (by omega) hu2 hv2
  · intro f hf g hg
    obtain ⟨a, -, hf⟩ := List.mem_flatMap.mp hf
    simp only [List.mem_filter, decide_eq_true_eq] at hf hg
    obtain ⟨u, hu1, -, -⟩ := read_uri_some hf.1 hf.2
    left
    simp only [Ext.describe, hf.2, hg.2, Option.bind_some, hu1, Option.bind_none, Ext.lateLess]

/-! ## Names that are handed out, by their numbers -/

/-- The requests with the numbers of the same requests before them. -/
def numbered : List Str → List Str → List (Str × Nat)
  | _, [] => []
  | q, b :: l => (b, q.count b) :: numbered (q ++ [b]) l

theorem issued_numbered : ∀ (l q : List Str),
    Sym.issued q l = (numbered q l).map fun x => Sym.uniqueText x.1 x.2
  | [], _ => rfl
  | b :: l, q => by rw [Sym.issued, numbered, List.map_cons, issued_numbered l]

theorem numbered_fst : ∀ (l q : List Str), (numbered q l).map (·.1) = l
  | [], _ => rfl
  | b :: l, q => by rw [numbered, List.map_cons, numbered_fst l]

theorem mem_numbered : ∀ (l q : List Str) (b : Str) (i : Nat),
    (b, i) ∈ numbered q l ↔ q.count b ≤ i ∧ i < q.count b + l.count b
  | [], q, b, i => by simp [numbered]
  | c :: l, q, b, i => by
    rw [numbered, List.mem_cons, mem_numbered l, List.count_append, List.count_cons]
    by_cases e : b = c
    · subst e
      simp
      omega
    · have : ¬ c = b := fun h => e h.symm
      simp [e, this]

theorem numbered_pairwise : ∀ (l q : List Str),
    (numbered q l).Pairwise fun x y => x.1 = y.1 → x.2 < y.2
  | [], _ => by simp [numbered]
  | b :: l, q => by
    rw [numbered, List.pairwise_cons]
    refine ⟨?_, numbered_pairwise l _⟩
    rintro ⟨c, i⟩ hm e
    simp only at e
    subst e
    have := ((mem_numbered l _ _ _).mp hm).1
    rw [List.count_append] at this
    simp at this ⊢
    omega

/-- Numbers that grow, and of which none is left out, are those that are handed out. -/
theorem numbered_unique : ∀ (l : List (Str × Nat)) (q : List Str),
    (l.Pairwise fun x y => x.1 = y.1 → x.2 < y.2) → (∀ x ∈ l, q.count x.1 ≤ x.2) →
    (∀ x ∈ l, ∀ j, q.count x.1 ≤ j → j < x.2 → (x.1, j) ∈ l) → l = numbered q (l.map (·.1))
  | [], _, _, _, _ => rfl
  | (b, i) :: l, q, hp, hl, hc => by
    rw [List.pairwise_cons] at hp
    have h1 : i = q.count b := by
      have h2 := hl (b, i) (by simp)
      simp only at h2
      by_cases e : q.count b = i
      · exact e.symm
      · have h3 := hc (b, i) (by simp) (q.count b) (Nat.le_refl _) (by simp only; omega)
        rcases List.mem_cons.mp h3 with h3 | h3
        · simp only [Prod.mk.injEq] at h3
          exact h3.2.symm
        · have := hp.1 _ h3 rfl
          simp only at this
          omega
    subst h1
    have := numbered_unique l (q ++ [b]) hp.2 ?_ ?_
    · rw [List.map_cons, numbered, ← this]
    · intro x hx
      rw [List.count_append]
      have h2 := hl x (by simp [hx])
      by_cases e : x.1 = b
      · have := hp.1 x hx e.symm
        simp only at this
        rw [e, List.count_singleton_self]
        omega
      · rw [List.count_eq_zero.mpr (show x.1 ∉ [b] by simpa using e)]
        omega
    · intro x hx j h2 h3
      rw [List.count_append] at h2
      have h4 := hc x (by simp [hx]) j (by omega) h3
      rcases List.mem_cons.mp h4 with h4 | h4
      · simp only [Prod.mk.injEq] at h4
        obtain ⟨e1, e2⟩ := h4
        rw [e1, List.count_singleton_self] at h2
        omega
      · exact h4

theorem perm_map_inv {α β : Type} {g : α → β} {l : List β} {m : List α} (h : l.Perm (m.map g)) :
    ∃ m' : List α, m'.Perm m ∧ l = m'.map g := by
  generalize e : m.map g = k at h
  induction h generalizing m with
  | nil => exact ⟨m, .refl _, e.symm⟩
  | cons x _ ih =>
    cases m with
    | nil => simp at e
    | cons a m =>
      rw [List.map_cons, List.cons.injEq] at e
      obtain ⟨m', h1, h2⟩ := ih e.2
      exact ⟨a :: m', .cons _ h1, by rw [List.map_cons, e.1, h2]⟩
  | swap x y l =>
    match m, e with
    | a :: b :: m, e =>
      simp only [List.map_cons, List.cons.injEq] at e
      refine ⟨b :: a :: m, .swap _ _ _, ?_⟩
      rw [List.map_cons, List.map_cons, e.1, e.2.1, e.2.2]
  | trans _ _ ih1 ih2 =>
    obtain ⟨m', h1, h2⟩ := ih2 e
    obtain ⟨m'', h3, h4⟩ := ih1 h2.symm
    exact ⟨m'', h3.trans h1, h4⟩

theorem pairwise_mem {α : Type} {R : α → α → Prop} {l : List α} (h : l.Pairwise R) {a b : α}
    (ha : a ∈ l) (hb : b ∈ l) : a = b ∨ R a b ∨ R b a := by
  induction h with
  | nil => simp at ha
  | cons h1 _ ih =>
    rcases List.mem_cons.mp ha with rfl | ha'
    · rcases List.mem_cons.mp hb with rfl | hb'
      · exact .inl rfl
      · exact .inr (.inl (h1 b hb'))
    · rcases List.mem_cons.mp hb with rfl | hb'
      · exact .inr (.inr (h1 a ha'))
      · exact ih ha' hb'

/-! ## The symbols stay from the second time on -/

theorem strLess_append (b x y : Str) : Ext.strLess (b ++ x) (b ++ y) = Ext.strLess x y := by
  induction b with
  | nil => rfl
  | cons c b ih => simp [Ext.strLess, ih]

theorem uniqueText_less {b : Str} {i j : Nat} (h : j < i) (hi : i < 9) :
    Ext.strLess (Sym.uniqueText b j) (Sym.uniqueText b i) = true := by
  unfold Sym.uniqueText
  rw [if_neg (show ¬ i = 0 by omega)]
  by_cases hj : j = 0
  · rw [if_pos hj]
    have h0 : ∀ n < 9, Ext.strLess [] (natText (n + 1)) = true := by decide
    have := strLess_append b [] (natText (i + 1))
    rw [List.append_nil] at this
    rw [this, h0 i hi]
  · rw [if_neg hj, strLess_append]
    have h0 : ∀ n < 9, ∀ m < n, Ext.strLess (natText (m + 1)) (natText (n + 1)) = true := by decide
    exact h0 i hi j h

theorem zip_exists {α β γ : Type} {a : α → γ} {b : β → γ} : ∀ (l : List α) (m : List β),
    l.map a = m.map b →
    ∃ z : List (α × β), z.map (·.1) = l ∧ z.map (·.2) = m ∧ ∀ x ∈ z, a x.1 = b x.2
  | [], [], _ => ⟨[], rfl, rfl, by simp⟩
  | [], _ :: _, h => by simp at h
  | _ :: _, [], h => by simp at h
  | x :: l, y :: m, h => by
    simp only [List.map_cons, List.cons.injEq] at h
    obtain ⟨z, h1, h2, h3⟩ := zip_exists l m h.2
    refine ⟨(x, y) :: z, by simp [h1], by simp [h2], ?_⟩
    intro w hw
    rcases List.mem_cons.mp hw with rfl | hw
    · exact h.1
    · exact h3 w hw

theorem map_pair {α β γ δ : Type} {f : α → γ} {f' : β → γ} {g : α → δ} {g' : β → δ} :
    ∀ (l : List α) (m : List β), l.map f = m.map f' → l.map g = m.map g' →
      l.map (fun x => (f x, g x)) = m.map fun x => (f' x, g' x)
  | [], [], _, _ => rfl
  | [], _ :: _, h, _ => by simp at h
  | _ :: _, [], h, _ => by simp at h
  | x :: l, y :: m, h, h' => by
    simp only [List.map_cons, List.cons.injEq] at h h' ⊢
    exact ⟨by rw [h.1, h'.1], map_pair l m h.2 h'.2⟩

theorem mem_binaryOrder {t : Ext.Table} {f : Ext.FunSym} (h : f ∈ Ext.binaryOrder t) : f ∈ t.funs := by
  unfold Ext.binaryOrder at h
  rcases List.mem_append.mp h with h | h
  · obtain ⟨a, -, h⟩ := List.mem_flatMap.mp h
    exact (List.mem_filter.mp h).1
  · exact (List.mem_filter.mp h).1

theorem onward_list : (onward bs names rel).table.funs.map (fun f => (f.anchor, f.name,
      f.space.bind (Ext.uriOf (onward bs names rel).table.spaces))) =
    (Ext.binaryOrder (readTable bs)).map fun g => (g.anchor, g.name,
      g.space.bind (Ext.uriOf (readTable bs).spaces)) := by
  have h1 := Ext.readBinary_funs (onward bs names rel).uris (onward bs names rel).functions
  rw [show (onward bs names rel).functions = _ from Ext.binaryFunctions_order (readTable bs),
    List.map_map] at h1
  have h2 := congrArg (List.map fun x : Nat × Str × Option Nat =>
    (x.1, x.2.1, x.2.2.bind (Ext.uriOf (onward bs names rel).table.spaces))) h1
  rw [List.map_map, List.map_map] at h2
  rw [← show (onward bs names rel).functions = _ from Ext.binaryFunctions_order (readTable bs)] at h2
  refine Eq.trans h2 ?_
  apply List.map_congr_left
  intro g _
  simp only [Function.comp, Option.bind_some]
  rw [Input.table, Ext.uriOf_readBinary]
  have h3 := Ext.binary_resolves_text (bs.map Ext.treeOf) g
  rw [show (Ext.readSpaces (bs.map Ext.treeOf)).table = readTable bs from rfl] at h3
  rw [show (onward bs names rel).uris = Ext.binaryUris (readTable bs) from rfl, h3]
  rfl

theorem binaryOrder_described (bs : List Ext.Block) :
    ((Ext.binaryOrder (readTable bs)).map (Ext.describe (readTable bs).spaces)).Perm
      (Ext.described (readTable bs)) := by
  have key : ∀ g ∈ (readTable bs).funs, Ext.describe (readTable bs).spaces g =
      (fun d : Ext.PbFunction => (Ext.resolve (Ext.binaryUris (readTable bs)) d.uriRef,
        (functionName (readTable bs) d.anchor).getD [], d.name))
        (Ext.declare (readTable bs).spaces g) := by
    intro g hg
    simp only
    have h3 := Ext.binary_resolves_text (bs.map Ext.treeOf) g
    rw [show (Ext.readSpaces (bs.map Ext.treeOf)).table = readTable bs from rfl] at h3
    rw [h3, show (Ext.declare (readTable bs).spaces g).anchor = g.anchor from rfl,
      read_functionName hg]
    rfl
  have h1 := (Ext.binary_complete (readTable bs)).map fun d : Ext.PbFunction =>
    (Ext.resolve (Ext.binaryUris (readTable bs)) d.uriRef,
      (functionName (readTable bs) d.anchor).getD [], d.name)
  rw [Ext.binaryFunctions_order, List.map_map, List.map_map] at h1
  have e1 : (Ext.binaryOrder (readTable bs)).map (Ext.describe (readTable bs).spaces) = _ :=
    List.map_congr_left fun g hg => key g (mem_binaryOrder hg)
  have e2 : Ext.described (readTable bs) = _ := List.map_congr_left fun g hg => key g hg
  rw [e1, e2]
  exact h1

/-- If at most nine functions have the same name in front of their types, they keep their symbols
from the second time on. -/
theorem kept_few {bs2 : List Ext.Block} (hs : BlocksSorted bs) (hs2 : BlocksSorted bs2)
    (hc : FewOverloads (onward bs names rel)) (hfit : FunsFit (onward bs names rel).table bs2) :
    Kept bs2 := by
  -- the functions with the numbers of their symbols
  have hz := zip_exists (onward bs names rel).table.funs (numbered [] (shorts (onward bs names rel)))
    (map_pair (f := fun f : Ext.FunSym => Ext.shortName f.name) (f' := fun x : Str × Nat => x.1)
      (g := fun f : Ext.FunSym => f.symbol) (g' := fun x : Str × Nat => Sym.uniqueText x.1 x.2) _ _
      (by
        rw [numbered_fst]
        have := congrArg (List.map Ext.shortName) (funs_names (onward bs names rel))
        rw [List.map_map, List.map_map] at this
        exact this)
      (by rw [← issued_numbered]; exact funs_symbols _))
  obtain ⟨z, z1, z2, z3⟩ := hz
  -- in the order of the plan, the numbers grow
  have hA : z.Pairwise fun x y => x.2.1 = y.2.1 → x.2.2 < y.2.2 := by
    have := numbered_pairwise (shorts (onward bs names rel)) []
    rw [← z2, List.pairwise_map] at this
    exact this
  have hB : z.Pairwise fun x y => Ext.lateLess
      (y.1.space.bind (Ext.uriOf (onward bs names rel).table.spaces))
      (x.1.space.bind (Ext.uriOf (onward bs names rel).table.spaces)) = false := by
    have h1 := (binaryOrder_before hs).imp fun h => Ext.Before.late h
    rw [List.pairwise_map] at h1
    have h2 := congrArg (List.map fun x : Nat × Str × Option Str => x.2.2)
      (onward_list (bs := bs) (names := names) (rel := rel))
    rw [List.map_map, List.map_map, ← z1, List.map_map] at h2
    have h3 : ((Ext.binaryOrder (readTable bs)).map
        ((fun x : Nat × Str × Option Str => x.2.2) ∘ fun g : Ext.FunSym => (g.anchor, g.name,
          g.space.bind (Ext.uriOf (readTable bs).spaces)))).Pairwise
        fun x y => Ext.lateLess y x = false := by
      rw [List.pairwise_map]
      exact h1
    rw [← h2, List.pairwise_map] at h3
    exact h3
  have hAB := List.Pairwise.and hA hB
  -- the functions in the order of the next plan
  have hd : ((Ext.binaryOrder (readTable bs2)).map (Ext.describe (readTable bs2).spaces)).Perm
      (z.map fun x => Ext.describe (onward bs names rel).table.spaces x.1) := by
    refine (binaryOrder_described bs2).trans ((described_perm hfit).trans (.of_eq ?_))
    rw [Ext.described, ← z1, List.map_map]
    rfl
  obtain ⟨w, w1, w2⟩ := perm_map_inv hd
  have hw := binaryOrder_before hs2
  rw [w2, List.pairwise_map] at hw
  have hnd : w.Pairwise fun x y => x.2 ≠ y.2 := by
    have h1 : (numbered [] (shorts (onward bs names rel))).Nodup := by
      refine (numbered_pairwise _ []).imp ?_
      intro a b hab e
      subst e
      have := hab rfl
      omega
    rw [← z2] at h1
    have := (w1.map (·.2)).nodup_iff.mpr h1
    rwa [List.nodup_iff_pairwise_ne, List.pairwise_map] at this
  have hnum : ∀ x ∈ w, x.2 ∈ numbered [] (shorts (onward bs names rel)) := by
    intro x hx
    rw [← z2]
    exact List.mem_map.mpr ⟨x, w1.mem_iff.mp hx, rfl⟩
  have hsmall : ∀ x ∈ w, x.2.2 < 9 := by
    intro x hx
    have h1 := ((mem_numbered _ _ x.2.1 x.2.2).mp (hnum x hx)).2
    have h2 := hc x.2.1
    have h3 : (shorts (onward bs names rel)).count x.2.1 ≤ 9 := h2
    simp at h1
    omega
  have hpair : w.Pairwise fun x y => x.2.1 = y.2.1 → x.2.2 < y.2.2 := by
    refine (hw.and hnd).imp_of_mem ?_
    rintro x y hx hy ⟨h1, h2⟩ e
    rcases Nat.lt_trichotomy x.2.2 y.2.2 with h3 | h3 | h3
    · exact h3
    · exact absurd (Prod.ext e h3) h2
    · exfalso
      have hyx : Ext.lateLess (x.1.space.bind (Ext.uriOf (onward bs names rel).table.spaces))
          (y.1.space.bind (Ext.uriOf (onward bs names rel).table.spaces)) = false := by
        rcases pairwise_mem hAB (w1.mem_iff.mp hx) (w1.mem_iff.mp hy) with h4 | h4 | h4
        · rw [h4] at h3; omega
        · have := h4.1 e; omega
        · exact h4.2
      rcases h1 with h1 | ⟨-, h1⟩
      · simp only [Ext.describe] at h1
        rw [hyx] at h1
        exact absurd h1 (by simp)
      · have hl := uniqueText_less (b := x.2.1) h3 (hsmall x hx)
        have ex := z3 x (w1.mem_iff.mp hx)
        have ey := z3 y (w1.mem_iff.mp hy)
        simp only [Prod.mk.injEq] at ex ey
        simp only [Ext.describe, Ext.pairLess] at h1
        rw [ex.2, ey.2, ← e, hl] at h1
        simp at h1
  have hfin := numbered_unique (w.map (·.2)) [] (by rw [List.pairwise_map]; exact hpair)
    (by intro x _; simp) (by
      intro x hx j _ hj
      obtain ⟨y, hy, rfl⟩ := List.mem_map.mp hx
      have h1 := (mem_numbered _ _ y.2.1 y.2.2).mp (hnum y hy)
      have h2 : (y.2.1, j) ∈ numbered [] (shorts (onward bs names rel)) := by
        rw [mem_numbered]
        have hj' : j < y.2.2 := hj
        exact ⟨by simp, by omega⟩
      rw [← z2] at h2
      obtain ⟨v, hv, e⟩ := List.mem_map.mp h2
      exact List.mem_map.mpr ⟨v, w1.mem_iff.mpr hv, e⟩)
  -- the symbols in the next plan
  have hsh : shorts (onward bs2 names rel) = (w.map (·.2)).map (·.1) := by
    have h1 : shorts (onward bs2 names rel) = ((Ext.binaryOrder (readTable bs2)).map
        (Ext.describe (readTable bs2).spaces)).map fun x => Ext.shortName x.2.2 := by
      unfold shorts
      rw [show (onward bs2 names rel).functions = _ from Ext.binaryFunctions_order (readTable bs2),
        List.map_map, List.map_map]
      rfl
    rw [h1, w2, List.map_map, List.map_map]
    apply List.map_congr_left
    intro x hx
    have ex := z3 x (w1.mem_iff.mp hx)
    simp only [Prod.mk.injEq] at ex
    exact ex.1
  have hsym : (onward bs2 names rel).table.funs.map (·.symbol) =
      (Ext.binaryOrder (readTable bs2)).map (·.symbol) := by
    rw [funs_symbols, hsh, issued_numbered, ← hfin, List.map_map]
    have h1 := congrArg (List.map fun x : Option Str × Str × Str => x.2.1) w2
    rw [List.map_map, List.map_map] at h1
    refine Eq.trans ?_ h1.symm
    apply List.map_congr_left
    intro x hx
    have ex := z3 x (w1.mem_iff.mp hx)
    simp only [Prod.mk.injEq] at ex
    exact ex.2.symm
  have hanc : (onward bs2 names rel).table.funs.map (·.anchor) =
      (Ext.binaryOrder (readTable bs2)).map (·.anchor) := by
    have := congrArg (List.map fun x : Nat × Str × Option Str => x.1)
      (onward_list (bs := bs2) (names := names) (rel := rel))
    rw [List.map_map, List.map_map] at this
    exact this
  intro f hf
  have hm : (f.anchor, f.symbol) ∈ (onward bs2 names rel).table.funs.map
      fun f => (f.anchor, f.symbol) := List.mem_map.mpr ⟨f, hf, rfl⟩
  rw [map_pair _ _ hanc hsym] at hm
  obtain ⟨g, hg, e⟩ := List.mem_map.mp hm
  simp only [Prod.mk.injEq] at e
  rw [← e.1, read_functionName (mem_binaryOrder hg), e.2]

end Verif.Whole
