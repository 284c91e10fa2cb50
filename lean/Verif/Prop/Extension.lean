import Verif.Lemmas.Extension

/-!
# C47, C42: extension spaces and functions
-/

namespace Verif.Ext

open Verif Lex Parse

/-! ## C47: numbers -/

theorem called_getD (f : FunctionTree) : Called f (f.alias.getD (shortName f.name)) := by
  cases ha : f.alias with
  | some s => exact .inl (by rw [ha]; rfl)
  | none =>
    right
    refine ⟨ha, ?_⟩
    simp only [Option.getD_none, shortName]
    cases hf : findFirst ':' f.name with
    | none => exact ⟨findFirst_eq_none.mp hf, .inl rfl⟩
    | some i =>
      obtain ⟨a, b, h1, h2, h3⟩ := findFirst_some hf
      have : f.name.take i = a := by rw [h1, ← h3]; simp
      simp only [this]
      exact ⟨h2, .inr ⟨b, h1⟩⟩

theorem lacksType_iff (n : Str) : lacksType n = true ↔ ¬ HasType n := by
  unfold lacksType
  cases hf : findFirst ':' n with
  | none =>
    simp only [true_iff]
    rintro ⟨a, r, rfl, -, -⟩
    exact findFirst_eq_none.mp hf (by simp)
  | some i =>
    obtain ⟨a, b, rfl, h2, rfl⟩ := findFirst_some hf
    simp only [List.isEmpty_iff]
    have : (a ++ ':' :: b).drop (a.length + 1) = b := by
      rw [List.drop_append]; simp
    rw [this]
    constructor
    · rintro rfl ⟨a', r, h, ha', hr⟩
      have h4 := findFirst_append (b := r) ha'
      rw [← h, hf] at h4
      simp only [Option.some.injEq] at h4
      have := (List.append_inj h h4).2
      simp at this
      exact hr this
    · intro h
      by_cases hb : b = []
      · exact hb
      · exact absurd ⟨a, b, rfl, h2, hb⟩ h

/-- What one function becomes. -/
def symbolOf (space : Option Nat) (start i : Nat) (f : FunctionTree) : FunSym :=
  ⟨f.alias.getD (shortName f.name), f.name, space, start + i⟩

theorem visitFunctions (space : Option Nat) : ∀ (fs : List FunctionTree) (s : State),
    fs.foldl (visitFunction space) s =
      { numSpaces := s.numSpaces
        numFuns := s.numFuns + fs.length
        table := { s.table with
          funs := s.table.funs ++ fs.mapIdx (symbolOf space s.numFuns) }
        untyped := s.untyped ++ (fs.filter fun f => lacksType f.name).map (·.name) }
  | [], s => by simp
  | f :: fs, s => by
    rw [List.foldl_cons, visitFunctions space fs]
    simp only [visitFunction, List.length_cons, List.mapIdx_cons, List.filter_cons, State.mk.injEq,
      Table.mk.injEq, true_and, List.append_assoc, List.append_cancel_left_eq]
    refine ⟨by omega, ?_, ?_⟩
    · simp only [List.cons_append, List.nil_append, List.cons.injEq]
      refine ⟨rfl, ?_⟩
      congr 1
      funext i g
      simp [symbolOf]; omega
    · split <;> rfl

/-- The space of the functions in `t`, after the texts `pre`. -/
def spaceIn (n : Nat) (t : SpaceTree) : Option Nat := t.uri.map fun _ => n + 1

theorem visitSpace_eq (s : State) (t : SpaceTree) :
    visitSpace s t =
      { numSpaces := s.numSpaces + t.uri.toList.length
        numFuns := s.numFuns + t.functions.length
        table :=
          { spaces := s.table.spaces ++ t.uri.toList.map fun u => ⟨u, s.numSpaces + 1⟩
            funs := s.table.funs ++
              t.functions.mapIdx (symbolOf (spaceIn s.numSpaces t) s.numFuns) }
        untyped := s.untyped ++ (t.functions.filter fun f => lacksType f.name).map (·.name) } := by
  unfold visitSpace
  cases hu : t.uri with
  | none => simp only [visitFunctions, spaceIn, hu]; simp
  | some u => simp only [visitFunctions, spaceIn, hu]; simp

theorem readSpaces_snoc (ts : List SpaceTree) (t : SpaceTree) :
    readSpaces (ts ++ [t]) = visitSpace (readSpaces ts) t := by
  simp [readSpaces]

theorem uris_snoc (ts : List SpaceTree) (t : SpaceTree) : uris (ts ++ [t]) = uris ts ++ t.uri.toList := by
  cases h : t.uri <;> simp [uris, h]

theorem allFunctions_snoc (ts : List SpaceTree) (t : SpaceTree) :
    allFunctions (ts ++ [t]) = allFunctions ts ++ t.functions := by
  simp [allFunctions]

theorem counts (ts : List SpaceTree) :
    (readSpaces ts).numSpaces = (uris ts).length ∧
    (readSpaces ts).numFuns = (allFunctions ts).length ∧
    (readSpaces ts).table.funs.length = (allFunctions ts).length := by
  induction ts using snoc_induction with
  | h0 => exact ⟨rfl, rfl, rfl⟩
  | h1 ts t ih =>
    rw [readSpaces_snoc, visitSpace_eq, uris_snoc, allFunctions_snoc]
    simp [ih]

/-- **C47, spaces.**  The spaces with a URI are numbered 1, 2, … in order of appearance. -/
theorem spaces_numbered (ts : List SpaceTree) :
    (readSpaces ts).table.spaces = (uris ts).mapIdx fun i u => ⟨u, i + 1⟩ := by
  induction ts using snoc_induction with
  | h0 => rfl
  | h1 ts t ih =>
    rw [readSpaces_snoc, visitSpace_eq, uris_snoc, List.mapIdx_append, ← ih, (counts ts).1]
    cases t.uri <;> simp

theorem funs_grow : ∀ (post : List SpaceTree) (s : State),
    ∃ more, (post.foldl visitSpace s).table.funs = s.table.funs ++ more
  | [], s => ⟨[], by simp⟩
  | t :: post, s => by
    obtain ⟨more, h⟩ := funs_grow post (visitSpace s t)
    rw [List.foldl_cons, h, visitSpace_eq]
    simp only [List.append_assoc]
    exact ⟨_, rfl⟩

/-- **C47, functions.**  Every function of a text gets the number of functions before it, over
all spaces, and records the space it was declared in: the number of URIs up to and including
its own, or none if its space has no URI. -/
theorem function_numbered (pre post : List SpaceTree) (t : SpaceTree)
    (before after : List FunctionTree) (f : FunctionTree)
    (h : t.functions = before ++ f :: after) :
    ∃ s, Called f s ∧
      (readSpaces (pre ++ t :: post)).table.funs[(allFunctions pre).length + before.length]? =
        some ⟨s, f.name, t.uri.map fun _ => (uris pre).length + 1,
          (allFunctions pre).length + before.length⟩ := by
  refine ⟨_, called_getD f, ?_⟩
  have h1 : readSpaces (pre ++ t :: post) = post.foldl visitSpace (visitSpace (readSpaces pre) t) := by
    simp [readSpaces]
  obtain ⟨more, hm⟩ := funs_grow post (visitSpace (readSpaces pre) t)
  obtain ⟨c1, c2, c3⟩ := counts pre
  rw [h1, hm, visitSpace_eq]
  simp only [List.append_assoc]
  rw [List.getElem?_append_right (by omega), c3, Nat.add_sub_cancel_left,
    List.getElem?_append_left (by simp [h]), List.getElem?_mapIdx, h]
  simp [symbolOf, spaceIn, c1, c2]

/-- **C47, nothing else.**  There are exactly as many function symbols as functions. -/
theorem functions_counted (ts : List SpaceTree) :
    (readSpaces ts).table.funs.length = (allFunctions ts).length := (counts ts).2.2

/-- The functions without a type are reported, and only they. -/
theorem untyped_reported (ts : List SpaceTree) (n : Str) :
    n ∈ (readSpaces ts).untyped ↔ ∃ f ∈ allFunctions ts, f.name = n ∧ ¬ HasType n := by
  have : (readSpaces ts).untyped =
      ((allFunctions ts).filter fun f => lacksType f.name).map (·.name) := by
    induction ts using snoc_induction with
    | h0 => rfl
    | h1 ts t ih => rw [readSpaces_snoc, visitSpace_eq, allFunctions_snoc]; simp [ih]
  rw [this]
  simp only [List.mem_map, List.mem_filter, lacksType_iff]
  constructor
  · rintro ⟨f, ⟨h1, h2⟩, rfl⟩; exact ⟨f, h1, rfl, h2⟩
  · rintro ⟨f, h1, rfl, h2⟩; exact ⟨f, ⟨h1, h2⟩, rfl⟩

/-- Non-vacuity of C47: two spaces with URIs and one without. -/
example : (readSpaces [⟨some "/a".toList, [⟨"f:i8".toList, none⟩, ⟨"g:".toList, some "h".toList⟩]⟩,
      ⟨none, [⟨"k:i8".toList, none⟩]⟩, ⟨some "/b".toList, [⟨"f:i8".toList, none⟩]⟩]).table =
    ⟨[⟨"/a".toList, 1⟩, ⟨"/b".toList, 2⟩],
     [⟨"f".toList, "f:i8".toList, some 1, 0⟩, ⟨"h".toList, "g:".toList, some 1, 1⟩,
      ⟨"k".toList, "k:i8".toList, none, 2⟩, ⟨"f".toList, "f:i8".toList, some 2, 3⟩]⟩ := by decide

/-! ## C42: writing functions -/

theorem nameOf_eq (spaces : List SpaceSym) (a : Nat) : nameOf spaces a = uriOf spaces a := by
  induction spaces with
  | nil => rfl
  | cons s rest ih =>
    unfold nameOf at *
    simp only [uriOf, List.find?_cons]
    by_cases h : s.anchor = a
    · simp [h]
    · simp [h, ih]

/-- The numbers of the spaces of the functions. -/
def spaceNumbers (funs : List FunSym) : List Nat := funs.filterMap (·.space)

theorem usedSpaces_throw (t : Table) : ∀ (funs : List FunSym),
    funs.foldl (useSpace t.spaces) (.throw .other) = .throw .other
  | [] => rfl
  | f :: funs => by rw [List.foldl_cons]; exact usedSpaces_throw t funs

theorem usedSpaces_fold (t : Table) : ∀ (funs : List FunSym) (set : List Nat),
    funs.foldl (useSpace t.spaces) (.ok set) =
    if ∀ f ∈ funs, f.space.isSome then
      .ok ((spaceNumbers funs).foldl (fun s x => setInsert (spaceLess t.spaces) x s) set)
    else .throw .other
  | [], set => by simp [spaceNumbers]
  | f :: funs, set => by
    rw [List.foldl_cons]
    cases hs : f.space with
    | none =>
      simp only [useSpace, Outcome.bind, hs]
      rw [usedSpaces_throw, if_neg]
      intro h
      have := h f (by simp)
      simp [hs] at this
    | some a =>
      simp only [useSpace, Outcome.bind, hs]
      rw [usedSpaces_fold t funs]
      have e : (∀ g ∈ f :: funs, g.space.isSome = true) ↔ ∀ g ∈ funs, g.space.isSome = true := by
        simp [hs]
      by_cases h : ∀ g ∈ funs, g.space.isSome = true
      · rw [if_pos h, if_pos (e.mpr h)]
        simp [spaceNumbers, hs]
      · rw [if_neg h, if_neg (fun h' => h (e.mp h'))]

/-- The spaces for which blocks are written. -/
def setOf (t : Table) : List Nat :=
  (spaceNumbers t.funs).foldl (fun s x => setInsert (spaceLess t.spaces) x s) []

theorem usedSpaces_placed (t : Table) (h : AllPlaced t) : usedSpaces t = .ok (setOf t) := by
  unfold usedSpaces
  rw [usedSpaces_fold, if_pos (show ∀ f ∈ t.funs, f.space.isSome from h)]
  rfl

theorem usedSpaces_unplaced (t : Table) (h : ¬ AllPlaced t) : usedSpaces t = .throw .other := by
  unfold usedSpaces
  rw [usedSpaces_fold, if_neg (show ¬ ∀ f ∈ t.funs, f.space.isSome from h)]

theorem blocks_placed (sort : Sorter) (t : Table) (h : AllPlaced t) :
    blocks sort t = .ok ((setOf t).map (blockOf sort t)) := by
  unfold blocks
  rw [usedSpaces_placed t h]
  rfl

/-- **C42, text: when nothing is written.**  The text of the functions section is written
exactly if every function belongs to a space; otherwise an exception leaves the printer. -/
theorem functions_written_iff (sort : Sorter) (t : Table) :
    (∃ text, printFunctions sort t = .ok text) ↔ AllPlaced t := by
  constructor
  · rintro ⟨text, h⟩
    by_cases hp : AllPlaced t
    · exact hp
    · unfold printFunctions blocks at h
      rw [usedSpaces_unplaced t hp] at h
      simp [Outcome.map] at h
  · intro h
    unfold printFunctions
    rw [blocks_placed sort t h]
    exact ⟨_, rfl⟩

theorem functions_unplaced (sort : Sorter) (t : Table) (h : ¬ AllPlaced t) :
    printFunctions sort t = .throw .other := by
  unfold printFunctions blocks
  rw [usedSpaces_unplaced t h]
  rfl

theorem count_flatMap_filter {α : Type} [DecidableEq α] (key : α → Option Nat) (xs : List α) (x : α) :
    ∀ (l : List Nat), (l.flatMap fun a => xs.filter fun f => key f = some a).count x =
      (match key x with
        | some a => l.count a
        | none => 0) * xs.count x
  | [] => by cases key x <;> simp
  | a :: l => by
    rw [List.flatMap_cons, List.count_append, count_flatMap_filter key xs x l]
    cases hk : key x with
    | none =>
      simp only [Nat.zero_mul, Nat.add_zero]
      rw [List.count_eq_zero]
      simp [hk]
    | some b =>
      simp only [List.count_cons]
      by_cases hab : a = b
      · subst hab
        rw [List.count_filter (by simp [hk])]
        simp
        rw [Nat.add_mul, Nat.one_mul, Nat.add_comm]
      · have : (xs.filter fun f => key f = some a).count x = 0 := by
          rw [List.count_eq_zero]
          simp [hk]
          intro _ h; exact absurd h.symm hab
        rw [this]
        simp [hab]

/-- Picking by number and joining is picking. -/
theorem flatMap_perm (xs : List FunSym) (l : List Nat) (hl : l.Nodup) :
    (l.flatMap fun a => xs.filter fun f => f.space = some a).Perm
      (xs.filter fun f => l.any fun a => f.space = some a) := by
  rw [List.perm_iff_count]
  intro x
  rw [count_flatMap_filter (·.space) xs x l]
  cases hk : x.space with
  | none =>
    simp only [Nat.zero_mul]
    rw [eq_comm, List.count_eq_zero]
    simp [hk]
  | some b =>
    simp only
    by_cases hb : b ∈ l
    · rw [List.count_filter (by simp [hk, hb]), hl.count, if_pos hb, Nat.one_mul]
    · rw [List.count_eq_zero.mpr hb, Nat.zero_mul, eq_comm, List.count_eq_zero]
      simp [hk]
      intro _ hy; exact absurd hy hb

/-- How a function is described. -/
def describe (spaces : List SpaceSym) (f : FunSym) : Option Str × Str × Str :=
  (f.space.bind (uriOf spaces), f.symbol, f.name)

theorem written_blocks (sort : Sorter) (t : Table) (hs : Rearranges sort) (h : AllPlaced t)
    (l : List Nat) (hl : l.Nodup) :
    (written (l.map (blockOf sort t))).Perm
      ((t.funs.filter fun f => l.any fun a => f.space = some a).map (describe t.spaces)) := by
  refine List.Perm.trans ?_ ((flatMap_perm t.funs l hl).map _)
  rw [List.map_flatMap, written, List.flatMap_map]
  have : ∀ l : List Nat, (l.flatMap fun a => (blockOf sort t a).functions.map fun f =>
      ((blockOf sort t a).uri, f.1, f.2)).Perm
      (l.flatMap fun a => (t.funs.filter fun f => f.space = some a).map (describe t.spaces)) := by
    intro l
    induction l with
    | nil => simp
    | cons a l ih =>
      simp only [List.flatMap_cons]
      refine List.Perm.append ?_ ih
      simp only [blockOf]
      refine ((hs _).map _).trans ?_
      rw [List.map_map]
      have e : (t.funs.filter fun f => decide (f.space = none ∨ f.space = some a)) =
          t.funs.filter fun f => f.space = some a := by
        apply List.filter_congr
        intro f hf
        have := h f hf
        cases hfs : f.space with
        | none => simp [hfs] at this
        | some b => simp
      rw [e]
      apply List.Perm.of_eq
      apply List.map_congr_left
      intro f hf
      simp only [List.mem_filter, decide_eq_true_eq] at hf
      simp [describe, hf.2, nameOf_eq]
  exact this l

theorem held_setOf (t : Table) : Held (nameOf t.spaces) (spaceLess t.spaces) (spaceNumbers t.funs)
    (setOf t) := held_fold (order_spaces t.spaces) _

theorem mem_spaceNumbers (funs : List FunSym) (a : Nat) :
    a ∈ spaceNumbers funs ↔ ∃ f ∈ funs, f.space = some a := by
  simp [spaceNumbers, List.mem_filterMap]

/-- **C42, text.**  If every function belongs to a space, the written blocks say of every
function once and truly where it belongs exactly if different spaces have different URIs (and
at most one of them has none). -/
theorem functions_complete_iff (sort : Sorter) (t : Table) (hs : Rearranges sort) (h : AllPlaced t)
    (bs : List Block) (hb : blocks sort t = .ok bs) :
    (written bs).Perm (described t) ↔ Distinct t := by
  rw [blocks_placed sort t h] at hb
  simp only [Outcome.ok.injEq] at hb
  subst hb
  have held := held_setOf t
  have o := order_spaces t.spaces
  have hw := written_blocks sort t hs h (setOf t) (held.nodup o)
  have hmem : ∀ f ∈ t.funs, ((setOf t).any fun a => decide (f.space = some a)) = true ↔
      ∀ a, f.space = some a → a ∈ setOf t := by
    intro f hf
    cases hfs : f.space with
    | none => have := h f hf; simp [hfs] at this
    | some b => simp
  have hc : Distinct t ↔ ∀ x ∈ spaceNumbers t.funs, x ∈ setOf t := by
    rw [held.complete o]
    constructor
    · intro hd x hx y hy he
      obtain ⟨f, hf, hfs⟩ := (mem_spaceNumbers _ _).mp hx
      obtain ⟨g, hg, hgs⟩ := (mem_spaceNumbers _ _).mp hy
      have := hd f hf g hg (by
        rw [hfs, hgs]
        simpa [nameOf_eq] using he)
      rw [hfs, hgs] at this
      simpa using this
    · intro hd f hf g hg he
      cases hfs : f.space with
      | none => have := h f hf; simp [hfs] at this
      | some a =>
        cases hgs : g.space with
        | none => have := h g hg; simp [hgs] at this
        | some b =>
          rw [hd a ((mem_spaceNumbers _ _).mpr ⟨f, hf, hfs⟩) b
            ((mem_spaceNumbers _ _).mpr ⟨g, hg, hgs⟩)]
          rw [hfs, hgs] at he
          simpa [nameOf_eq] using he
  rw [hc]
  constructor
  · intro hp
    have hlen := (hw.symm.trans hp).length_eq
    simp only [described, List.length_map] at hlen
    have hall := List.length_filter_eq_length_iff.mp hlen
    intro x hx
    obtain ⟨f, hf, hfs⟩ := (mem_spaceNumbers _ _).mp hx
    exact (hmem f hf).mp (hall f hf) x hfs
  · intro hall
    refine hw.trans ?_
    apply List.Perm.of_eq
    rw [List.filter_eq_self.mpr]
    · rfl
    · intro f hf
      rw [hmem f hf]
      intro a ha
      exact hall a ((mem_spaceNumbers _ _).mpr ⟨f, hf, ha⟩)

/-- **C42, text: nothing wrong is written.**  Whatever is written is true of some function. -/
theorem functions_sound (sort : Sorter) (t : Table) (hs : Rearranges sort) (bs : List Block)
    (hb : blocks sort t = .ok bs) : ∀ x ∈ written bs, x ∈ described t := by
  have h : AllPlaced t := by
    rw [← functions_written_iff sort t]
    unfold printFunctions
    rw [hb]
    exact ⟨_, rfl⟩
  rw [blocks_placed sort t h] at hb
  simp only [Outcome.ok.injEq] at hb
  subst hb
  intro x hx
  have := ((written_blocks sort t hs h (setOf t) ((held_setOf t).nodup (order_spaces _))).mem_iff).mp hx
  simp only [List.mem_map, List.mem_filter] at this
  obtain ⟨f, ⟨hf, -⟩, rfl⟩ := this
  exact List.mem_map.mpr ⟨f, hf, rfl⟩

/-! ### Reading the text again -/

theorem getElem?_uriOf (us : List Str) (n i : Nat) (u : Str) (h : us[i]? = some u) :
    uriOf (us.mapIdx fun j v => ⟨v, n + j + 1⟩) (n + i + 1) = some u := by
  induction us generalizing n i with
  | nil => simp at h
  | cons v us ih =>
    simp only [List.mapIdx_cons, uriOf]
    cases i with
    | zero => simp at h; simp [h]
    | succ i =>
      rw [if_neg (by omega)]
      have := ih (n + 1) i (by simpa using h)
      rw [show n + (i + 1) + 1 = n + 1 + i + 1 by omega]
      rw [← this]
      congr 1
      apply List.mapIdx_eq_mapIdx_iff.mpr
      intro j hj
      simp; omega

theorem described_mapIdx (spaces : List SpaceSym) (space : Option Nat) (start : Nat)
    (fs : List (Str × Str)) :
    (((fs.map fun f => (⟨f.2, some f.1⟩ : FunctionTree)).mapIdx (symbolOf space start)).map
      (describe spaces)) = fs.map fun f => (space.bind (uriOf spaces), f.1, f.2) := by
  induction fs generalizing start with
  | nil => rfl
  | cons f fs ih =>
    have ih := ih (start + 1)
    simp only [List.map_cons, List.mapIdx_cons, List.cons.injEq]
    refine ⟨rfl, ?_⟩
    rw [← ih]
    congr 1
    apply List.mapIdx_eq_mapIdx_iff.mpr
    intro j hj
    simp [symbolOf]; omega

/-- Reading blocks gives the functions they are about. -/
theorem described_blocks (spaces : List SpaceSym) : ∀ (bs : List Block) (s : State),
    (∀ (pre post : List Block) (b : Block) (u : Str), bs = pre ++ b :: post → b.uri = some u →
      uriOf spaces (s.numSpaces + (uris (pre.map treeOf)).length + 1) = some u) →
    ((bs.map treeOf).foldl visitSpace s).table.funs.map (describe spaces) =
      s.table.funs.map (describe spaces) ++ written bs
  | [], s, _ => by simp [written]
  | b :: bs, s, h => by
    rw [List.map_cons, List.foldl_cons, described_blocks spaces bs]
    · rw [visitSpace_eq]
      simp only [List.map_append, List.append_assoc, List.append_cancel_left_eq, treeOf,
        described_mapIdx, written, List.flatMap_cons]
      congr 1
      apply List.map_congr_left
      intro f _
      cases hu : b.uri with
      | none => simp [spaceIn]
      | some u =>
        have := h [] bs b u rfl hu
        simp only [spaceIn, Option.map_some, Option.bind_some]
        simpa [uris] using this
    · intro pre post c u he hu
      have := h (b :: pre) post c u (by simp [he]) hu
      rw [visitSpace_eq]
      rw [← this]
      congr 1
      simp only [List.map_cons, treeOf, uris]
      cases b.uri <;> simp; omega

theorem read_blocks (bs : List Block) :
    described (readSpaces (bs.map treeOf)).table = written bs := by
  have hs := spaces_numbered (bs.map treeOf)
  have h := described_blocks (readSpaces (bs.map treeOf)).table.spaces bs {} (by
    intro pre post b u he hu
    rw [hs]
    have := getElem?_uriOf (uris (bs.map treeOf)) 0 (uris (pre.map treeOf)).length u (by
      rw [he]
      simp [uris, treeOf, hu])
    simpa [Nat.add_assoc, Nat.add_comm] using this)
  have e : described (readSpaces (bs.map treeOf)).table =
      (readSpaces (bs.map treeOf)).table.funs.map
        (describe (readSpaces (bs.map treeOf)).table.spaces) := rfl
  rw [e, show readSpaces (bs.map treeOf) = (bs.map treeOf).foldl visitSpace {} from rfl] at *
  rw [h]
  rfl

/-- The names and URIs of a table can be written in the grammar. -/
structure Writable (t : Table) : Prop where
  uris : ∀ s ∈ t.spaces, IsUri s.uri
  symbols : ∀ f ∈ t.funs, IsName f.symbol
  names : ∀ f ∈ t.funs, IsFunctionName f.name

theorem uriOf_mem (spaces : List SpaceSym) (a : Nat) (u : Str) (h : uriOf spaces a = some u) :
    ∃ s ∈ spaces, s.uri = u := by
  induction spaces with
  | nil => simp [uriOf] at h
  | cons s rest ih =>
    simp only [uriOf] at h
    split at h
    · exact ⟨s, by simp, by simpa using h⟩
    · obtain ⟨x, hx, e⟩ := ih h; exact ⟨x, by simp [hx], e⟩

/-- **C42, text, through the grammar** (`_partial`: functions without a space and spaces that
share a URI are missing; see `functions_unplaced` and `functions_dropped`).  If every function
belongs to a space, different spaces have different URIs, and the grammar has words for the
names and URIs, then the printed section is read as the same functions of the same spaces. -/
theorem functions_reread_partial (sort : Sorter) (t : Table) (hs : Rearranges sort)
    (h : AllPlaced t) (hd : Distinct t) (hw : Writable t) :
    ∃ text trees, printFunctions sort t = .ok text ∧ spacesOf text = some trees ∧
      (described (readSpaces trees).table).Perm (described t) := by
  have hb := blocks_placed sort t h
  refine ⟨sectionText ((setOf t).map (blockOf sort t)), ((setOf t).map (blockOf sort t)).map treeOf,
    by unfold printFunctions; rw [hb]; rfl, spacesOf_section _ ?_, ?_⟩
  · intro b hbm
    obtain ⟨a, -, rfl⟩ := List.mem_map.mp hbm
    have key : ∀ p ∈ (blockOf sort t a).functions, ∃ f ∈ t.funs, p = (f.symbol, f.name) := by
      intro p hp
      have := (hs _).mem_iff.mp hp
      simp only [List.mem_map, List.mem_filter] at this
      obtain ⟨f, ⟨hf, -⟩, rfl⟩ := this
      exact ⟨f, hf, rfl⟩
    refine ⟨?_, ?_, ?_⟩
    · intro u hu
      simp only [blockOf, nameOf_eq] at hu
      obtain ⟨s, hsm, rfl⟩ := uriOf_mem _ _ _ hu
      exact hw.uris s hsm
    · intro p hp
      obtain ⟨f, hf, rfl⟩ := key p hp
      exact hw.symbols f hf
    · intro p hp
      obtain ⟨f, hf, rfl⟩ := key p hp
      exact hw.names f hf
  · rw [read_blocks]
    exact (functions_complete_iff sort t hs h _ hb).mpr hd

/-! ### What goes wrong -/

/-- A table with two spaces of the same URI. -/
def sameUri : Table where
  spaces := [⟨"/a.yaml".toList, 1⟩, ⟨"/a.yaml".toList, 2⟩]
  funs := [⟨"f".toList, "f:i8".toList, some 1, 0⟩, ⟨"g".toList, "g:i8".toList, some 2, 1⟩]

/-- **C42 as stated is false**: of two spaces with the same URI, one is left out with all its
functions. -/
theorem functions_dropped : printFunctions id sameUri =
    .ok "extension_space /a.yaml {\n  function f:i8 as f;\n}\n".toList := by decide +kernel

/-- **C42 as stated is false**: of two spaces that no URI is known for, one is left out. -/
theorem functions_dropped_unknown : printFunctions id
    ⟨[], [⟨"f".toList, "f:i8".toList, some 1, 0⟩, ⟨"g".toList, "g:i8".toList, some 2, 1⟩]⟩ =
    .ok "extension_space {\n  function f:i8 as f;\n}\n".toList := by decide +kernel

/-- **C42 as stated is false**: a text with an extension space without a URI is accepted, but
its functions cannot be printed. -/
theorem space_without_uri_fails : ∃ trees,
    spacesOf "extension_space { function f:i8; }".toList = some trees ∧
    ∀ sort, printFunctions sort (readSpaces trees).table = .throw .other := by
  refine ⟨[⟨none, [⟨"f:i8".toList, none⟩]⟩], by decide +kernel, ?_⟩
  intro sort
  apply functions_unplaced
  intro h
  have := h ⟨"f".toList, "f:i8".toList, none, 0⟩ (by decide)
  exact absurd this (by decide)

/-- Names in binary plans that the grammar has no words for: a reserved word, a signature
with a reserved word, a name without a colon, and a URI with other characters. -/
theorem unwritable_names :
    (∀ s ∈ ["function:i8", "cardinality:list", "f"].map String.toList,
      spacesOf (sectionText [⟨none, [("s".toList, s)]⟩]) = none) ∧
    (∀ u ∈ ["https://example.com:8080/a.yaml", "/a~b.yaml", "https://example.com/a?b"].map
      String.toList, spacesOf (sectionText [⟨some u, [("f".toList, "f:i8".toList)]⟩]) = none) := by
  constructor <;> decide +kernel

/-- Non-vacuity of C42: two spaces, three functions, read back from the printed text. -/
def sample : Table where
  spaces := [⟨"/functions_b.yaml".toList, 7⟩, ⟨"https://example.com/functions_a.yaml".toList, 3⟩]
  funs := [⟨"equal".toList, "equal:any_any".toList, some 7, 4⟩,
    ⟨"is_null".toList, "is_null:any".toList, some 3, 2⟩,
    ⟨"count".toList, "count:".toList, some 7, 9⟩]

example : AllPlaced sample ∧ Distinct sample := by
  constructor
  · intro f hf; revert f; decide
  · intro f hf g hg; revert g; revert f; decide +kernel

theorem isName_of {s : Str} {ts : List Token} (h : lex s = some ts) (hp : parseId ts = some (s, [])) :
    IsName s := ⟨ts, h, hp⟩

example : Writable sample := by
  have n : ∀ s ∈ ["equal", "any_any", "is_null", "any", "count"].map String.toList, IsName s := by
    intro s hs
    refine ⟨(lex s).getD [], ?_⟩
    revert s
    decide +kernel
  refine ⟨?_, ?_, ?_⟩
  · intro s hs
    unfold IsUri
    revert s; decide +kernel
  · intro f hf
    simp only [sample, List.mem_cons, List.not_mem_nil, or_false] at hf
    rcases hf with rfl | rfl | rfl <;> exact n _ (by decide)
  · intro f hf
    simp only [sample, List.mem_cons, List.not_mem_nil, or_false] at hf
    rcases hf with rfl | rfl | rfl
    · exact ⟨"equal".toList, "any_any".toList, by decide, n _ (by decide), .inr (n _ (by decide))⟩
    · exact ⟨"is_null".toList, "any".toList, by decide, n _ (by decide), .inr (n _ (by decide))⟩
    · exact ⟨"count".toList, [], by decide, n _ (by decide), .inl rfl⟩

/-! ### Binary plans -/

theorem usedNumbers_eq (funs : List FunSym) : ∀ (set : List Nat),
    funs.foldl useNumber set =
    (spaceNumbers funs).foldl (fun s x => setInsert (fun a b => decide (a < b)) x s) set := by
  induction funs with
  | nil => intro set; rfl
  | cons f funs ih =>
    intro set
    rw [List.foldl_cons, ih]
    cases hs : f.space <;> simp [spaceNumbers, hs, insertNat, useNumber]

/-- The declaration of a function. -/
def declare (spaces : List SpaceSym) (f : FunSym) : PbFunction :=
  ⟨f.anchor, f.name, match f.space with
    | some a => if (uriOf spaces a).isSome then a else 0
    | none => 0⟩

/-- **C42, binary.**  Every function gets exactly one declaration, with its number and name. -/
theorem binary_complete (t : Table) :
    (binaryFunctions t).Perm (t.funs.map (declare t.spaces)) := by
  have held : Held id (fun a b => decide (a < b)) (spaceNumbers t.funs) (usedNumbers t.funs) := by
    unfold usedNumbers
    rw [usedNumbers_eq]
    exact held_fold order_nat _
  have hall := (held.complete order_nat).mpr (by intro x _ y _ h; exact h)
  have h1 : ∀ l : List Nat, (l.map fun space =>
      (t.funs.filter fun f => f.space = some space).map fun f =>
        (⟨f.anchor, f.name, if (nameOf t.spaces space).isSome then space else 0⟩ :
          PbFunction)).flatten =
      (l.flatMap fun a => t.funs.filter fun f => f.space = some a).map (declare t.spaces) := by
    intro l
    induction l with
    | nil => rfl
    | cons a l ih =>
      simp only [List.map_cons, List.flatten_cons, List.flatMap_cons, List.map_append]
      rw [ih]
      congr 1
      apply List.map_congr_left
      intro f hf
      simp only [List.mem_filter, decide_eq_true_eq] at hf
      simp [declare, hf.2, nameOf_eq]
  unfold binaryFunctions
  rw [h1]
  have h2 : ((t.funs.filter fun f => f.space = none).map fun f => (⟨f.anchor, f.name, 0⟩ : PbFunction)) =
      (t.funs.filter fun f => f.space = none).map (declare t.spaces) := by
    apply List.map_congr_left
    intro f hf
    simp only [List.mem_filter, decide_eq_true_eq] at hf
    simp [declare, hf.2]
  rw [h2, ← List.map_append]
  apply List.Perm.map
  refine ((flatMap_perm t.funs _ (held.nodup order_nat)).append_right _).trans ?_
  have h3 : (t.funs.filter fun f => decide (f.space = none)) =
      t.funs.filter fun f => !((usedNumbers t.funs).any fun a => decide (f.space = some a)) := by
    apply List.filter_congr
    intro f hf
    cases hs : f.space with
    | none => simp
    | some a =>
      have := hall a ((mem_spaceNumbers _ _).mpr ⟨f, hf, hs⟩)
      simp [this]
  rw [h3]
  exact List.filter_append_perm _ _

theorem resolve_uris (spaces : List SpaceSym) (a : Nat) :
    resolve (spaces.map fun s => ⟨s.uri, s.anchor⟩) a = uriOf spaces a := by
  induction spaces with
  | nil => rfl
  | cons s rest ih => simp only [List.map_cons, resolve, uriOf, ih]

/-- **C42, binary: the reference.**  The declaration of a function refers to the URI of its
space exactly if that URI is known, or if no space has the number 0. -/
theorem binary_resolves_iff (t : Table) (f : FunSym) :
    resolve (binaryUris t) (declare t.spaces f).uriRef = f.space.bind (uriOf t.spaces) ↔
      (f.space.bind (uriOf t.spaces)).isSome ∨ uriOf t.spaces 0 = none := by
  unfold binaryUris
  rw [resolve_uris]
  cases hs : f.space with
  | none => simp [declare, hs]
  | some a =>
    simp only [declare, hs, Option.bind_some]
    cases hu : uriOf t.spaces a with
    | none => simp
    | some u => simp [hu]

/-- Tables read from text number their spaces from 1, so their functions always refer to
their own spaces. -/
theorem binary_resolves_text (ts : List SpaceTree) (f : FunSym) :
    resolve (binaryUris (readSpaces ts).table) (declare (readSpaces ts).table.spaces f).uriRef =
      f.space.bind (uriOf (readSpaces ts).table.spaces) := by
  rw [binary_resolves_iff]
  right
  rw [spaces_numbered]
  have : ∀ (us : List Str) (n : Nat), uriOf (us.mapIdx fun i u => ⟨u, i + n + 1⟩) 0 = none := by
    intro us
    induction us with
    | nil => intro n; rfl
    | cons u us ih =>
      intro n
      simp only [List.mapIdx_cons, uriOf]
      rw [if_neg (by omega)]
      have := ih (n + 1)
      rw [← this]
      congr 1
      apply List.mapIdx_eq_mapIdx_iff.mpr
      intro j hj
      simp; omega
  simpa using this (uris ts) 0

/-- **C42 as stated is false**: a function of an unknown space is declared as a function of the
space with the number 0. -/
theorem binary_wrong_space :
    let t : Table := ⟨[⟨"/a.yaml".toList, 0⟩], [⟨"f".toList, "f:i8".toList, some 5, 1⟩]⟩
    binaryFunctions t = [⟨1, "f:i8".toList, 0⟩] ∧
    resolve (binaryUris t) 0 = some "/a.yaml".toList := by decide

/-- Non-vacuity: declarations of the sample. -/
example : binaryFunctions sample =
    [⟨2, "is_null:any".toList, 3⟩, ⟨4, "equal:any_any".toList, 7⟩, ⟨9, "count:".toList, 7⟩] := by
  decide

/-! ### From binary plans -/

theorem addFunctions (fs : List PbFunction) : ∀ (s : Sym.Table Unit × List FunSym),
    (fs.foldl addFunction s).2.map (fun f => (f.anchor, f.name, f.space)) =
      s.2.map (fun f => (f.anchor, f.name, f.space)) ++
        fs.map fun f => (f.anchor, f.name, some f.uriRef) := by
  induction fs with
  | nil => intro s; simp
  | cons f fs ih => intro s; rw [List.foldl_cons, ih]; simp [addFunction]

theorem readBinary_funs (us : List PbUri) (fs : List PbFunction) :
    (readBinary us fs).funs.map (fun f => (f.anchor, f.name, f.space)) =
      fs.map fun f => (f.anchor, f.name, some f.uriRef) := by
  have := addFunctions fs (Sym.Table.empty, [])
  simpa [readBinary] using this

/-- The functions of a binary plan all have a space, so its text can always be written. -/
theorem binary_placed (us : List PbUri) (fs : List PbFunction) : AllPlaced (readBinary us fs) := by
  intro f hf
  have h : (f.anchor, f.name, f.space) ∈ fs.map fun f => (f.anchor, f.name, some f.uriRef) := by
    rw [← readBinary_funs us fs]
    exact List.mem_map.mpr ⟨f, hf, rfl⟩
  obtain ⟨g, -, hg⟩ := List.mem_map.mp h
  simp only [Prod.mk.injEq] at hg
  rw [← hg.2.2]; rfl

theorem uriOf_readBinary (us : List PbUri) (fs : List PbFunction) (a : Nat) :
    uriOf (readBinary us fs).spaces a = resolve us a := by
  induction us with
  | nil => rfl
  | cons u us ih => simp only [readBinary, List.map_cons, uriOf, resolve] at *; rw [ih]

/-- **C42, binary to binary.**  The URIs stay, and of the functions only the references to
unknown URIs change: they become 0. -/
theorem binary_roundtrip (us : List PbUri) (fs : List PbFunction) :
    binaryUris (readBinary us fs) = us ∧
    (binaryFunctions (readBinary us fs)).Perm
      (fs.map fun f => { f with uriRef := if (resolve us f.uriRef).isSome then f.uriRef else 0 }) := by
  refine ⟨by
    simp only [binaryUris, readBinary, List.map_map]
    exact List.map_id us, (binary_complete _).trans (.of_eq ?_)⟩
  have h1 : ∀ f : FunSym, declare (readBinary us fs).spaces f =
      (fun p : Nat × Str × Option Nat => (⟨p.1, p.2.1, match p.2.2 with
        | some a => if (resolve us a).isSome then a else 0
        | none => 0⟩ : PbFunction)) (f.anchor, f.name, f.space) := by
    intro f
    unfold declare
    cases f.space <;> simp [uriOf_readBinary]
  rw [List.map_congr_left (fun f _ => h1 f)]
  have h2 := congrArg (List.map (fun p : Nat × Str × Option Nat => (⟨p.1, p.2.1, match p.2.2 with
        | some a => if (resolve us a).isSome then a else 0
        | none => 0⟩ : PbFunction))) (readBinary_funs us fs)
  rw [List.map_map, List.map_map] at h2
  exact h2

/-- Two functions of a binary plan can get the same name in the plan (see C25): the third is
then printed under the name of the second. -/
theorem binary_names_collide :
    (readBinary [⟨"/a.yaml".toList, 1⟩] [⟨1, "add:i8".toList, 1⟩, ⟨2, "add:i16".toList, 1⟩,
      ⟨3, "add2:i8".toList, 1⟩]).funs.map (·.symbol) =
    ["add".toList, "add2".toList, "add2".toList] := by decide +kernel

/-- Non-vacuity of the round trip. -/
example : binaryFunctions (readBinary [⟨"/a.yaml".toList, 4⟩]
      [⟨7, "f:i8".toList, 4⟩, ⟨8, "g:i8".toList, 2⟩]) =
    [⟨8, "g:i8".toList, 0⟩, ⟨7, "f:i8".toList, 4⟩] := by decide +kernel

end Verif.Ext
