import Verif.Lemmas.SymbolTableRun
import Verif.Model.ParseResult

/-! # Properties of the symbol table, locations and error lists (C24 - C29) -/

namespace Verif.Sym

open Verif

variable {β : Type}

/-! ## C28: locations -/

/-- **C28, equality** is an equivalence: it is the identity of locations. -/
theorem location_eq (a b : Location) : a.eq b = true ↔ a = b := Location.eq_iff a b

/-- **C28, hashing**: equal locations have equal hashes, whatever the pointer hash is. -/
theorem location_hash (h : Nat → Nat) (a b : Location) (e : a.eq b = true) :
    a.hash h = b.hash h := by
  rw [(Location.eq_iff a b).mp e]

/-- **C28, order**: a strict total order that agrees with equality. -/
theorem location_order :
    (∀ a : Location, Location.less a a = false) ∧
    (∀ a b c, Location.less a b = true → Location.less b c = true → Location.less a c = true) ∧
    (∀ a b, Location.less a b = true ∨ a.eq b = true ∨ Location.less b a = true) ∧
    (∀ a b, (Location.less a b = false ∧ Location.less b a = false) ↔ a.eq b = true) := by
  refine ⟨Location.less_irrefl, fun a b c => Location.less_trans, ?_, ?_⟩
  · intro a b
    rcases Location.less_total a b with h | h | h
    · exact Or.inl h
    · exact Or.inr (Or.inl ((Location.eq_iff a b).mpr h))
    · exact Or.inr (Or.inr h)
  · intro a b
    rw [Location.eq_iff, ← Location.equiv_iff]
    simp

/-- Non-vacuity: a parser node and a message at the same address differ. -/
example : Location.less (.node 5) (.message 3) = true ∧
    Location.eq (.node 5) (.message 5) = false := by decide

/-! ## C24 -/

/-- **C24.**  After every history the table shows exactly what the log of the calls says:
the symbols are the definitions in order; a name finds the first symbol it was given to; a
location finds all symbols it was given to, in order; every symbol has the last alias and
locations given to it and nothing else. -/
theorem runAll_shows (ops : List (Op β)) :
    match (Log.empty : Log β).steps ops with
    | some g => ∃ t, (Table.empty : Table β).runAll ops = .ok t ∧ Shows t g
    | none => (Table.empty : Table β).runAll ops = .ub := by
  have := runAll_inv ops (inv_empty (β := β)) ⟨by simp [Log.empty], by simp [Log.empty], by simp [Log.empty]⟩
  cases h : (Log.empty : Log β).steps ops with
  | none => rw [h] at this; exact this
  | some g =>
    rw [h] at this
    obtain ⟨t, ht, hi, _⟩ := this
    exact ⟨t, ht, hi.shows⟩

/-- A history runs to its end exactly if every update names a symbol defined before. -/
theorem runAll_ok_iff (ops : List (Op β)) :
    (∃ t, (Table.empty : Table β).runAll ops = .ok t) ↔ ∃ g, (Log.empty : Log β).steps ops = some g := by
  have := runAll_shows ops
  cases h : (Log.empty : Log β).steps ops with
  | none => rw [h] at this; simp [this]
  | some g => rw [h] at this; obtain ⟨t, ht, _⟩ := this; exact ⟨fun _ => ⟨g, rfl⟩, fun _ => ⟨t, ht⟩⟩

/-- The indices kept by the maps are those of symbols, so every lookup by name gives a
symbol. -/
theorem lookupSymbolByName_eq (ops : List (Op β)) (t : Table β) (g : Log β)
    (ht : (Table.empty : Table β).runAll ops = .ok t) (hg : (Log.empty : Log β).steps ops = some g)
    (name : Str) :
    (t.lookupSymbolByName name).map (fun s => (s.key, s.payload)) =
      (first g.names name).bind fun i => g.defs[i]? := by
  have := runAll_shows ops
  rw [hg] at this
  obtain ⟨t', ht', hs⟩ := this
  rw [ht] at ht'; injection ht' with e; subst e
  unfold Table.lookupSymbolByName
  rw [hs.byName]
  cases first g.names name with
  | none => rfl
  | some i => simp only [Option.bind_some, Table.at?]; rw [← hs.symbols, List.getElem?_map]

/-- The same for locations. -/
theorem lookupSymbolsByLocation_eq (ops : List (Op β)) (t : Table β) (g : Log β)
    (ht : (Table.empty : Table β).runAll ops = .ok t) (hg : (Log.empty : Log β).steps ops = some g)
    (l : Location) :
    (t.lookupSymbolsByLocation l).map (fun s => (s.key, s.payload)) =
      (every g.places l).filterMap fun i => g.defs[i]? := by
  have := runAll_shows ops
  rw [hg] at this
  obtain ⟨t', ht', hs⟩ := this
  rw [ht] at ht'; injection ht' with e; subst e
  unfold Table.lookupSymbolsByLocation
  rw [hs.byLocation, List.map_filterMap]
  congr 1
  funext i
  simp only [Table.at?]
  rw [← hs.symbols, List.getElem?_map]

/-- **C24, first in place**: a name given to a symbol keeps finding it, whatever happens
later. -/
theorem lookup_stable (ops more : List (Op β)) (t t' : Table β) (name : Str) (i : Nat)
    (ht : (Table.empty : Table β).runAll ops = .ok t)
    (ht' : (Table.empty : Table β).runAll (ops ++ more) = .ok t')
    (h : t.lookupIndexByName name = some i) : t'.lookupIndexByName name = some i := by
  have steps_append : ∀ (g : Log β) (a b : List (Op β)),
      g.steps (a ++ b) = (g.steps a).bind fun g => g.steps b := by
    intro g a b
    induction a generalizing g with
    | nil => rfl
    | cons op a ih => simp only [List.cons_append, Log.steps]; cases g.step op <;> simp [ih]
  have names_prefix : ∀ (b : List (Op β)) (g g' : Log β), g.steps b = some g' →
      g.names <+: g'.names := by
    intro b
    induction b with
    | nil => intro g g' h; simp only [Log.steps, Option.some.injEq] at h; subst h; exact List.prefix_rfl
    | cons op b ih =>
      intro g g' h
      simp only [Log.steps, Option.bind_eq_some_iff] at h
      obtain ⟨g1, h1, h2⟩ := h
      refine List.IsPrefix.trans ?_ (ih g1 g' h2)
      cases op with
      | uniqueName b => simp only [Log.step, Option.some.injEq] at h1; subst h1; exact List.prefix_rfl
      | define n l ty p =>
        simp only [Log.step, Option.some.injEq] at h1; subst h1; exact List.prefix_append _ _
      | defineUnique n l ty p =>
        simp only [Log.step, Option.some.injEq] at h1; subst h1; exact List.prefix_append _ _
      | permanent k l =>
        simp only [Log.step, Option.map_eq_some_iff] at h1
        obtain ⟨i, hi, rfl⟩ := h1; exact List.prefix_rfl
      | parent k l =>
        simp only [Log.step, Option.map_eq_some_iff] at h1
        obtain ⟨i, hi, rfl⟩ := h1; exact List.prefix_rfl
      | alias a k =>
        simp only [Log.step, Option.map_eq_some_iff] at h1
        obtain ⟨i, hi, rfl⟩ := h1; exact List.prefix_append _ _
  obtain ⟨g, hg⟩ := (runAll_ok_iff ops).mp ⟨t, ht⟩
  obtain ⟨g', hg'⟩ := (runAll_ok_iff (ops ++ more)).mp ⟨t', ht'⟩
  have s1 := runAll_shows ops
  rw [hg] at s1
  obtain ⟨t1, e1, s1⟩ := s1
  rw [ht] at e1; injection e1 with e1; subst e1
  have s2 := runAll_shows (ops ++ more)
  rw [hg'] at s2
  obtain ⟨t2, e2, s2⟩ := s2
  rw [ht'] at e2; injection e2 with e2; subst e2
  rw [s1.byName] at h
  rw [s2.byName]
  rw [steps_append, hg] at hg'
  obtain ⟨r, hr⟩ := names_prefix more g g' hg'
  rw [← hr]
  exact first_append_left _ _ _ _ h

/-- **C24, exact part for updates** (`_partial`: keys must differ): if no two definitions
have the same name, location and type, an update reaches exactly the symbol meant. -/
theorem update_target_partial (g : Log β) (hnd : (g.defs.map (·.1)).Nodup) (i : Nat) (d : Key × β)
    (hi : g.defs[i]? = some d) : g.index? d.1 = some i := by
  unfold Log.index?
  rw [List.findIdx?_eq_some_iff_getElem]
  have hlt : i < g.defs.length := by
    rw [List.getElem?_eq_some_iff] at hi; exact hi.1
  have he : g.defs[i] = d := by
    rw [List.getElem?_eq_some_iff] at hi; exact hi.2
  refine ⟨hlt, by simp [he], ?_⟩
  intro j hj
  simp only [beq_iff_eq]
  intro e
  have h1 : (g.defs.map (·.1))[j]? = some d.1 := by
    rw [List.getElem?_map, List.getElem?_eq_getElem (by omega)]; simp [e]
  have h2 : (g.defs.map (·.1))[i]? = some d.1 := by
    rw [List.getElem?_map, hi]; rfl
  have hj' : j < (g.defs.map (·.1)).length := by simp; omega
  have := (List.getElem?_inj hj' hnd).mp (h1.trans h2.symm)
  omega

/-- **C24 is false for equal symbols**: with two symbols of the same name, location and type
(the code does not prevent it), an alias meant for the second goes to the first. -/
theorem update_hits_other :
    let k : Key := ⟨"a".toList, .message 1, .schema⟩
    let r := (Table.empty : Table Nat).runAll
      [.define "a".toList (.message 1) .schema 10, .define "a".toList (.message 1) .schema 20,
       .alias "b".toList k]
    r.map (fun t => t.symbols.map fun s => (s.payload, s.alias)) =
      .ok [(10, "b".toList), (20, [])] := by
  decide

/-- Updates of a symbol that is not in the table are undefined. -/
theorem update_unknown_ub :
    (Table.empty : Table Nat).runAll [.alias "b".toList ⟨"a".toList, .message 1, .schema⟩] = .ub := by
  rfl

/-- **C24, counting by type.** -/
theorem nthSymbolByType_eq (t : Table β) (n : Nat) (type : SymbolType) :
    t.nthSymbolByType n type = (t.symbols.filter fun s => s.type = type)[n]? := by
  unfold Table.nthSymbolByType
  have key : ∀ (l : List (Symbol β)) (c : Nat), c ≤ n →
      nthLoop type n c l = (l.filter fun s => s.type = type)[n - c]? := by
    intro l
    induction l with
    | nil => intro c _; simp [nthLoop]
    | cons s l ih =>
      intro c hc
      unfold nthLoop
      by_cases hs : s.type = type
      · rw [if_pos hs]
        simp only [List.filter_cons, hs, decide_true, if_true]
        by_cases hn : n = c
        · subst hn; simp
        · rw [if_neg hn, ih (c + 1) (by omega)]
          rw [show n - c = (n - (c + 1)) + 1 by omega, List.getElem?_cons_succ]
      · rw [if_neg hs, ih c hc]
        simp [hs]
  exact key t.symbols 0 (by omega)

/-- **C24, lookup by location and type**: the first symbol given that location whose type is
wanted. -/
theorem lookupByLocationAndTypes_eq (t : Table β) (l : Location) (types : List SymbolType) :
    t.lookupSymbolByLocationAndTypes l types =
      ((t.lookupSymbolsByLocation l).filter fun s => s.type ∈ types).head? := by
  unfold Table.lookupSymbolByLocationAndTypes
  rw [List.head?_filter]
  congr 1
  funext s
  simp

/-- A history that uses all calls. -/
def sampleOps : List (Op Nat) :=
  [.define "t".toList (.message 9) .source 1, .defineUnique "read".toList (.message 4) .relation 2,
   .defineUnique "read".toList (.message 5) .relation 3, .alias "r".toList ⟨"read2".toList, .message 5, .relation⟩,
   .permanent ⟨"t".toList, .message 9, .source⟩ (.message 4),
   .parent ⟨"read2".toList, .message 5, .relation⟩ (.message 4), .uniqueName "read".toList]

/-- Non-vacuity of C24: lookups after it. -/
example : ∃ t, (Table.empty : Table Nat).runAll sampleOps = .ok t ∧
    t.lookupIndexByName "r".toList = some 2 ∧ t.lookupIndicesByLocation (.message 4) = [1, 0] ∧
    (t.getUniqueName "read".toList).2 = "read4".toList := by
  refine ⟨_, rfl, ?_, ?_, ?_⟩ <;> decide

/-! ## C25 -/

/-- The names handed out by a run of requests are `issued`. -/
theorem getUniqueName_issued (bases : List Str) (t : Table β) (g : Log β) (h : Inv t g) :
    (bases.foldl (fun (r : Table β × List Str) b =>
      ((r.1.getUniqueName b).1, r.2 ++ [(r.1.getUniqueName b).2])) (t, [])).2 =
      issued g.requests bases := by
  have key : ∀ (bs : List Str) (t : Table β) (g : Log β) (acc : List Str), Inv t g →
      (bs.foldl (fun (r : Table β × List Str) b =>
        ((r.1.getUniqueName b).1, r.2 ++ [(r.1.getUniqueName b).2])) (t, acc)).2 =
        acc ++ issued g.requests bs := by
    intro bs
    induction bs with
    | nil => intro t g acc _; simp [issued]
    | cons b bs ih =>
      intro t g acc h
      simp only [List.foldl_cons]
      rw [ih _ _ _ (inv_unique h b), h.shows.unique b]
      simp [issued]
  simpa using key bases t g [] h

theorem natText_split {a b m n : Str} (ha : ∀ c, a.getLast? = some c → isDigit c = false)
    (hb : ∀ c, b.getLast? = some c → isDigit c = false) (hm : ∀ c ∈ m, isDigit c = true)
    (hn : ∀ c ∈ n, isDigit c = true) (h : a ++ m = b ++ n) : a = b ∧ m = n := by
  have key : ∀ (x y : Str), (∀ c, x.getLast? = some c → isDigit c = false) →
      (∀ c ∈ y, isDigit c = true) → ((x ++ y).reverse.takeWhile isDigit).reverse = y ∧
        ((x ++ y).reverse.dropWhile isDigit).reverse = x := by
    intro x y hx hy
    rw [List.reverse_append]
    have hyr : ∀ c ∈ y.reverse, isDigit c = true := fun c hc => hy c (List.mem_reverse.mp hc)
    rw [List.takeWhile_append_of_pos hyr, List.dropWhile_append_of_pos hyr]
    cases hxr : x.reverse with
    | nil =>
      have : x = [] := by simpa using hxr
      simp [this]
    | cons c cs =>
      have hc : isDigit c = false := hx c (by rw [← List.head?_reverse, hxr]; rfl)
      have hxe : (c :: cs).reverse = x := by rw [← hxr, List.reverse_reverse]
      refine ⟨?_, ?_⟩
      · rw [List.takeWhile_cons, hc]; simp
      · rw [List.dropWhile_cons, hc]; simpa using hxe
  have h1 := key a m ha hm
  have h2 := key b n hb hn
  rw [h] at h1
  exact ⟨h1.2.symm.trans h2.2, h1.1.symm.trans h2.1⟩

theorem uniqueText_inj {a b : Str} {m n : Nat} (ha : ∀ c, a.getLast? = some c → isDigit c = false)
    (hb : ∀ c, b.getLast? = some c → isDigit c = false) (h : uniqueText a m = uniqueText b n) :
    a = b ∧ m = n := by
  have form : ∀ (x : Str) (k : Nat), ∃ d, uniqueText x k = x ++ d ∧ (∀ c ∈ d, isDigit c = true) ∧
      (k = 0 → d = []) ∧ (k ≠ 0 → d = natText (k + 1)) := by
    intro x k
    unfold uniqueText
    by_cases hk : k = 0
    · rw [if_pos hk]; exact ⟨[], by simp, by simp, fun _ => rfl, fun h => absurd hk h⟩
    · rw [if_neg hk]; exact ⟨_, rfl, natText_digits _, fun h => absurd h hk, fun _ => rfl⟩
  obtain ⟨d, e1, hd, hd0, hdn⟩ := form a m
  obtain ⟨f, e2, hf, hf0, hfn⟩ := form b n
  rw [e1, e2] at h
  obtain ⟨hab, hdf⟩ := natText_split ha hb hd hf h
  refine ⟨hab, ?_⟩
  subst hdf
  by_cases hm : m = 0
  · by_cases hn : n = 0
    · omega
    · have := hfn hn; rw [hd0 hm] at this; exact absurd this.symm (natText_ne_nil _)
  · by_cases hn : n = 0
    · have := hdn hm; rw [hf0 hn] at this; exact absurd this.symm (natText_ne_nil _)
    · have := natText_inj ((hdn hm).symm.trans (hfn hn)); omega

/-- **C25, the part that holds** (`_partial`: the bases must not end in a digit): the names
handed out are pairwise different. -/
theorem uniqueNames_partial (bases : List Str)
    (h : ∀ b ∈ bases, ∀ c, b.getLast? = some c → isDigit c = false) :
    (issued [] bases).Nodup := by
  have mem : ∀ (bs earlier : List Str) (x : Str), x ∈ issued earlier bs →
      ∃ b ∈ bs, ∃ n, earlier.count b ≤ n ∧ x = uniqueText b n := by
    intro bs
    induction bs with
    | nil => intro e x hx; simp [issued] at hx
    | cons b bs ih =>
      intro e x hx
      simp only [issued, List.mem_cons] at hx
      rcases hx with rfl | hx
      · exact ⟨b, by simp, _, Nat.le_refl _, rfl⟩
      · obtain ⟨b', hb', n, hn, rfl⟩ := ih _ x hx
        refine ⟨b', by simp [hb'], n, ?_, rfl⟩
        rw [List.count_append] at hn; omega
  have key : ∀ (bs earlier : List Str),
      (∀ b ∈ bs, ∀ c, b.getLast? = some c → isDigit c = false) → (issued earlier bs).Nodup := by
    intro bs
    induction bs with
    | nil => intro _ _; simp [issued]
    | cons b bs ih =>
      intro earlier hb
      simp only [issued, List.nodup_cons]
      refine ⟨?_, ih _ fun x hx => hb x (by simp [hx])⟩
      intro hm
      obtain ⟨b', hb', n, hn, e⟩ := mem _ _ _ hm
      obtain ⟨rfl, rfl⟩ := uniqueText_inj (hb b (by simp)) (hb b' (by simp [hb'])) e
      rw [List.count_append] at hn
      simp at hn
      omega
  exact key bases [] h

/-- **C25 is false in general**: asking for `a`, `a`, `a2` hands out `a2` twice. -/
theorem uniqueNames_collide :
    issued [] ["a".toList, "a".toList, "a2".toList] = ["a".toList, "a2".toList, "a2".toList] := by
  decide

/-- **C25 is false for names defined otherwise**: the header says a name already defined is
changed, but only names handed out earlier are known. -/
theorem uniqueName_ignores_definitions :
    (((Table.empty : Table Nat).defineSymbol "a".toList (.message 1) .schema 0).getUniqueName
      "a".toList).2 = "a".toList := by
  decide

/-- Non-vacuity of C25. -/
example : issued [] ["read".toList, "join".toList, "read".toList, "read".toList] =
    ["read".toList, "join".toList, "read2".toList, "read3".toList] := by decide

/-! ## C26 -/

/-- **C26, the part that holds** (`_partial`: no symbol attached twice): the symbols attached
to a location have the indices 0, 1, 2, ... in the order of attachment, and all other symbols
have none. -/
theorem parentIndex_partial (ops : List (Op β)) (t : Table β) (g : Log β)
    (ht : (Table.empty : Table β).runAll ops = .ok t) (hg : (Log.empty : Log β).steps ops = some g)
    (hnd : (g.parents.map (·.1)).Nodup) :
    (∀ pre j loc post, g.parents = pre ++ (j, loc) :: post →
      ∃ s, t.symbols[j]? = some s ∧ s.parentQueryLocation = loc ∧
        s.parentQueryIndex = (((pre.map (·.2)).count loc : Nat) : Int)) ∧
    (∀ j s, j ∉ g.parents.map (·.1) → t.symbols[j]? = some s →
      s.parentQueryLocation = Location.unknown ∧ s.parentQueryIndex = -1) := by
  have := runAll_inv ops (inv_empty (β := β)) ⟨by simp [Log.empty], by simp [Log.empty], by simp [Log.empty]⟩
  rw [hg] at this
  obtain ⟨t', ht', hi, hr, hd⟩ := this
  rw [ht] at ht'; injection ht' with e; subst e
  have dense := hd ⟨by simp [Log.empty], by simp [Table.empty]⟩ hnd
  constructor
  · intro pre j loc post hp
    have hlt : j < t.symbols.length := by
      rw [defs_length hi]; exact hr.2.2 (j, loc) (by rw [hp]; simp)
    have hj : t.symbols[j]? = some t.symbols[j] := List.getElem?_eq_getElem hlt
    refine ⟨_, hj, ?_, dense.attached pre j loc post hp _ hj⟩
    have := hi.shows.parent j _ hj
    rw [last_of_nodup hnd hp] at this
    exact this
  · intro j s hj hs
    refine ⟨?_, dense.free j hj s hs⟩
    have := hi.shows.parent j s hs
    cases hl : last g.parents j with
    | none => rw [hl] at this; exact this
    | some loc => exact absurd (List.mem_map.mpr ⟨_, last_some_mem hl, rfl⟩) hj

theorem filter_nth {l : List (Nat × Location)} {loc : Location} {n j : Nat}
    (h : ((l.filter fun e => e.2 = loc).map (·.1))[n]? = some j) :
    ∃ pre post, l = pre ++ (j, loc) :: post ∧ (pre.map (·.2)).count loc = n := by
  induction l generalizing n with
  | nil => simp at h
  | cons x l ih =>
    rw [List.filter_cons] at h
    by_cases hx : x.2 = loc
    · simp only [hx, decide_true, if_true, List.map_cons] at h
      cases n with
      | zero =>
        simp only [List.getElem?_cons_zero, Option.some.injEq] at h
        refine ⟨[], l, ?_, by simp⟩
        rw [← h, ← hx]; rfl
      | succ n =>
        rw [List.getElem?_cons_succ] at h
        obtain ⟨pre, post, rfl, hc⟩ := ih h
        refine ⟨x :: pre, post, rfl, ?_⟩
        simp [hx, hc]
    · simp only [hx, decide_false, Bool.false_eq_true, if_false] at h
      obtain ⟨pre, post, rfl, hc⟩ := ih h
      refine ⟨x :: pre, post, rfl, ?_⟩
      have : ¬ (x.2 == loc) = true := by simpa using hx
      simp [List.count_cons, this, hc]

/-- **C26, location and index identify the symbol** (`_partial`: no symbol attached twice):
looking up index `n` at a location gives the `n`-th symbol attached there, if it has the
wanted type, and nothing otherwise. -/
theorem lookupByParent_partial (ops : List (Op β)) (t : Table β) (g : Log β)
    (ht : (Table.empty : Table β).runAll ops = .ok t) (hg : (Log.empty : Log β).steps ops = some g)
    (hnd : (g.parents.map (·.1)).Nodup) (loc : Location) (n : Nat) (type : SymbolType) :
    t.lookupSymbolByParentQueryAndType loc n type =
      ((((g.parents.filter fun e => e.2 = loc).map (·.1))[n]?).bind fun j => t.symbols[j]?).filter
        fun s => s.type = type := by
  obtain ⟨hatt, hfree⟩ := parentIndex_partial ops t g ht hg hnd
  -- a symbol with this location and index is the `n`-th attached one
  have only : ∀ j s, t.symbols[j]? = some s → s.parentQueryLocation = loc →
      s.parentQueryIndex = (n : Int) → ((g.parents.filter fun e => e.2 = loc).map (·.1))[n]? = some j := by
    intro j s hj hl hn
    by_cases hm : j ∈ g.parents.map (·.1)
    · obtain ⟨⟨j', loc'⟩, hme, rfl⟩ := List.mem_map.mp hm
      obtain ⟨pre, post, hpp⟩ := List.append_of_mem hme
      obtain ⟨s', hs', hl', hi'⟩ := hatt pre j' loc' post hpp
      rw [hj] at hs'; injection hs' with e; subst e
      rw [hl] at hl'; subst hl'
      have hcount : (pre.map (·.2)).count loc = n := by omega
      rw [hpp, List.filter_append, List.filter_cons]
      simp only [decide_true, if_true, List.map_append, List.map_cons]
      have hlen : ((pre.filter fun e => e.2 = loc).map (·.1)).length = n := by
        rw [List.length_map, ← hcount, List.count, List.countP_map, List.countP_eq_length_filter]
        congr 2
      rw [List.getElem?_append_right (by omega), hlen]
      simp
    · have := (hfree j s hm hj).2; omega
  unfold Table.lookupSymbolByParentQueryAndType
  cases hnth : ((g.parents.filter fun e => e.2 = loc).map (·.1))[n]? with
  | none =>
    simp only [Option.bind_none, Option.filter_none]
    rw [List.find?_eq_none]
    intro s hs
    obtain ⟨j, hj⟩ := List.mem_iff_getElem?.mp hs
    simp only [Bool.and_eq_true, Location.eq_iff, beq_iff_eq]
    rintro ⟨⟨h1, h2⟩, _⟩
    rw [only j s hj h1 h2] at hnth
    cases hnth
  | some j =>
    obtain ⟨pre, post, hpp, hc⟩ := filter_nth hnth
    obtain ⟨s, hs, hl, hi⟩ := hatt pre j loc post hpp
    simp only [Option.bind_some, hs]
    by_cases hty : s.type = type
    · simp only [Option.filter_some, hty, decide_true, if_true]
      cases hf : t.symbols.find? fun s => s.parentQueryLocation.eq loc && s.parentQueryIndex == (n : Int) &&
          s.type == type with
      | none =>
        rw [List.find?_eq_none] at hf
        have := hf s (List.mem_iff_getElem?.mpr ⟨j, hs⟩)
        simp [Location.eq_iff, hl, hi, hc, hty] at this
      | some s' =>
        have h1 := List.find?_some hf
        have h2 := List.mem_of_find?_eq_some hf
        obtain ⟨j', hj'⟩ := List.mem_iff_getElem?.mp h2
        simp only [Bool.and_eq_true, Location.eq_iff, beq_iff_eq] at h1
        have := only j' s' hj' h1.1.1 h1.1.2
        rw [hnth] at this
        injection this with e
        subst e
        rw [hs] at hj'; exact hj'.symm
    · simp only [Option.filter_some, hty, decide_false, Bool.false_eq_true, if_false]
      rw [List.find?_eq_none]
      intro s' hs'
      obtain ⟨j', hj'⟩ := List.mem_iff_getElem?.mp hs'
      simp only [Bool.and_eq_true, Location.eq_iff, beq_iff_eq]
      rintro ⟨⟨h1, h2⟩, h3⟩
      have := only j' s' hj' h1 h2
      rw [hnth] at this
      injection this with e
      subst e
      rw [hs] at hj'
      injection hj' with e
      subst e
      exact hty h3

/-- **C26 is false if a symbol is attached twice**: attached to the same location again it
gets index 1 although it is the only one there; moved from elsewhere it keeps counting from
its old index. -/
theorem parentIndex_twice :
    let k : Key := ⟨"a".toList, .message 1, .relation⟩
    let indices (ops : List (Op Nat)) := ((Table.empty : Table Nat).runAll
      (.define "a".toList (.message 1) .relation 0 :: ops)).map fun t =>
        t.symbols.map (·.parentQueryIndex)
    indices [.parent k (.message 7), .parent k (.message 7)] = .ok [1] ∧
    indices [.parent k (.message 7), .parent k (.message 8)] = .ok [1] := by
  decide

/-- Non-vacuity of C26: two subqueries at one place, one at another. -/
example :
    let k (n : Nat) : Key := ⟨natText n, .message n, .relation⟩
    ∃ t g, (Table.empty : Table Nat).runAll [.define (natText 1) (.message 1) .relation 0,
        .define (natText 2) (.message 2) .relation 0, .define (natText 3) (.message 3) .relation 0,
        .parent (k 3) (.message 9), .parent (k 1) (.message 8), .parent (k 2) (.message 9)] = .ok t ∧
      (Log.empty : Log Nat).steps [.define (natText 1) (.message 1) .relation 0,
        .define (natText 2) (.message 2) .relation 0, .define (natText 3) (.message 3) .relation 0,
        .parent (k 3) (.message 9), .parent (k 1) (.message 8), .parent (k 2) (.message 9)] = some g ∧
      (g.parents.map (·.1)).Nodup ∧ t.symbols.map (·.parentQueryIndex) = [0, 1, 0] := by
  refine ⟨_, _, rfl, rfl, ?_, ?_⟩ <;> decide

/-! ## C27 -/

/-- **C27, the part that holds** (`_partial`: not for roots, tables and measures). -/
theorem symbolTypeName_partial :
    symbolTypeName .extensionSpace = .ok "kExtensionSpace".toList ∧
    symbolTypeName .function = .ok "kFunction".toList ∧
    symbolTypeName .planRelation = .ok "kPlanRelation".toList ∧
    symbolTypeName .relation = .ok "kRelation".toList ∧
    symbolTypeName .schema = .ok "kSchema".toList ∧
    symbolTypeName .schemaColumn = .ok "kSchemaColumn".toList ∧
    symbolTypeName .source = .ok "kSource".toList ∧
    symbolTypeName .sourceDetail = .ok "kSourceDetail".toList ∧
    symbolTypeName .field = .ok "kField".toList ∧
    symbolTypeName .unknown = .ok "kUnknown".toList := by decide

/-- **C27 is false**: for a root the table of names is read behind its end, for tables and
measures an exception is thrown.  These are the only failures. -/
theorem symbolTypeName_fails (t : SymbolType) :
    (symbolTypeName t = .ub ↔ t = .root) ∧
    (symbolTypeName t = .throw .fail ↔ t = .table ∨ t = .measure) := by
  cases t <;> decide

end Verif.Sym

namespace Verif.Err

open Verif

/-! ## C29 -/

/-- One report to a listener. -/
inductive Report where
  | located (line column : Nat) (msg : Str)
  | plain (msg : Str)

/-- A listener after a list of reports. -/
def record (l : Listener) : List Report → Listener
  | [] => l
  | .located line col msg :: rs => record (addError l line col msg) rs
  | .plain msg :: rs => record (addErrorNoLocation l msg) rs

/-- What a report should look like. -/
def Report.text : Report → Str
  | .located line col msg => natText line ++ ":".toList ++ natText col ++ " → ".toList ++ msg
  | .plain msg => msg

/-- A real position in a file. -/
def Report.Real : Report → Prop
  | .located line col _ => line < npos ∧ col < npos
  | .plain _ => True

/-- **C29, messages.**  The messages are the reports, in order, each once, with line and
column. -/
theorem messages_eq (rs : List Report) (h : ∀ r ∈ rs, r.Real) :
    getErrorMessages (record [] rs) = rs.map Report.text := by
  have key : ∀ (rs : List Report) (l : Listener), (∀ r ∈ rs, r.Real) →
      getErrorMessages (record l rs) = getErrorMessages l ++ rs.map Report.text := by
    intro rs
    induction rs with
    | nil => intro l _; simp [record]
    | cons r rs ih =>
      intro l h
      have hr := h r (by simp)
      have ht := fun r' (hr' : r' ∈ rs) => h r' (by simp [hr'])
      cases r with
      | located line col msg =>
        simp only [record, ih _ ht, List.map_cons]
        simp only [addError, getErrorMessages, List.map_append, List.map_cons, List.map_nil,
          List.append_assoc, List.singleton_append]
        congr 2
        obtain ⟨h1, h2⟩ := hr
        unfold Instance.text
        rw [if_neg (by dsimp only; omega)]
        rfl
      | plain msg =>
        simp only [record, ih _ ht, List.map_cons]
        simp only [addErrorNoLocation, addError, getErrorMessages, List.map_append, List.map_cons,
          List.map_nil, List.append_assoc, List.singleton_append]
        congr 2
  simpa [getErrorMessages] using key rs [] h

/-- **C29, success and completeness.**  A result is successful iff nothing was reported; all
errors are listed once, syntax errors first, each kind in the order reported. -/
theorem result_eq (syn sem : List Report) (h1 : ∀ r ∈ syn, r.Real) (h2 : ∀ r ∈ sem, r.Real) :
    let r := ParseResult.ofListeners (record [] syn) (record [] sem)
    (r.successful = true ↔ syn = [] ∧ sem = []) ∧
    r.getAllErrors = syn.map Report.text ++ sem.map Report.text ∧
    (r.successful = true ↔ r.getAllErrors = []) := by
  simp only [ParseResult.ofListeners, ParseResult.successful, ParseResult.getAllErrors,
    messages_eq syn h1, messages_eq sem h2]
  simp

/-- **C29, adding errors afterwards**: they come behind the syntax errors and before the
semantic ones; the result is no success any more. -/
theorem addErrors_eq (r : ParseResult) (es : List Str) :
    (r.addErrors es).getAllErrors = r.syntaxErrors ++ es ++ r.semanticErrors ∧
    ((r.addErrors es).successful = true ↔ r.successful = true ∧ es = []) := by
  refine ⟨rfl, ?_⟩
  simp only [ParseResult.addErrors, ParseResult.successful, Bool.and_eq_true,
    List.isEmpty_iff, List.append_eq_nil_iff]
  constructor
  · rintro ⟨⟨a, b⟩, c⟩; exact ⟨⟨a, c⟩, b⟩
  · rintro ⟨⟨a, c⟩, b⟩; exact ⟨⟨a, b⟩, c⟩

/-- A listener has errors iff something was reported. -/
theorem hasErrors_iff (rs : List Report) : hasErrors (record [] rs) = true ↔ rs ≠ [] := by
  have len : ∀ (rs : List Report) (l : Listener), (record l rs).length = l.length + rs.length := by
    intro rs
    induction rs with
    | nil => intro l; rfl
    | cons r rs ih =>
      intro l
      cases r <;> simp [record, ih, addErrorNoLocation, addError] <;> omega
  have := len rs []
  unfold hasErrors
  cases hr : record [] rs with
  | nil => rw [hr] at this; cases rs <;> simp_all
  | cons x xs => rw [hr] at this; cases rs <;> simp_all

/-- Non-vacuity of C29. -/
example : (ParseResult.ofListeners (record [] [.located 3 14 "bad".toList]) []).getAllErrors =
    ["3:14 → bad".toList] := by decide

end Verif.Err
