import Verif.Lemmas.SymbolTable

/-! The table follows the log, call by call. -/

namespace Verif.Sym

open Verif

variable {β : Type}

/-- The invariant of the refinement. -/
structure Inv (t : Table β) (g : Log β) : Prop where
  shows : Shows t g
  sorted : Sorted t.byLocation
  counts : ∀ base, mapFind t.names base =
    if g.requests.count base = 0 then none else some (g.requests.count base)

theorem inv_empty : Inv (Table.empty : Table β) Log.empty where
  shows := by
    constructor <;> intros <;> first | rfl | simp_all [Table.empty, Log.empty]
  sorted := by simp [Table.empty, Sorted]
  counts := by intro b; rfl

theorem unique_of_counts {t : Table β} {requests : List Str} {base : Str}
    (h : mapFind t.names base =
      if requests.count base = 0 then none else some (requests.count base)) :
    (t.getUniqueName base).2 = uniqueText base (requests.count base) := by
  unfold Table.getUniqueName uniqueText
  rw [h]
  by_cases h0 : requests.count base = 0
  · rw [if_pos h0, if_pos h0]
  · rw [if_neg h0, if_neg h0]

theorem counts_step {t : Table β} {g : Log β} (h : Inv t g) (base b : Str) :
    mapFind (t.getUniqueName base).1.names b =
      if (g.requests ++ [base]).count b = 0 then none
      else some ((g.requests ++ [base]).count b) := by
  have hc := h.counts base
  have hb := h.counts b
  rw [List.count_append, List.count_singleton]
  unfold Table.getUniqueName
  by_cases h0 : g.requests.count base = 0
  · rw [if_pos h0] at hc
    rw [hc]
    dsimp only
    rw [mapFind_insert, hc]
    by_cases e : b = base
    · subst e
      simp [h0]
    · have : (base == b) = false := by simpa using fun h => e h.symm
      rw [if_neg e, hb, this]
      simp
  · rw [if_neg h0] at hc
    rw [hc]
    dsimp only
    rw [mapFind_set _ _ _ _ (by rw [hc]; rfl)]
    by_cases e : b = base
    · subst e
      simp
    · have : (base == b) = false := by simpa using fun h => e h.symm
      rw [if_neg e, hb, this]
      simp

theorem inv_unique {t : Table β} {g : Log β} (h : Inv t g) (base : Str) :
    Inv (t.getUniqueName base).1 { g with requests := g.requests ++ [base] } := by
  have hs : (t.getUniqueName base).1.symbols = t.symbols := by
    unfold Table.getUniqueName; split <;> rfl
  have hn : (t.getUniqueName base).1.byName = t.byName := by
    unfold Table.getUniqueName; split <;> rfl
  have hl : (t.getUniqueName base).1.byLocation = t.byLocation := by
    unfold Table.getUniqueName; split <;> rfl
  refine ⟨⟨?_, ?_, ?_, ?_, ?_, ?_, ?_⟩, ?_, counts_step h base⟩
  · rw [hs]; exact h.shows.symbols
  · intro n; unfold Table.lookupIndexByName; rw [hn]; exact h.shows.byName n
  · intro l; unfold Table.lookupIndicesByLocation; rw [hl]; exact h.shows.byLocation l
  · intro b; exact unique_of_counts (counts_step h base b)
  · rw [hs]; exact h.shows.alias
  · rw [hs]; exact h.shows.permanent
  · rw [hs]; exact h.shows.parent
  · rw [hl]; exact h.sorted

/-- Events only name symbols that exist. -/
def InRange (g : Log β) : Prop :=
  (∀ e ∈ g.aliases, e.1 < g.defs.length) ∧ (∀ e ∈ g.permanents, e.1 < g.defs.length) ∧
  (∀ e ∈ g.parents, e.1 < g.defs.length)

theorem last_none {α : Type} (l : List (Nat × α)) (n : Nat) (h : ∀ e ∈ l, e.1 < n) :
    last l n = none := by
  unfold last first
  rw [Option.map_eq_none_iff, List.find?_eq_none]
  intro e he
  have := h e (List.mem_reverse.mp he)
  simp; omega

theorem defs_length {t : Table β} {g : Log β} (h : Inv t g) : t.symbols.length = g.defs.length := by
  rw [← h.shows.symbols, List.length_map]

theorem inv_define {t : Table β} {g : Log β} (h : Inv t g) (hr : InRange g) (n : Str) (l : Location)
    (ty : SymbolType) (p : β) : Inv (t.defineSymbol n l ty p) (g.addDef n l ty p) := by
  have hlen := defs_length h
  have hlen2 : ∀ x : Symbol β, (t.symbols ++ [x]).length - 1 = g.defs.length := by
    intro x; simp [hlen]
  refine ⟨⟨?_, ?_, ?_, ?_, ?_, ?_, ?_⟩, ?_, h.counts⟩
  · simp only [Table.defineSymbol, Log.addDef, List.map_append, List.map_cons, List.map_nil]
    rw [h.shows.symbols]; rfl
  · intro m
    simp only [Table.lookupIndexByName, Table.defineSymbol, Log.addDef, hlen2]
    rw [mapFind_insert, first_append]
    have := h.shows.byName
    unfold Table.lookupIndexByName at this
    rw [this, this]
  · intro m
    simp only [Table.lookupIndicesByLocation, Table.defineSymbol, Log.addDef, hlen2]
    rw [multiRange_insert h.sorted, every_append]
    have := h.shows.byLocation m
    unfold Table.lookupIndicesByLocation at this
    rw [this]
  · intro b; exact unique_of_counts (h.counts b)
  · intro i s hi
    simp only [Table.defineSymbol] at hi
    rcases getElem?_concat _ _ _ _ hi with hi | ⟨hi2, rfl⟩
    · exact h.shows.alias i s hi
    · rw [hi2, hlen]
      show _ = (last g.aliases _).getD _
      rw [last_none _ _ hr.1]; rfl
  · intro i s hi
    simp only [Table.defineSymbol] at hi
    rcases getElem?_concat _ _ _ _ hi with hi | ⟨hi2, rfl⟩
    · exact h.shows.permanent i s hi
    · rw [hi2, hlen]
      show _ = (last g.permanents _).getD _
      rw [last_none _ _ hr.2.1]; rfl
  · intro i s hi
    simp only [Table.defineSymbol] at hi
    rcases getElem?_concat _ _ _ _ hi with hi | ⟨hi2, rfl⟩
    · exact h.shows.parent i s hi
    · rw [hi2, hlen]
      show _ = (last g.parents _).getD _
      rw [last_none _ _ hr.2.2]; rfl
  · exact sorted_multiInsert h.sorted _ _

theorem inRange_step {g g' : Log β} {op : Op β} (hr : InRange g) (h : g.step op = some g') :
    InRange g' := by
  obtain ⟨h1, h2, h3⟩ := hr
  have lift : ∀ {α : Type} {l : List (Nat × α)}, (∀ e ∈ l, e.1 < g.defs.length) →
      ∀ x, ∀ e ∈ l, e.1 < (g.defs ++ [x]).length := by
    intro α l hl x e he; have := hl e he; simp; omega
  have idx : ∀ {k i}, g.index? k = some i → i < g.defs.length := by
    intro k i hi; unfold Log.index? at hi
    exact (List.findIdx?_eq_some_iff_findIdx_eq.mp hi).1
  have snoc : ∀ {α : Type} {l : List (Nat × α)} {i : Nat} {a : α}, (∀ e ∈ l, e.1 < g.defs.length) →
      i < g.defs.length → ∀ e ∈ l ++ [(i, a)], e.1 < g.defs.length := by
    intro α l i a hl hi e he
    rcases List.mem_append.mp he with he | he
    · exact hl e he
    · simp at he; rw [he]; exact hi
  cases op with
  | uniqueName b => simp only [Log.step, Option.some.injEq] at h; subst h; exact ⟨h1, h2, h3⟩
  | define n l ty p =>
    simp only [Log.step, Option.some.injEq] at h; subst h
    exact ⟨lift h1 _, lift h2 _, lift h3 _⟩
  | defineUnique n l ty p =>
    simp only [Log.step, Option.some.injEq] at h; subst h
    exact ⟨lift h1 _, lift h2 _, lift h3 _⟩
  | permanent k l =>
    simp only [Log.step, Option.map_eq_some_iff] at h
    obtain ⟨i, hi, rfl⟩ := h
    exact ⟨h1, snoc h2 (idx hi), h3⟩
  | parent k l =>
    simp only [Log.step, Option.map_eq_some_iff] at h
    obtain ⟨i, hi, rfl⟩ := h
    exact ⟨h1, h2, snoc h3 (idx hi)⟩
  | alias a k =>
    simp only [Log.step, Option.map_eq_some_iff] at h
    obtain ⟨i, hi, rfl⟩ := h
    exact ⟨snoc h1 (idx hi), h2, h3⟩

theorem run_ub {t : Table β} {g : Log β} {op : Op β} (h : Inv t g) (hn : g.step op = none) :
    t.run op = .ub := by
  have key : ∀ k, g.index? k = none → ∀ f, t.update (t.findSymbolIndex k) f = .ub := by
    intro k hk f
    rw [(find_index h.shows.symbols k).2 hk]
    unfold Table.update
    rw [if_neg (Nat.lt_irrefl _)]
  cases op with
  | uniqueName b => simp [Log.step] at hn
  | define n l ty p => simp [Log.step] at hn
  | defineUnique n l ty p => simp [Log.step] at hn
  | permanent k l =>
    simp only [Log.step, Option.map_eq_none_iff] at hn
    simp only [Table.run, Table.addPermanentLocation, key k hn, Outcome.map_ub]
  | parent k l =>
    simp only [Log.step, Option.map_eq_none_iff] at hn
    simp only [Table.run, Table.setParentQueryLocation, key k hn, Outcome.bind_ub]
  | alias a k =>
    simp only [Log.step, Option.map_eq_none_iff] at hn
    simp only [Table.run, Table.addAlias, key k hn, Outcome.map_ub]

theorem inv_step {t : Table β} {g g' : Log β} {op : Op β} (h : Inv t g) (hr : InRange g)
    (hs : g.step op = some g') : ∃ t', t.run op = .ok t' ∧ Inv t' g' := by
  cases op with
  | uniqueName b =>
    simp only [Log.step, Option.some.injEq] at hs; subst hs
    exact ⟨_, rfl, inv_unique h b⟩
  | define n l ty p =>
    simp only [Log.step, Option.some.injEq] at hs; subst hs
    exact ⟨_, rfl, inv_define h hr n l ty p⟩
  | defineUnique n l ty p =>
    simp only [Log.step, Option.some.injEq] at hs; subst hs
    refine ⟨_, rfl, ?_⟩
    simp only [Table.defineUniqueSymbol, h.shows.unique n]
    exact inv_define (inv_unique h n) hr _ l ty p
  | permanent k l =>
    simp only [Log.step, Option.map_eq_some_iff] at hs
    obtain ⟨i, hi, rfl⟩ := hs
    obtain ⟨e, hlt⟩ := (find_index h.shows.symbols k).1 i hi
    simp only [Table.run, Table.addPermanentLocation, e, update_ok hlt, Outcome.map_ok]
    refine ⟨_, rfl, ⟨?_, ?_, ?_, ?_, ?_, ?_, ?_⟩, ?_, h.counts⟩
    · dsimp only
      rw [modify_defs]
      · exact h.shows.symbols
      · intro s; rfl
    · exact h.shows.byName
    · intro m
      simp only [Table.lookupIndicesByLocation]
      rw [multiRange_insert h.sorted, every_append]
      have := h.shows.byLocation m
      unfold Table.lookupIndicesByLocation at this
      rw [this]
    · intro b; exact unique_of_counts (h.counts b)
    · intro j s hj
      obtain ⟨s0, h0, rfl⟩ := getElem?_modify' _ _ _ _ _ hj
      rw [← h.shows.alias j s0 h0]; split <;> rfl
    · intro j s hj
      obtain ⟨s0, h0, rfl⟩ := getElem?_modify' _ _ _ _ _ hj
      rw [last_append]
      split
      · rfl
      · exact h.shows.permanent j s0 h0
    · intro j s hj
      obtain ⟨s0, h0, rfl⟩ := getElem?_modify' _ _ _ _ _ hj
      rw [← h.shows.parent j s0 h0]; split <;> rfl
    · exact sorted_multiInsert h.sorted _ _
  | parent k l =>
    simp only [Log.step, Option.map_eq_some_iff] at hs
    obtain ⟨i, hi, rfl⟩ := hs
    obtain ⟨e, hlt⟩ := (find_index h.shows.symbols k).1 i hi
    simp only [Table.run, Table.setParentQueryLocation, e, update_ok hlt, Outcome.bind_ok]
    rw [update_ok (by simpa using hlt)]
    refine ⟨_, rfl, ⟨?_, ?_, ?_, ?_, ?_, ?_, ?_⟩, ?_, h.counts⟩
    · dsimp only
      rw [modify_defs, modify_defs]
      · exact h.shows.symbols
      · intro s; rfl
      · intro s; rfl
    · exact h.shows.byName
    · exact h.shows.byLocation
    · intro b; exact unique_of_counts (h.counts b)
    · intro j s hj
      obtain ⟨s1, h1, rfl⟩ := getElem?_modify' _ _ _ _ _ hj
      obtain ⟨s0, h0, rfl⟩ := getElem?_modify' _ _ _ _ _ h1
      rw [← h.shows.alias j s0 h0]; split <;> rfl
    · intro j s hj
      obtain ⟨s1, h1, rfl⟩ := getElem?_modify' _ _ _ _ _ hj
      obtain ⟨s0, h0, rfl⟩ := getElem?_modify' _ _ _ _ _ h1
      rw [← h.shows.permanent j s0 h0]; split <;> rfl
    · intro j s hj
      obtain ⟨s1, h1, rfl⟩ := getElem?_modify' _ _ _ _ _ hj
      obtain ⟨s0, h0, rfl⟩ := getElem?_modify' _ _ _ _ _ h1
      rw [last_append]
      split
      · rfl
      · exact h.shows.parent j s0 h0
    · exact h.sorted
  | alias a k =>
    simp only [Log.step, Option.map_eq_some_iff] at hs
    obtain ⟨i, hi, rfl⟩ := hs
    obtain ⟨e, hlt⟩ := (find_index h.shows.symbols k).1 i hi
    simp only [Table.run, Table.addAlias, e, update_ok hlt, Outcome.map_ok]
    refine ⟨_, rfl, ⟨?_, ?_, ?_, ?_, ?_, ?_, ?_⟩, ?_, h.counts⟩
    · dsimp only
      rw [modify_defs]
      · exact h.shows.symbols
      · intro s; rfl
    · intro m
      simp only [Table.lookupIndexByName]
      rw [mapFind_insert, first_append]
      have := h.shows.byName
      unfold Table.lookupIndexByName at this
      rw [this, this]
    · exact h.shows.byLocation
    · intro b; exact unique_of_counts (h.counts b)
    · intro j s hj
      obtain ⟨s0, h0, rfl⟩ := getElem?_modify' _ _ _ _ _ hj
      rw [last_append]
      split
      · rfl
      · exact h.shows.alias j s0 h0
    · intro j s hj
      obtain ⟨s0, h0, rfl⟩ := getElem?_modify' _ _ _ _ _ hj
      rw [← h.shows.permanent j s0 h0]; split <;> rfl
    · intro j s hj
      obtain ⟨s0, h0, rfl⟩ := getElem?_modify' _ _ _ _ _ hj
      rw [← h.shows.parent j s0 h0]; split <;> rfl
    · exact h.sorted

/-! ### Subquery indices -/

theorem highest_spec (l : List (Symbol β)) (loc : Location) (a : Int) :
    let r := l.foldl (fun high s =>
      if s.parentQueryLocation.eq loc then
        if s.parentQueryIndex > high then s.parentQueryIndex else high
      else high) a
    a ≤ r ∧ (∀ s ∈ l, s.parentQueryLocation = loc → s.parentQueryIndex ≤ r) ∧
      (r = a ∨ ∃ s ∈ l, s.parentQueryLocation = loc ∧ s.parentQueryIndex = r) := by
  induction l generalizing a with
  | nil => simp
  | cons s l ih =>
    simp only [List.foldl_cons]
    have key := ih (if s.parentQueryLocation.eq loc then
        if s.parentQueryIndex > a then s.parentQueryIndex else a else a)
    dsimp only at key ⊢
    obtain ⟨h1, h2, h3⟩ := key
    by_cases hl : s.parentQueryLocation = loc
    · have he : s.parentQueryLocation.eq loc = true := (Location.eq_iff _ _).mpr hl
      simp only [he, if_true] at h1 h2 h3 ⊢
      by_cases hi : s.parentQueryIndex > a
      · simp only [hi, if_true] at h1 h2 h3 ⊢
        refine ⟨by omega, ?_, ?_⟩
        · intro x hx hxl
          rcases List.mem_cons.mp hx with rfl | hx
          · exact h1
          · exact h2 x hx hxl
        · right
          rcases h3 with h3 | ⟨x, hx, hxl, hxi⟩
          · exact ⟨s, by simp, hl, h3.symm⟩
          · exact ⟨x, by simp [hx], hxl, hxi⟩
      · simp only [hi, if_false] at h1 h2 h3 ⊢
        refine ⟨h1, ?_, ?_⟩
        · intro x hx hxl
          rcases List.mem_cons.mp hx with rfl | hx
          · omega
          · exact h2 x hx hxl
        · rcases h3 with h3 | ⟨x, hx, hxl, hxi⟩
          · exact Or.inl h3
          · exact Or.inr ⟨x, by simp [hx], hxl, hxi⟩
    · have he : s.parentQueryLocation.eq loc = false := by
        rw [← Bool.not_eq_true, Location.eq_iff]; exact hl
      simp only [he, Bool.false_eq_true, if_false] at h1 h2 h3 ⊢
      refine ⟨h1, ?_, ?_⟩
      · intro x hx hxl
        rcases List.mem_cons.mp hx with rfl | hx
        · exact absurd hxl hl
        · exact h2 x hx hxl
      · rcases h3 with h3 | ⟨x, hx, hxl, hxi⟩
        · exact Or.inl h3
        · exact Or.inr ⟨x, by simp [hx], hxl, hxi⟩

/-- The index given to every symbol when no symbol is attached twice. -/
structure Dense (t : Table β) (parents : List (Nat × Location)) : Prop where
  attached : ∀ pre j loc post, parents = pre ++ (j, loc) :: post → ∀ s, t.symbols[j]? = some s →
    s.parentQueryIndex = (((pre.map (·.2)).count loc : Nat) : Int)
  free : ∀ j, j ∉ parents.map (·.1) → ∀ s, t.symbols[j]? = some s → s.parentQueryIndex = -1

theorem last_of_nodup {parents pre post : List (Nat × Location)} {j : Nat} {loc : Location}
    (hnd : (parents.map (·.1)).Nodup) (h : parents = pre ++ (j, loc) :: post) :
    last parents j = some loc := by
  subst h
  unfold last first
  rw [List.reverse_append, List.reverse_cons, List.append_assoc, List.find?_append]
  have hpost : List.find? (fun e => e.1 == j) post.reverse = none := by
    rw [List.find?_eq_none]
    intro e he
    rw [List.map_append, List.map_cons, List.nodup_append] at hnd
    have := (List.nodup_cons.mp hnd.2.1).1
    have hm : e.1 ∈ post.map (·.1) := List.mem_map.mpr ⟨e, List.mem_reverse.mp he, rfl⟩
    simp only [beq_iff_eq]
    rintro rfl
    exact this hm
  rw [hpost]
  simp

theorem last_some_mem {l : List (Nat × Location)} {j : Nat} {loc : Location}
    (h : last l j = some loc) : (j, loc) ∈ l := by
  unfold last first at h
  rw [Option.map_eq_some_iff] at h
  obtain ⟨e, he, hl⟩ := h
  have h1 := List.find?_some he
  have h2 := List.mem_of_find?_eq_some he
  simp only [beq_iff_eq] at h1
  rw [← h1, ← hl]
  exact List.mem_reverse.mp h2

theorem count_split {l : List Location} {loc : Location} (h : 0 < l.count loc) :
    ∃ a b, l = a ++ loc :: b ∧ b.count loc = 0 := by
  induction l with
  | nil => simp at h
  | cons x xs ih =>
    by_cases hx : 0 < xs.count loc
    · obtain ⟨a, b, rfl, hb⟩ := ih hx
      exact ⟨x :: a, b, rfl, hb⟩
    · have : xs.count loc = 0 := by omega
      rw [List.count_cons, this] at h
      by_cases e : x = loc
      · subst e; exact ⟨[], xs, rfl, this⟩
      · have : (x == loc) = false := by simpa using e
        rw [this] at h; simp at h

theorem highest_eq {t : Table β} {g : Log β} (h : Inv t g) (hr : InRange g)
    (hd : Dense t g.parents) (hnd : (g.parents.map (·.1)).Nodup) {i : Nat} {l : Location}
    (hi : i ∉ g.parents.map (·.1)) (hlt : i < t.symbols.length) :
    highestIndex (t.symbols.modify i fun s => { s with parentQueryLocation := l }) l + 1 =
      (((g.parents.map (·.2)).count l : Nat) : Int) := by
  unfold highestIndex
  have spec := highest_spec (t.symbols.modify i fun s => { s with parentQueryLocation := l }) l (-1)
  dsimp only at spec
  generalize hR : List.foldl (fun high (s : Symbol β) =>
      if s.parentQueryLocation.eq l then
        if s.parentQueryIndex > high then s.parentQueryIndex else high
      else high) (-1) (t.symbols.modify i fun s => { s with parentQueryLocation := l }) = r at *
  obtain ⟨h1, h2, h3⟩ := spec
  -- what the symbols of the changed table look like
  have look : ∀ s ∈ t.symbols.modify i (fun s => { s with parentQueryLocation := l }),
      s.parentQueryLocation = l → s.parentQueryIndex = -1 ∨
      ∃ pre j post, g.parents = pre ++ (j, l) :: post ∧
        s.parentQueryIndex = (((pre.map (·.2)).count l : Nat) : Int) := by
    intro s hs hsl
    obtain ⟨j, hj⟩ := List.mem_iff_getElem?.mp hs
    obtain ⟨s0, h0, rfl⟩ := getElem?_modify' _ _ _ _ _ hj
    by_cases e : j = i
    · subst e
      left
      rw [if_pos rfl]
      exact hd.free j hi s0 h0
    · rw [if_neg e] at hsl ⊢
      by_cases hm : j ∈ g.parents.map (·.1)
      · right
        obtain ⟨⟨j', loc'⟩, hme, rfl⟩ := List.mem_map.mp hm
        obtain ⟨pre, post, hpp⟩ := List.append_of_mem hme
        have hl := last_of_nodup hnd hpp
        have := h.shows.parent j' s0 h0
        rw [hl, Option.getD_some, hsl] at this
        subst this
        exact ⟨pre, j', post, hpp, hd.attached _ _ _ _ hpp s0 h0⟩
      · left; exact hd.free j hm s0 h0
  have upper : r + 1 ≤ (((g.parents.map (·.2)).count l : Nat) : Int) := by
    rcases h3 with h3 | ⟨s, hs, hsl, hsi⟩
    · omega
    · rcases look s hs hsl with e | ⟨pre, j, post, hpp, e⟩
      · omega
      · rw [hpp, List.map_append, List.map_cons, List.count_append, List.count_cons_self]
        omega
  have lower : (((g.parents.map (·.2)).count l : Nat) : Int) ≤ r + 1 := by
    by_cases hc : 0 < (g.parents.map (·.2)).count l
    · obtain ⟨a, b, hab, hb⟩ := count_split hc
      obtain ⟨pre, rest, hpr, hpa, hrb⟩ := List.map_eq_append_iff.mp hab
      obtain ⟨⟨j, loc⟩, post, hrest, hloc, hpost⟩ := List.map_eq_cons_iff.mp hrb
      simp only at hloc
      subst hloc
      subst hrest
      have hjr : j < t.symbols.length := by
        rw [defs_length h]; exact hr.2.2 (j, loc) (by rw [hpr]; simp)
      have hji : j ≠ i := by
        rintro rfl
        exact hi (by rw [hpr]; simp)
      have hgj : t.symbols[j]? = some t.symbols[j] := List.getElem?_eq_getElem hjr
      have hidx := hd.attached pre j loc post hpr _ hgj
      have hpl := h.shows.parent j _ hgj
      rw [last_of_nodup hnd hpr] at hpl
      have hm : t.symbols[j] ∈ t.symbols.modify i (fun s => { s with parentQueryLocation := loc }) := by
        apply List.mem_iff_getElem?.mpr
        refine ⟨j, ?_⟩
        rw [List.getElem?_modify, hgj]
        simp [hji.symm]
      have := h2 _ hm hpl
      rw [hpr, List.map_append, List.map_cons, List.count_append, List.count_cons_self, hpost, hb]
      omega
    · omega
  omega

theorem dense_step {t t' : Table β} {g g' : Log β} {op : Op β} (h : Inv t g) (hr : InRange g)
    (hd : Dense t g.parents) (hs : g.step op = some g') (ht : t.run op = .ok t')
    (hnd : (g'.parents.map (·.1)).Nodup) : Dense t' g'.parents := by
  have hdef : ∀ n l ty p, Dense (t.defineSymbol n l ty p) g.parents := by
    intro n l ty p
    constructor
    · intro pre j loc post hp s hj
      rcases getElem?_concat _ _ _ _ hj with hj | ⟨hj, _⟩
      · exact hd.attached pre j loc post hp s hj
      · have := hr.2.2 (j, loc) (by rw [hp]; simp)
        rw [hj, defs_length h] at this
        exact absurd this (Nat.lt_irrefl _)
    · intro j hj s hjs
      rcases getElem?_concat _ _ _ _ hjs with hjs | ⟨_, rfl⟩
      · exact hd.free j hj s hjs
      · rfl
  have hmod : ∀ (f : Symbol β → Symbol β) i, (∀ s, (f s).parentQueryIndex = s.parentQueryIndex) →
      ∀ t' : Table β, t'.symbols = t.symbols.modify i f → Dense t' g.parents := by
    intro f i hf t' ht'
    constructor
    · intro pre j loc post hp s hj
      rw [ht'] at hj
      obtain ⟨s0, h0, rfl⟩ := getElem?_modify' _ _ _ _ _ hj
      rw [← hd.attached pre j loc post hp s0 h0]; split
      · exact hf s0
      · rfl
    · intro j hjn s hj
      rw [ht'] at hj
      obtain ⟨s0, h0, rfl⟩ := getElem?_modify' _ _ _ _ _ hj
      rw [← hd.free j hjn s0 h0]; split
      · exact hf s0
      · rfl
  cases op with
  | uniqueName b =>
    simp only [Log.step, Option.some.injEq] at hs; subst hs
    simp only [Table.run, Outcome.ok.injEq] at ht; subst ht
    have hsym : (t.getUniqueName b).1.symbols = t.symbols := by
      unfold Table.getUniqueName; split <;> rfl
    exact ⟨by rw [hsym]; exact hd.attached, by rw [hsym]; exact hd.free⟩
  | define n l ty p =>
    simp only [Log.step, Option.some.injEq] at hs; subst hs
    simp only [Table.run, Outcome.ok.injEq] at ht; subst ht
    exact hdef n l ty p
  | defineUnique n l ty p =>
    simp only [Log.step, Option.some.injEq] at hs; subst hs
    simp only [Table.run, Outcome.ok.injEq] at ht; subst ht
    have hsym : (t.defineUniqueSymbol n l ty p).symbols =
        (t.defineSymbol (t.getUniqueName n).2 l ty p).symbols := by
      unfold Table.defineUniqueSymbol Table.getUniqueName; split <;> rfl
    have := hdef (t.getUniqueName n).2 l ty p
    exact ⟨by rw [hsym]; exact this.attached, by rw [hsym]; exact this.free⟩
  | permanent k l =>
    simp only [Log.step, Option.map_eq_some_iff] at hs
    obtain ⟨i, hi, rfl⟩ := hs
    obtain ⟨e, hlt⟩ := (find_index h.shows.symbols k).1 i hi
    simp only [Table.run, Table.addPermanentLocation, e, update_ok hlt, Outcome.map_ok,
      Outcome.ok.injEq] at ht
    subst ht
    exact hmod (fun s => { s with permanentLocation := l }) i (fun s => rfl) _ rfl
  | alias a k =>
    simp only [Log.step, Option.map_eq_some_iff] at hs
    obtain ⟨i, hi, rfl⟩ := hs
    obtain ⟨e, hlt⟩ := (find_index h.shows.symbols k).1 i hi
    simp only [Table.run, Table.addAlias, e, update_ok hlt, Outcome.map_ok,
      Outcome.ok.injEq] at ht
    subst ht
    exact hmod (fun s => { s with alias := a }) i (fun s => rfl) _ rfl
  | parent k l =>
    simp only [Log.step, Option.map_eq_some_iff] at hs
    obtain ⟨i, hi, rfl⟩ := hs
    obtain ⟨e, hlt⟩ := (find_index h.shows.symbols k).1 i hi
    simp only [Table.run, Table.setParentQueryLocation, e, update_ok hlt, Outcome.bind_ok] at ht
    rw [update_ok (by simpa using hlt), Outcome.ok.injEq] at ht
    subst ht
    dsimp only at hnd ⊢
    rw [List.map_append, List.nodup_append] at hnd
    obtain ⟨hnd1, _, hdisj⟩ := hnd
    have hi' : i ∉ g.parents.map (·.1) := fun hm => hdisj i hm i (by simp) rfl
    have hhigh := highest_eq (l := l) h hr hd hnd1 hi' hlt
    constructor
    · intro pre j loc post hp s hj
      dsimp only at hj
      obtain ⟨s1, h1, rfl⟩ := getElem?_modify' _ _ _ _ _ hj
      obtain ⟨s0, h0, rfl⟩ := getElem?_modify' _ _ _ _ _ h1
      cases hpost : post.reverse with
      | nil =>
        have : post = [] := by simpa using hpost
        subst this
        have hinj := List.append_inj' hp rfl
        simp only [List.cons.injEq, Prod.mk.injEq, and_true] at hinj
        obtain ⟨hpre, hji, hll⟩ := hinj
        subst hpre hji hll
        rw [if_pos rfl]
        dsimp only
        exact hhigh
      | cons x xs =>
        have hpx : post = xs.reverse ++ [x] := by
          rw [← List.reverse_reverse post, hpost]; simp
        rw [hpx, ← List.cons_append, ← List.append_assoc] at hp
        have hinj := List.append_inj' hp rfl
        have hji : j ≠ i := by
          rintro rfl
          exact hi' (by rw [hinj.1]; simp)
        rw [if_neg hji, if_neg hji]
        exact hd.attached pre j loc xs.reverse hinj.1 s0 h0
    · intro j hjn s hj
      dsimp only at hj
      obtain ⟨s1, h1, rfl⟩ := getElem?_modify' _ _ _ _ _ hj
      obtain ⟨s0, h0, rfl⟩ := getElem?_modify' _ _ _ _ _ h1
      rw [List.map_append, List.mem_append, not_or] at hjn
      have hji : j ≠ i := by simpa using hjn.2
      rw [if_neg hji, if_neg hji]
      exact hd.free j hjn.1 s0 h0

theorem parents_prefix {g g' : Log β} {op : Op β} (hs : g.step op = some g') :
    g.parents <+: g'.parents := by
  cases op with
  | uniqueName b => simp only [Log.step, Option.some.injEq] at hs; subst hs; exact List.prefix_rfl
  | define n l ty p => simp only [Log.step, Option.some.injEq] at hs; subst hs; exact List.prefix_rfl
  | defineUnique n l ty p =>
    simp only [Log.step, Option.some.injEq] at hs; subst hs; exact List.prefix_rfl
  | permanent k l =>
    simp only [Log.step, Option.map_eq_some_iff] at hs
    obtain ⟨i, hi, rfl⟩ := hs; exact List.prefix_rfl
  | parent k l =>
    simp only [Log.step, Option.map_eq_some_iff] at hs
    obtain ⟨i, hi, rfl⟩ := hs; exact List.prefix_append _ _
  | alias a k =>
    simp only [Log.step, Option.map_eq_some_iff] at hs
    obtain ⟨i, hi, rfl⟩ := hs; exact List.prefix_rfl

theorem parents_prefix_steps {g g' : Log β} {ops : List (Op β)} (hs : g.steps ops = some g') :
    g.parents <+: g'.parents := by
  induction ops generalizing g with
  | nil => simp only [Log.steps, Option.some.injEq] at hs; subst hs; exact List.prefix_rfl
  | cons op ops ih =>
    simp only [Log.steps, Option.bind_eq_some_iff] at hs
    obtain ⟨g1, h1, h2⟩ := hs
    exact (parents_prefix h1).trans (ih h2)

/-- The whole history. -/
theorem runAll_inv {t : Table β} {g : Log β} (ops : List (Op β)) (h : Inv t g) (hr : InRange g) :
    match g.steps ops with
    | some g' => ∃ t', t.runAll ops = .ok t' ∧ Inv t' g' ∧ InRange g' ∧
        (Dense t g.parents → (g'.parents.map (·.1)).Nodup → Dense t' g'.parents)
    | none => t.runAll ops = .ub := by
  induction ops generalizing t g with
  | nil => exact ⟨t, rfl, h, hr, fun hd _ => hd⟩
  | cons op ops ih =>
    simp only [Log.steps, Table.runAll]
    cases hs : g.step op with
    | none => simp only [Option.bind_none]; rw [run_ub h hs]; rfl
    | some g1 =>
      simp only [Option.bind_some]
      obtain ⟨t1, ht1, hi1⟩ := inv_step h hr hs
      have hr1 := inRange_step hr hs
      rw [ht1]
      simp only [Outcome.bind_ok]
      have := ih hi1 hr1
      cases hss : g1.steps ops with
      | none => rw [hss] at this; exact this
      | some g' =>
        rw [hss] at this
        obtain ⟨t', ht', hi', hr', hd'⟩ := this
        refine ⟨t', ht', hi', hr', ?_⟩
        intro hd hnd
        refine hd' ?_ hnd
        refine dense_step h hr hd hs ht1 ?_
        obtain ⟨r, hr2⟩ := parents_prefix_steps hss
        rw [← hr2, List.map_append, List.nodup_append] at hnd
        exact hnd.1

end Verif.Sym
