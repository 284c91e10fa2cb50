import Verif.Lemmas.Pipeline

/-!
# The pipelines of a relation tree
-/

namespace Verif.Pipe

open Verif

/-! ## Chains of relations -/

mutual
/-- The path from a relation along `continuingPipeline`. -/
def chain : Rel → List Str
  | .node k n ins _ => n :: if convShape k = .single then chainHead ins else []
def chainHead : List Rel → List Str
  | [] => []
  | i :: _ => chain i
end

/-- The consumer of the inputs. -/
def own (k : RelKind) (n : Str) (ins : List Rel) : List (List Str × Option Str) :=
  match convShape k with
  | .binary | .many => ins.map fun i => (chain i, some n)
  | _ => []

mutual
/-- The pipelines below a relation: their chains, and the relation at the end. -/
def segs : Rel → List (List Str × Option Str)
  | .node k n ins subs =>
    arrange k (segsL ins) (segsL subs) ++ (own k n ins ++ subs.map fun s => (chain s, none))
def segsL : List Rel → List (List Str × Option Str)
  | [] => []
  | r :: rs => segs r ++ segsL rs
end

/-- A pipeline as it is printed. -/
def lineOf (x : List Str × Option Str) : List Str := x.1.reverse ++ x.2.toList

/-- All pipelines of a plan. -/
def allSegs (root : Str) (r : Rel) : List (List Str × Option Str) := segs r ++ [(chain r, some root)]

theorem count_arrange {α : Type} [BEq α] (k : RelKind) (a b : List α) (x : α) :
    (arrange k a b).count x = a.count x + b.count x := by
  unfold arrange
  split <;> simp [List.count_append]; omega

theorem mem_arrange {α : Type} {k : RelKind} {a b : List α} {x : α} :
    x ∈ arrange k a b ↔ x ∈ a ∨ x ∈ b := by
  unfold arrange
  split <;> simp [or_comm]

theorem count_flatMap_arrange {α : Type} (k : RelKind) (a b : List α) (f : α → List Str) (x : Str) :
    ((arrange k a b).flatMap f).count x = (a.flatMap f).count x + (b.flatMap f).count x := by
  unfold arrange
  split <;> simp [List.count_append, List.flatMap_append]; omega

theorem arity_none {k : RelKind} {ins : List Rel} (h : Writable k) (ha : Arity k ins)
    (hs : convShape k = .none) : ins = [] := by
  cases k <;> simp [convShape] at hs <;> simp [Writable] at h
  · simpa [Arity] using ha

theorem arity_single {k : RelKind} {ins : List Rel} (h : Writable k) (ha : Arity k ins)
    (hs : convShape k = .single) : ∃ i, ins = [i] := by
  rw [← List.length_eq_one_iff]
  cases k <;> simp [convShape] at hs <;> simp [Writable] at h <;> simpa [Arity] using ha

theorem chain_ne_nil (r : Rel) : ∃ c, chain r = r.name :: c := by
  cases r with
  | node k n ins subs =>
    rw [chain]
    exact ⟨_, rfl⟩

theorem flatMap_pairs (rs : List Rel) (o : Option Str) :
    (rs.map fun i => (chain i, o)).flatMap (·.1) = rs.flatMap chain := by
  rw [List.flatMap_map]

mutual
theorem count_names : ∀ (r : Rel), Fits r → ∀ x, (names r).count x =
    (chain r).count x + ((segs r).flatMap (·.1)).count x
  | .node k n ins subs, h, x => by
    simp only [Fits] at h
    obtain ⟨hw, ha, -, hi, hs⟩ := h
    have h1 := count_namesL ins hi x
    have h2 := count_namesL subs hs x
    simp only [names, segs, List.count_cons, List.count_append, List.flatMap_append,
      count_flatMap_arrange, flatMap_pairs, h1, h2]
    rw [chain]
    unfold own
    cases hc : convShape k with
    | none =>
      have := arity_none hw ha hc
      subst this
      simp [segsL, List.count_cons]
      omega
    | single =>
      obtain ⟨i, rfl⟩ := arity_single hw ha hc
      simp [segsL, List.count_cons, chainHead]
      omega
    | binary =>
      simp only [flatMap_pairs]
      simp [List.count_cons]
      omega
    | many =>
      simp only [flatMap_pairs]
      simp [List.count_cons]
      omega
theorem count_namesL : ∀ (rs : List Rel), FitsL rs → ∀ x, (namesL rs).count x =
    (rs.flatMap chain).count x + ((segsL rs).flatMap (·.1)).count x
  | [], _, x => by simp [namesL, segsL]
  | r :: rs, h, x => by
    simp only [FitsL] at h
    simp only [namesL, segsL, List.count_append, List.flatMap_append, List.flatMap_cons]
    rw [count_names r h.1 x, count_namesL rs h.2 x]
    omega
end

/-! ## Pipelines made of chains -/

/-- What makes pipelines readable: no name comes in two chains, and what stands at the end of
a pipeline comes last in its own chain, if it has one. -/
structure Segs (S : List (List Str × Option Str)) : Prop where
  nodup : (S.flatMap (·.1)).Nodup
  ends : ∀ x ∈ S, ∀ m, x.2 = some m →
    m ∉ S.flatMap (·.1) ∨ ∃ y ∈ S, y.1.getLast? = some m
  apart : ∀ x ∈ S, ∀ m, x.2 = some m → m ∉ x.1

theorem Segs.disjoint {S : List (List Str × Option Str)} (h : Segs S) :
    S.Pairwise fun x y => ∀ z ∈ x.1, z ∉ y.1 := by
  have := (List.pairwise_flatMap.mp h.nodup).2
  exact this.imp fun hd z hz hz' => hd z hz z hz' rfl

theorem Segs.chain_nodup {S : List (List Str × Option Str)} (h : Segs S)
    {x : List Str × Option Str} (hx : x ∈ S) : x.1.Nodup :=
  (List.pairwise_flatMap.mp h.nodup).1 x hx

theorem pairwise_unique : ∀ {S : List (List Str × Option Str)},
    (S.Pairwise fun x y => ∀ z ∈ x.1, z ∉ y.1) → ∀ x ∈ S, ∀ y ∈ S, ∀ z, z ∈ x.1 → z ∈ y.1 → x = y
  | [], _, x, hx, _, _, _, _, _ => by simp at hx
  | s :: S, h, x, hx, y, hy, z, hzx, hzy => by
    rw [List.pairwise_cons] at h
    rcases List.mem_cons.mp hx with hx' | hx'
    · rcases List.mem_cons.mp hy with hy' | hy'
      · rw [hx', hy']
      · rw [hx'] at hzx
        exact absurd hzy (h.1 y hy' z hzx)
    · rcases List.mem_cons.mp hy with hy' | hy'
      · rw [hy'] at hzy
        exact absurd hzx (h.1 x hx' z hzy)
      · exact pairwise_unique h.2 x hx' y hy' z hzx hzy

theorem Segs.unique {S : List (List Str × Option Str)} (h : Segs S) {x y : List Str × Option Str}
    (hx : x ∈ S) (hy : y ∈ S) {z : Str} (hzx : z ∈ x.1) (hzy : z ∈ y.1) : x = y :=
  pairwise_unique h.disjoint x hx y hy z hzx hzy

theorem line_rev (x : List Str × Option Str) : (lineOf x).reverse = x.2.toList ++ x.1 := by
  unfold lineOf
  cases x.2 <;> simp

theorem inner_line {x : List Str × Option Str} {z l : Str} :
    (∃ a r b, lineOf x = a ++ l :: z :: r :: b) ↔
      ∃ u v, x.1 = u ++ z :: l :: v ∧ (u ≠ [] ∨ x.2.isSome = true) := by
  constructor
  · rintro ⟨a, r, b, h⟩
    have h' := congrArg List.reverse h
    rw [line_rev] at h'
    simp only [List.reverse_append, List.reverse_cons, List.append_assoc, List.cons_append,
      List.nil_append] at h'
    cases hm : x.2 with
    | none =>
      rw [hm] at h'
      simp only [Option.toList_none, List.nil_append] at h'
      exact ⟨b.reverse ++ [r], a.reverse, by simpa using h', .inl (by simp)⟩
    | some m =>
      rw [hm] at h'
      simp only [Option.toList_some, List.cons_append, List.nil_append] at h'
      cases hb : b.reverse with
      | nil =>
        rw [hb] at h'
        simp only [List.nil_append, List.cons.injEq] at h'
        exact ⟨[], a.reverse, by simpa using h'.2, .inr rfl⟩
      | cons w b' =>
        rw [hb] at h'
        simp only [List.cons_append, List.cons.injEq] at h'
        exact ⟨b' ++ [r], a.reverse, by simpa using h'.2, .inr rfl⟩
  · rintro ⟨u, v, h, hu⟩
    unfold lineOf
    rw [h]
    rcases List.eq_nil_or_concat u with rfl | ⟨u', w, rfl⟩
    · cases hm : x.2 with
      | none => simp [hm] at hu
      | some m => exact ⟨v.reverse, m, [], by simp⟩
    · exact ⟨v.reverse, w, u'.reverse ++ x.2.toList, by simp⟩

/-- What stands before another in its chain does not end another pipeline. -/
theorem Segs.not_end {S : List (List Str × Option Str)} (h : Segs S) {x y : List Str × Option Str}
    (hx : x ∈ S) (hy : y ∈ S) {u v : List Str} {z l : Str} (hc : x.1 = u ++ z :: l :: v) :
    y.2 ≠ some z := by
  intro hm
  have hz : z ∈ x.1 := by simp [hc]
  rcases h.ends y hy z hm with hno | ⟨w, hw, hl⟩
  · exact hno (List.mem_flatMap.mpr ⟨x, hx, hz⟩)
  · obtain ⟨a, ha⟩ := getLast_concat.mp hl
    have : w = x := h.unique hw hx (by simp [ha] : z ∈ w.1) hz
    subst this
    have := (nodup_split (h.chain_nodup hw) ha hc).2
    simp at this

theorem Segs.accepted {S : List (List Str × Option Str)} (h : Segs S) :
    Accepted (S.map lineOf) := by
  refine ⟨?_, ?_⟩
  · intro p hp
    obtain ⟨x, hx, rfl⟩ := List.mem_map.mp hp
    rw [← nodup_reverse, line_rev]
    cases hm : x.2 with
    | none => simpa using h.chain_nodup hx
    | some m =>
      simp only [Option.toList_some, List.cons_append, List.nil_append, List.nodup_cons]
      exact ⟨h.apart x hx m hm, h.chain_nodup hx⟩
  · rw [List.pairwise_map]
    refine h.disjoint.imp_of_mem ?_
    rintro x y hx hy hd z ⟨a, l, r, b, hin⟩ hz
    obtain ⟨u, v, hc, -⟩ := inner_line.mp ⟨a, r, b, hin⟩
    unfold lineOf at hz
    rw [List.mem_append] at hz
    rcases hz with hz | hz
    · exact hd z (by simp [hc]) (by simpa using hz)
    · exact h.not_end hx hy hc (by simpa using hz)

/-- The only input of what stands before another in its chain. -/
theorem Segs.only {S : List (List Str × Option Str)} (h : Segs S) {x : List Str × Option Str}
    (hx : x ∈ S) {u v : List Str} {z l : Str} (hc : x.1 = u ++ z :: l :: v) (d : Data)
    (hcont : ∀ m, d.cont = some m ↔ ∃ p ∈ S.map lineOf, ∃ a r b, p = a ++ m :: z :: r :: b)
    (hnews : d.news = (S.map lineOf).filterMap (feeder z)) :
    d.cont = some l ∧ d.news = [] ∨ d.cont = none ∧ d.news = [l] := by
  have hz : z ∈ x.1 := by simp [hc]
  have key : ∀ y ∈ S, ∀ m u' v', y.1 = u' ++ z :: m :: v' → y = x ∧ u' = u ∧ m = l := by
    intro y hy m u' v' hy'
    have : y = x := h.unique hy hx (by simp [hy'] : z ∈ y.1) hz
    subst this
    obtain ⟨h1, h2⟩ := nodup_split (h.chain_nodup hy) hy' hc
    simp only [List.cons.injEq] at h2
    exact ⟨rfl, h1, h2.1⟩
  by_cases hu : u ≠ [] ∨ x.2.isSome = true
  · have : d.cont = some l := by
      rw [hcont]
      obtain ⟨a, r, b, e⟩ := inner_line.mpr ⟨u, v, hc, hu⟩
      exact ⟨_, List.mem_map.mpr ⟨x, hx, rfl⟩, a, r, b, e⟩
    refine .inl ⟨this, ?_⟩
    rw [hnews, List.filterMap_eq_nil_iff]
    intro p hp
    obtain ⟨y, hy, rfl⟩ := List.mem_map.mp hp
    cases hf : feeder z (lineOf y) with
    | none => rfl
    | some m =>
      exfalso
      obtain ⟨a, ha⟩ := feeder_some.mp hf
      have hrev := congrArg List.reverse ha
      rw [line_rev] at hrev
      cases hw : y.2 with
      | some w =>
        rw [hw] at hrev
        refine h.not_end hx hy hc ?_
        simp at hrev
        rw [hw, hrev.1]
      | none =>
        rw [hw] at hrev
        have hy' : y.1 = [] ++ z :: m :: a.reverse := by simpa using hrev
        obtain ⟨rfl, rfl, -⟩ := key y hy m [] _ hy'
        rcases hu with hu | hu
        · exact hu rfl
        · rw [hw] at hu; simp at hu
  · simp only [not_or, Decidable.not_not] at hu
    have hno : d.cont = none := by
      cases hd : d.cont with
      | none => rfl
      | some m =>
        exfalso
        obtain ⟨p, hp, a, r, b, e⟩ := (hcont m).mp hd
        obtain ⟨y, hy, rfl⟩ := List.mem_map.mp hp
        obtain ⟨u', v', hy', hor⟩ := inner_line.mp ⟨a, r, b, e⟩
        obtain ⟨rfl, rfl, -⟩ := key y hy m u' v' hy'
        rcases hor with hor | hor
        · exact hor hu.1
        · exact hu.2 hor
    have hnone : x.2 = none := by simpa using hu.2
    obtain ⟨A, B, hS⟩ := List.append_of_mem hx
    have hdis := h.disjoint
    rw [hS, List.pairwise_append, List.pairwise_cons] at hdis
    have hrest : ∀ y ∈ S, (z ∉ y.1) → feeder z (lineOf y) = none := by
      intro y hy hzy
      cases hf : feeder z (lineOf y) with
      | none => rfl
      | some m =>
        exfalso
        obtain ⟨a, ha⟩ := feeder_some.mp hf
        have hzl : z ∈ lineOf y := by simp [ha]
        unfold lineOf at hzl
        rw [List.mem_append] at hzl
        rcases hzl with hzl | hzl
        · exact hzy (by simpa using hzl)
        · exact h.not_end hx hy hc (by simpa using hzl)
    have hA : (A.map lineOf).filterMap (feeder z) = [] := by
      rw [List.filterMap_eq_nil_iff]
      intro p hp
      obtain ⟨y, hy, rfl⟩ := List.mem_map.mp hp
      exact hrest y (by rw [hS]; simp [hy])
        (fun hz' => hdis.2.2 y hy x (by simp) z hz' hz)
    have hB : (B.map lineOf).filterMap (feeder z) = [] := by
      rw [List.filterMap_eq_nil_iff]
      intro p hp
      obtain ⟨y, hy, rfl⟩ := List.mem_map.mp hp
      exact hrest y (by rw [hS]; simp [hy]) (fun hz' => hdis.2.1.1 y hy z hz hz')
    have hx' : feeder z (lineOf x) = some l := by
      rw [feeder_some]
      unfold lineOf
      rw [hc, hu.1, hnone]
      exact ⟨v.reverse, by simp⟩
    have : d.news = [l] := by
      rw [hnews, hS, List.map_append, List.map_cons, List.filterMap_append, List.filterMap_cons,
        hA, hB, hx']
      rfl
    exact .inr ⟨hno, this⟩

/-- The continuation or the only input of what stands before another in its chain. -/
theorem Segs.next {S : List (List Str × Option Str)} (h : Segs S) {x : List Str × Option Str}
    (hx : x ∈ S) {u v : List Str} {z l : Str} (hc : x.1 = u ++ z :: l :: v) (d : Data)
    (hcont : ∀ m, d.cont = some m ↔ ∃ p ∈ S.map lineOf, ∃ a r b, p = a ++ m :: z :: r :: b)
    (hnews : d.news = (S.map lineOf).filterMap (feeder z)) : nextSingle d = some l := by
  rcases h.only hx hc d hcont hnews with ⟨h1, h2⟩ | ⟨h1, h2⟩ <;> simp [nextSingle, h1, h2]

/-- The inputs of a relation at the end of its chain. -/
theorem segs_inputs {S : List (List Str × Option Str)}
    (hne : ∀ x ∈ S, x.1 ≠ []) {n : Str} (hn : ∀ x ∈ S, ∀ u l v, x.1 ≠ u ++ n :: l :: v) :
    (S.map lineOf).filterMap (feeder n) =
      S.filterMap fun x => if x.2 = some n then x.1.head? else none := by
  rw [List.filterMap_map]
  have : ∀ x ∈ S, (feeder n ∘ lineOf) x = if x.2 = some n then x.1.head? else none := by
    intro x hx
    show feeder n (lineOf x) = _
    cases hc : x.1 with
    | nil => exact absurd hc (hne x hx)
    | cons c cs =>
      unfold lineOf
      cases hm : x.2 with
      | none =>
        simp only [Option.toList_none, List.append_nil, hc]
        cases hf : feeder n (c :: cs).reverse with
        | none => simp
        | some l =>
          exfalso
          obtain ⟨a, ha⟩ := feeder_some.mp hf
          have := congrArg List.reverse ha
          simp only [List.reverse_reverse, List.reverse_append, List.reverse_cons,
            List.reverse_nil, List.nil_append, List.cons_append] at this
          exact hn x hx [] l a.reverse (by rw [hc]; simpa using this)
      | some m =>
        by_cases hmn : m = n
        · subst hmn
          simp only [Option.toList_some, if_true, List.head?_cons]
          rw [feeder_some]
          exact ⟨cs.reverse, by simp [hc]⟩
        · simp only [Option.toList_some, Option.some.injEq, hmn, if_false]
          simp [feeder, hmn, hc]
  clear hn hne
  induction S with
  | nil => rfl
  | cons x S ih =>
    rw [List.filterMap_cons, List.filterMap_cons, this x (by simp),
      ih (fun y hy => this y (by simp [hy]))]

/-! ## The pipelines of a tree -/

mutual
/-- All relations of a tree. -/
def nodes : Rel → List Rel
  | .node k n ins subs => .node k n ins subs :: (nodesL ins ++ nodesL subs)
def nodesL : List Rel → List Rel
  | [] => []
  | r :: rs => nodes r ++ nodesL rs
end

theorem segs_child {k : RelKind} {n : Str} {ins subs : List Rel} {x : List Str × Option Str}
    (h : x ∈ segsL ins ∨ x ∈ segsL subs) : x ∈ segs (.node k n ins subs) := by
  simp only [segs, List.mem_append, mem_arrange]
  exact .inl h

/-- The chains of a tree: its own and those of its pipelines. -/
def chains (r : Rel) : List (List Str) := chain r :: (segs r).map (·.1)
def chainsL (rs : List Rel) : List (List Str) := rs.map chain ++ (segsL rs).map (·.1)

theorem chains_nil : chainsL [] = [] := rfl

theorem mem_chainsL_cons {r : Rel} {rs : List Rel} {c : List Str} :
    c ∈ chainsL (r :: rs) ↔ c ∈ chains r ∨ c ∈ chainsL rs := by
  simp only [chainsL, chains, segsL, List.map_cons, List.map_append, List.mem_append,
    List.mem_cons]
  constructor
  · rintro ((h | h) | (h | h))
    · exact .inl (.inl h)
    · exact .inr (.inl h)
    · exact .inl (.inr h)
    · exact .inr (.inr h)
  · rintro ((h | h) | (h | h))
    · exact .inl (.inl h)
    · exact .inr (.inl h)
    · exact .inl (.inr h)
    · exact .inr (.inr h)

/-- A chain of an input or subquery is the end of a chain of the relation. -/
theorem chains_child {k : RelKind} {n : Str} {ins subs : List Rel}
    (hf : Fits (.node k n ins subs)) {c : List Str} (h : c ∈ chainsL ins ∨ c ∈ chainsL subs) :
    ∃ u, u ++ c ∈ chains (.node k n ins subs) := by
  simp only [Fits] at hf
  obtain ⟨hw, ha, -⟩ := hf
  have hseg : ∀ x, x ∈ segsL ins ∨ x ∈ segsL subs → x.1 ∈ chains (.node k n ins subs) := by
    intro x hx
    exact List.mem_cons_of_mem _ (List.mem_map.mpr ⟨x, segs_child hx, rfl⟩)
  unfold chainsL at h
  simp only [List.mem_append, List.mem_map] at h
  rcases h with (⟨i, hi, rfl⟩ | ⟨x, hx, rfl⟩) | (⟨s, hs, rfl⟩ | ⟨x, hx, rfl⟩)
  · cases hc : convShape k with
    | none =>
      rw [arity_none hw ha hc] at hi
      simp at hi
    | single =>
      obtain ⟨j, rfl⟩ := arity_single hw ha hc
      simp only [List.mem_singleton] at hi
      subst hi
      refine ⟨[n], ?_⟩
      simp [chains, chain, hc, chainHead]
    | binary =>
      refine ⟨[], List.mem_cons_of_mem _ (List.mem_map.mpr ⟨(chain i, some n), ?_, rfl⟩)⟩
      simp only [segs, List.mem_append]
      exact .inr (.inl (by simp only [own, hc]; exact List.mem_map.mpr ⟨i, hi, rfl⟩))
    | many =>
      refine ⟨[], List.mem_cons_of_mem _ (List.mem_map.mpr ⟨(chain i, some n), ?_, rfl⟩)⟩
      simp only [segs, List.mem_append]
      exact .inr (.inl (by simp only [own, hc]; exact List.mem_map.mpr ⟨i, hi, rfl⟩))
  · exact ⟨[], hseg x (.inl hx)⟩
  · refine ⟨[], List.mem_cons_of_mem _ (List.mem_map.mpr ⟨(chain s, none), ?_, rfl⟩)⟩
    simp only [segs, List.mem_append]
    exact .inr (.inr (List.mem_map.mpr ⟨s, hs, rfl⟩))
  · exact ⟨[], hseg x (.inr hx)⟩

mutual
theorem mem_names_nodes : ∀ (r : Rel) (x : Str), x ∈ names r ↔ ∃ m ∈ nodes r, m.name = x
  | .node k n ins subs, x => by
    simp only [names, nodes, List.mem_cons, List.mem_append, mem_names_nodesL ins x,
      mem_names_nodesL subs x, exists_eq_or_imp, Rel.name]
    constructor
    · rintro (h | ⟨m, h, e⟩ | ⟨m, h, e⟩)
      · exact .inl h.symm
      · exact .inr ⟨m, .inl h, e⟩
      · exact .inr ⟨m, .inr h, e⟩
    · rintro (h | ⟨m, h | h, e⟩)
      · exact .inl h.symm
      · exact .inr (.inl ⟨m, h, e⟩)
      · exact .inr (.inr ⟨m, h, e⟩)
theorem mem_names_nodesL : ∀ (rs : List Rel) (x : Str),
    x ∈ namesL rs ↔ ∃ m ∈ nodesL rs, m.name = x
  | [], x => by simp [namesL, nodesL]
  | r :: rs, x => by
    simp only [namesL, nodesL, List.mem_append, mem_names_nodes r x, mem_names_nodesL rs x]
    constructor
    · rintro (⟨m, h, e⟩ | ⟨m, h, e⟩)
      · exact ⟨m, .inl h, e⟩
      · exact ⟨m, .inr h, e⟩
    · rintro ⟨m, h | h, e⟩
      · exact .inl ⟨m, h, e⟩
      · exact .inr ⟨m, h, e⟩
end

theorem mem_names_iff {r : Rel} (hf : Fits r) {x : Str} :
    x ∈ names r ↔ ∃ c ∈ chains r, x ∈ c := by
  rw [← List.count_pos_iff, count_names r hf x]
  simp only [chains, List.mem_cons, exists_eq_or_imp, List.mem_map]
  constructor
  · intro h
    by_cases h1 : 0 < (chain r).count x
    · exact .inl (List.count_pos_iff.mp h1)
    · have h2 : 0 < ((segs r).flatMap (·.1)).count x := by omega
      obtain ⟨y, hy, hz⟩ := List.mem_flatMap.mp (List.count_pos_iff.mp h2)
      exact .inr ⟨y.1, ⟨y, hy, rfl⟩, hz⟩
  · rintro (h | ⟨c, ⟨y, hy, rfl⟩, hz⟩)
    · have := List.count_pos_iff.mpr h; omega
    · have : 0 < ((segs r).flatMap (·.1)).count x :=
        List.count_pos_iff.mpr (List.mem_flatMap.mpr ⟨y, hy, hz⟩)
      omega

theorem getLast_append {u c : List Str} {m : Str} (h : c.getLast? = some m) :
    (u ++ c).getLast? = some m := by
  obtain ⟨a, rfl⟩ := getLast_concat.mp h
  simp [← List.append_assoc]

mutual
/-- What stands at the end of a pipeline comes last in its chain. -/
theorem segs_ends : ∀ (r : Rel), Fits r → ∀ x ∈ segs r, ∀ m, x.2 = some m →
    ∃ c ∈ chains r, c.getLast? = some m
  | .node k n ins subs, hf, x, hx, m, hm => by
    have hf' := hf
    simp only [Fits] at hf'
    obtain ⟨hw, ha, -, hi, hs⟩ := hf'
    simp only [segs, List.mem_append, mem_arrange] at hx
    rcases hx with (hx | hx) | hx | hx
    · obtain ⟨c, hc, hl⟩ := segsL_ends ins hi x hx m hm
      obtain ⟨u, hu⟩ := chains_child hf (.inl hc)
      exact ⟨_, hu, getLast_append hl⟩
    · obtain ⟨c, hc, hl⟩ := segsL_ends subs hs x hx m hm
      obtain ⟨u, hu⟩ := chains_child hf (.inr hc)
      exact ⟨_, hu, getLast_append hl⟩
    · refine ⟨chain (.node k n ins subs), List.mem_cons_self .., ?_⟩
      unfold own at hx
      cases hc : convShape k with
      | none => simp [hc] at hx
      | single => simp [hc] at hx
      | binary =>
        simp only [hc, List.mem_map] at hx
        obtain ⟨i, -, rfl⟩ := hx
        simp only [Option.some.injEq] at hm
        simp [chain, hc, hm]
      | many =>
        simp only [hc, List.mem_map] at hx
        obtain ⟨i, -, rfl⟩ := hx
        simp only [Option.some.injEq] at hm
        simp [chain, hc, hm]
    · obtain ⟨s, -, rfl⟩ := List.mem_map.mp hx
      simp at hm
theorem segsL_ends : ∀ (rs : List Rel), FitsL rs → ∀ x ∈ segsL rs, ∀ m, x.2 = some m →
    ∃ c ∈ chainsL rs, c.getLast? = some m
  | [], _, x, hx, m, hm => by simp [segsL] at hx
  | r :: rs, hf, x, hx, m, hm => by
    simp only [FitsL] at hf
    simp only [segsL, List.mem_append] at hx
    rcases hx with hx | hx
    · obtain ⟨c, hc, hl⟩ := segs_ends r hf.1 x hx m hm
      exact ⟨c, mem_chainsL_cons.mpr (.inl hc), hl⟩
    · obtain ⟨c, hc, hl⟩ := segsL_ends rs hf.2 x hx m hm
      exact ⟨c, mem_chainsL_cons.mpr (.inr hc), hl⟩
end

/-- A single input follows in the chain. -/
def FollowedIn (cs : List (List Str)) (m : Rel) : Prop :=
  match m with
  | .node k n ins _ => convShape k = .single →
      ∃ i, ins = [i] ∧ ∃ c ∈ cs, ∃ u v, c = u ++ n :: i.name :: v

theorem FollowedIn.lift {cs cs' : List (List Str)} {m : Rel} (h : FollowedIn cs m)
    (hc : ∀ c ∈ cs, ∃ u, u ++ c ∈ cs') : FollowedIn cs' m := by
  cases m with
  | node k n ins subs =>
    intro hk
    obtain ⟨i, hi, c, hc1, u, v, e⟩ := h hk
    obtain ⟨w, hw⟩ := hc c hc1
    exact ⟨i, hi, w ++ c, hw, w ++ u, v, by rw [e]; simp⟩

mutual
theorem nodes_followed : ∀ (r : Rel), Fits r → ∀ m ∈ nodes r, FollowedIn (chains r) m
  | .node k n ins subs, hf, m, hm => by
    have hf' := hf
    simp only [Fits] at hf'
    obtain ⟨hw, ha, -, hi, hs⟩ := hf'
    simp only [nodes, List.mem_cons, List.mem_append] at hm
    rcases hm with rfl | hm | hm
    · intro hc
      obtain ⟨i, rfl⟩ := arity_single hw ha hc
      refine ⟨i, rfl, chain _, List.mem_cons_self .., [], ?_⟩
      obtain ⟨c, e⟩ := chain_ne_nil i
      exact ⟨c, by simp [chain, hc, chainHead, e]⟩
    · exact (nodesL_followed ins hi m hm).lift fun c hc => chains_child hf (.inl hc)
    · exact (nodesL_followed subs hs m hm).lift fun c hc => chains_child hf (.inr hc)
theorem nodesL_followed : ∀ (rs : List Rel), FitsL rs → ∀ m ∈ nodesL rs, FollowedIn (chainsL rs) m
  | [], _, m, hm => by simp [nodesL] at hm
  | r :: rs, hf, m, hm => by
    simp only [FitsL] at hf
    simp only [nodesL, List.mem_append] at hm
    rcases hm with hm | hm
    · exact (nodes_followed r hf.1 m hm).lift fun c hc => ⟨[], mem_chainsL_cons.mpr (.inl hc)⟩
    · exact (nodesL_followed rs hf.2 m hm).lift fun c hc => ⟨[], mem_chainsL_cons.mpr (.inr hc)⟩
end

/-- A relation without a single input comes last in its chain. -/
def LastIn (cs : List (List Str)) (m : Rel) : Prop :=
  match m with
  | .node k n _ _ => convShape k ≠ .single → ∃ c ∈ cs, c.getLast? = some n

theorem LastIn.lift {cs cs' : List (List Str)} {m : Rel} (h : LastIn cs m)
    (hc : ∀ c ∈ cs, ∃ u, u ++ c ∈ cs') : LastIn cs' m := by
  cases m with
  | node k n ins subs =>
    intro hk
    obtain ⟨c, hc1, e⟩ := h hk
    obtain ⟨w, hw⟩ := hc c hc1
    exact ⟨w ++ c, hw, getLast_append e⟩

mutual
theorem nodes_last : ∀ (r : Rel), Fits r → ∀ m ∈ nodes r, LastIn (chains r) m
  | .node k n ins subs, hf, m, hm => by
    have hf' := hf
    simp only [Fits] at hf'
    obtain ⟨hw, ha, -, hi, hs⟩ := hf'
    simp only [nodes, List.mem_cons, List.mem_append] at hm
    rcases hm with rfl | hm | hm
    · intro hc
      exact ⟨chain _, List.mem_cons_self .., by simp [chain, hc]⟩
    · exact (nodesL_last ins hi m hm).lift fun c hc => chains_child hf (.inl hc)
    · exact (nodesL_last subs hs m hm).lift fun c hc => chains_child hf (.inr hc)
theorem nodesL_last : ∀ (rs : List Rel), FitsL rs → ∀ m ∈ nodesL rs, LastIn (chainsL rs) m
  | [], _, m, hm => by simp [nodesL] at hm
  | r :: rs, hf, m, hm => by
    simp only [FitsL] at hf
    simp only [nodesL, List.mem_append] at hm
    rcases hm with hm | hm
    · exact (nodes_last r hf.1 m hm).lift fun c hc => ⟨[], mem_chainsL_cons.mpr (.inl hc)⟩
    · exact (nodesL_last rs hf.2 m hm).lift fun c hc => ⟨[], mem_chainsL_cons.mpr (.inr hc)⟩
end

mutual
/-- A pipeline without an end belongs to a subquery. -/
theorem segs_none : ∀ (r : Rel), ∀ c, (c, none) ∈ segs r →
    ∃ k n ins subs, Rel.node k n ins subs ∈ nodes r ∧ ∃ s ∈ subs, c = chain s
  | .node k n ins subs, c, hx => by
    simp only [segs, List.mem_append, mem_arrange] at hx
    rcases hx with (hx | hx) | hx | hx
    · obtain ⟨k', n', i', s', h, e⟩ := segsL_none ins c hx
      exact ⟨k', n', i', s', by simp [nodes, h], e⟩
    · obtain ⟨k', n', i', s', h, e⟩ := segsL_none subs c hx
      exact ⟨k', n', i', s', by simp [nodes, h], e⟩
    · unfold own at hx
      split at hx <;> simp at hx
    · obtain ⟨s, hs, e⟩ := List.mem_map.mp hx
      simp only [Prod.mk.injEq, and_true] at e
      exact ⟨k, n, ins, subs, by simp [nodes], s, hs, e.symm⟩
theorem segsL_none : ∀ (rs : List Rel), ∀ c, (c, none) ∈ segsL rs →
    ∃ k n ins subs, Rel.node k n ins subs ∈ nodesL rs ∧ ∃ s ∈ subs, c = chain s
  | [], c, hx => by simp [segsL] at hx
  | r :: rs, c, hx => by
    simp only [segsL, List.mem_append] at hx
    rcases hx with hx | hx
    · obtain ⟨k', n', i', s', h, e⟩ := segs_none r c hx
      exact ⟨k', n', i', s', by simp [nodesL, h], e⟩
    · obtain ⟨k', n', i', s', h, e⟩ := segsL_none rs c hx
      exact ⟨k', n', i', s', by simp [nodesL, h], e⟩
end

mutual
theorem nodes_self_sub : ∀ (r : Rel) (k : RelKind) (n : Str) (ins subs : List Rel),
    Rel.node k n ins subs ∈ nodes r → ∀ s, s ∈ ins ∨ s ∈ subs → s ∈ nodes r
  | .node k' n' ins' subs', k, n, ins, subs, hm, s, hs => by
    simp only [nodes, List.mem_cons, List.mem_append] at hm ⊢
    rcases hm with hm | hm | hm
    · simp only [Rel.node.injEq] at hm
      obtain ⟨rfl, rfl, rfl, rfl⟩ := hm
      rcases hs with hs | hs
      · exact .inr (.inl (mem_nodesL hs))
      · exact .inr (.inr (mem_nodesL hs))
    · exact .inr (.inl (nodesL_self_sub ins' k n ins subs hm s hs))
    · exact .inr (.inr (nodesL_self_sub subs' k n ins subs hm s hs))
theorem nodesL_self_sub : ∀ (rs : List Rel) (k : RelKind) (n : Str) (ins subs : List Rel),
    Rel.node k n ins subs ∈ nodesL rs → ∀ s, s ∈ ins ∨ s ∈ subs → s ∈ nodesL rs
  | [], k, n, ins, subs, hm, s, hs => by simp [nodesL] at hm
  | r :: rs, k, n, ins, subs, hm, s, hs => by
    simp only [nodesL, List.mem_append] at hm ⊢
    rcases hm with hm | hm
    · exact .inl (nodes_self_sub r k n ins subs hm s hs)
    · exact .inr (nodesL_self_sub rs k n ins subs hm s hs)
theorem mem_nodesL : ∀ {rs : List Rel} {s : Rel}, s ∈ rs → s ∈ nodesL rs
  | r :: rs, s, h => by
    simp only [nodesL, List.mem_append]
    rcases List.mem_cons.mp h with h | h
    · subst h
      cases s with
      | node k n ins subs => exact .inl (by simp [nodes])
    · exact .inr (mem_nodesL h)
end

/-- The input a pipeline gives to the relation at its end. -/
def feed (n : Str) (x : List Str × Option Str) : Option Str :=
  if x.2 = some n then x.1.head? else none

theorem chain_subset {r : Rel} (hf : Fits r) {x : Str} (h : x ∈ chain r) : x ∈ names r :=
  (mem_names_iff hf).mpr ⟨_, List.mem_cons_self .., h⟩

theorem mem_namesL {rs : List Rel} {r : Rel} {x : Str} (h : r ∈ rs) (hx : x ∈ names r) :
    x ∈ namesL rs := by
  induction rs with
  | nil => simp at h
  | cons a rs ih =>
    simp only [namesL, List.mem_append]
    rcases List.mem_cons.mp h with h | h
    · subst h; exact .inl hx
    · exact .inr (ih h)

theorem FitsL.of_mem {rs : List Rel} {r : Rel} (h : FitsL rs) (hr : r ∈ rs) : Fits r := by
  induction rs with
  | nil => simp at hr
  | cons a rs ih =>
    simp only [FitsL] at h
    rcases List.mem_cons.mp hr with e | e
    · subst e; exact h.1
    · exact ih h.2 e

mutual
theorem feed_out : ∀ (r : Rel) (n : Str), n ∉ names r → (segs r).filterMap (feed n) = []
  | .node k m ins subs, n, h => by
    simp only [names, List.mem_cons, List.mem_append, not_or] at h
    rw [List.filterMap_eq_nil_iff]
    have h1 := List.filterMap_eq_nil_iff.mp (feedL_out ins n h.2.1)
    have h2 := List.filterMap_eq_nil_iff.mp (feedL_out subs n h.2.2)
    intro x hx
    simp only [segs, List.mem_append, mem_arrange] at hx
    rcases hx with (hx | hx) | hx | hx
    · exact h1 x hx
    · exact h2 x hx
    · unfold own at hx
      split at hx
      all_goals first
        | (obtain ⟨i, -, rfl⟩ := List.mem_map.mp hx; simp [feed, Ne.symm h.1])
        | simp at hx
    · obtain ⟨s, -, rfl⟩ := List.mem_map.mp hx
      simp [feed]
theorem feedL_out : ∀ (rs : List Rel) (n : Str), n ∉ namesL rs →
    (segsL rs).filterMap (feed n) = []
  | [], n, _ => by simp [segsL]
  | r :: rs, n, h => by
    simp only [namesL, List.mem_append, not_or] at h
    simp only [segsL, List.filterMap_append, feed_out r n h.1, feedL_out rs n h.2,
      List.append_nil]
end

theorem feed_arrange {k : RelKind} (a b : List (List Str × Option Str)) (n : Str)
    (h : a.filterMap (feed n) = [] ∨ b.filterMap (feed n) = []) :
    (arrange k a b).filterMap (feed n) = a.filterMap (feed n) ++ b.filterMap (feed n) := by
  unfold arrange
  split
  · rw [List.filterMap_append]
  · rw [List.filterMap_append]
    rcases h with h | h <;> simp [h]

theorem feed_own {k : RelKind} {n m : Str} {ins : List Rel} :
    (own k n ins).filterMap (feed m) =
      if n = m ∧ (convShape k = .binary ∨ convShape k = .many) then ins.map Rel.name else [] := by
  have hl : ∀ l : List Rel, (l.map fun i => (chain i, some n)).filterMap (feed m) =
      if n = m then l.map Rel.name else [] := by
    intro l
    induction l with
    | nil => simp
    | cons i l ih =>
      rw [List.map_cons, List.filterMap_cons, ih]
      obtain ⟨c, e⟩ := chain_ne_nil i
      by_cases h : n = m
      · simp [feed, h, e]
      · simp [feed, h]
  unfold own
  cases hc : convShape k <;> simp [hl]

theorem feed_subs {m : Str} (subs : List Rel) :
    (subs.map fun s => (chain s, (none : Option Str))).filterMap (feed m) = [] := by
  rw [List.filterMap_eq_nil_iff]
  intro x hx
  obtain ⟨s, -, rfl⟩ := List.mem_map.mp hx
  simp [feed]

/-- The pipelines that end in a relation start with its inputs. -/
def FedBy (S : List (List Str × Option Str)) (m : Rel) : Prop :=
  match m with
  | .node k n ins _ => S.filterMap (feed n) =
      if convShape k = .binary ∨ convShape k = .many then ins.map Rel.name else []

mutual
theorem nodes_fed : ∀ (r : Rel), (names r).Nodup → ∀ m ∈ nodes r, FedBy (segs r) m
  | .node k n ins subs, hn, m, hm => by
    simp only [names, List.nodup_cons, List.nodup_append, List.mem_append, not_or] at hn
    obtain ⟨⟨n1, n2⟩, d1, d2, dd⟩ := hn
    have hm' := hm
    simp only [nodes, List.mem_cons, List.mem_append] at hm
    rcases hm with rfl | hm | hm
    · unfold FedBy
      simp only [segs, List.filterMap_append, feed_own, feed_subs]
      rw [feed_arrange _ _ _ (.inl (feedL_out ins n n1)), feedL_out ins n n1, feedL_out subs n n2]
      simp
    · have hx := nodesL_fed ins d1 m hm
      cases m with
      | node k' n' ins' subs' =>
        unfold FedBy at hx ⊢
        have hin : n' ∈ namesL ins := (mem_names_nodesL ins n').mpr ⟨_, hm, rfl⟩
        have hne : ¬ n = n' := fun e => n1 (e ▸ hin)
        have hno : n' ∉ namesL subs := fun h => dd n' hin n' h rfl
        simp only [segs, List.filterMap_append, feed_own, feed_subs]
        rw [feed_arrange _ _ _ (.inr (feedL_out subs n' hno)), feedL_out subs n' hno, hx]
        simp [hne]
    · have hx := nodesL_fed subs d2 m hm
      cases m with
      | node k' n' ins' subs' =>
        unfold FedBy at hx ⊢
        have hin : n' ∈ namesL subs := (mem_names_nodesL subs n').mpr ⟨_, hm, rfl⟩
        have hne : ¬ n = n' := fun e => n2 (e ▸ hin)
        have hno : n' ∉ namesL ins := fun h => dd n' h n' hin rfl
        simp only [segs, List.filterMap_append, feed_own, feed_subs]
        rw [feed_arrange _ _ _ (.inl (feedL_out ins n' hno)), feedL_out ins n' hno, hx]
        simp [hne]
theorem nodesL_fed : ∀ (rs : List Rel), (namesL rs).Nodup → ∀ m ∈ nodesL rs, FedBy (segsL rs) m
  | [], _, m, hm => by simp [nodesL] at hm
  | r :: rs, hn, m, hm => by
    simp only [namesL, List.nodup_append] at hn
    obtain ⟨d1, d2, dd⟩ := hn
    simp only [nodesL, List.mem_append] at hm
    rcases hm with hm | hm
    · have hx := nodes_fed r d1 m hm
      cases m with
      | node k n ins subs =>
        unfold FedBy at hx ⊢
        have hin : n ∈ names r := (mem_names_nodes r n).mpr ⟨_, hm, rfl⟩
        simp only [segsL, List.filterMap_append, hx,
          feedL_out rs n (fun h => dd n hin n h rfl), List.append_nil]
    · have hx := nodesL_fed rs d2 m hm
      cases m with
      | node k n ins subs =>
        unfold FedBy at hx ⊢
        have hin : n ∈ namesL rs := (mem_names_nodesL rs n).mpr ⟨_, hm, rfl⟩
        simp only [segsL, List.filterMap_append, hx,
          feed_out r n (fun h => dd n h n hin rfl), List.nil_append]
end

mutual
theorem segs_apart : ∀ (r : Rel), Fits r → (names r).Nodup → ∀ x ∈ segs r, ∀ m, x.2 = some m →
    m ∉ x.1
  | .node k n ins subs, hf, hn, x, hx, m, hm => by
    simp only [Fits] at hf
    obtain ⟨hw, ha, -, hi, hs⟩ := hf
    simp only [names, List.nodup_cons, List.nodup_append, List.mem_append, not_or] at hn
    obtain ⟨⟨n1, n2⟩, d1, d2, dd⟩ := hn
    simp only [segs, List.mem_append, mem_arrange] at hx
    rcases hx with (hx | hx) | hx | hx
    · exact segsL_apart ins hi d1 x hx m hm
    · exact segsL_apart subs hs d2 x hx m hm
    · have key : ∀ i ∈ ins, n ∉ chain i := fun i hin h =>
        n1 (mem_namesL hin (chain_subset (hi.of_mem hin) h))
      unfold own at hx
      split at hx
      all_goals first
        | (obtain ⟨i, hin, rfl⟩ := List.mem_map.mp hx
           simp only [Option.some.injEq] at hm
           subst hm
           exact key i hin)
        | simp at hx
    · obtain ⟨s, -, rfl⟩ := List.mem_map.mp hx
      simp at hm
theorem segsL_apart : ∀ (rs : List Rel), FitsL rs → (namesL rs).Nodup → ∀ x ∈ segsL rs, ∀ m,
    x.2 = some m → m ∉ x.1
  | [], _, _, x, hx, m, hm => by simp [segsL] at hx
  | r :: rs, hf, hn, x, hx, m, hm => by
    simp only [FitsL] at hf
    simp only [namesL, List.nodup_append] at hn
    simp only [segsL, List.mem_append] at hx
    rcases hx with hx | hx
    · exact segs_apart r hf.1 hn.1 x hx m hm
    · exact segsL_apart rs hf.2 hn.2.1 x hx m hm
end

mutual
theorem segs_ne_nil : ∀ (r : Rel), ∀ x ∈ segs r, x.1 ≠ []
  | .node k n ins subs, x, hx => by
    have hc : ∀ i, chain i ≠ [] := fun i => by
      obtain ⟨c, e⟩ := chain_ne_nil i
      simp [e]
    simp only [segs, List.mem_append, mem_arrange] at hx
    rcases hx with (hx | hx) | hx | hx
    · exact segsL_ne_nil ins x hx
    · exact segsL_ne_nil subs x hx
    · unfold own at hx
      split at hx
      all_goals first
        | (obtain ⟨i, -, rfl⟩ := List.mem_map.mp hx; exact hc i)
        | simp at hx
    · obtain ⟨s, -, rfl⟩ := List.mem_map.mp hx
      exact hc s
theorem segsL_ne_nil : ∀ (rs : List Rel), ∀ x ∈ segsL rs, x.1 ≠ []
  | [], x, hx => by simp [segsL] at hx
  | r :: rs, x, hx => by
    simp only [segsL, List.mem_append] at hx
    rcases hx with hx | hx
    · exact segs_ne_nil r x hx
    · exact segsL_ne_nil rs x hx
end

theorem mem_chains_allSegs {root : Str} {r : Rel} {c : List Str} :
    c ∈ chains r ↔ ∃ y ∈ allSegs root r, y.1 = c := by
  simp only [chains, allSegs, List.mem_cons, List.mem_map, List.mem_append,
    List.not_mem_nil, or_false]
  constructor
  · rintro (h | ⟨y, hy, h⟩)
    · exact ⟨_, .inr rfl, h.symm⟩
    · exact ⟨y, .inl hy, h⟩
  · rintro ⟨y, hy | hy, h⟩
    · exact .inr ⟨y, hy, h⟩
    · subst hy; exact .inl h.symm

theorem mem_flat_allSegs {root : Str} {r : Rel} (hf : Fits r) {x : Str} :
    x ∈ (allSegs root r).flatMap (·.1) ↔ x ∈ names r := by
  rw [mem_names_iff hf, List.mem_flatMap]
  constructor
  · rintro ⟨y, hy, hx⟩
    exact ⟨y.1, mem_chains_allSegs.mpr ⟨y, hy, rfl⟩, hx⟩
  · rintro ⟨c, hc, hx⟩
    obtain ⟨y, hy, rfl⟩ := (mem_chains_allSegs (root := root)).mp hc
    exact ⟨y, hy, hx⟩

theorem allSegs_segs {root : Str} {r : Rel} (hf : Fits r) (hn : (names r).Nodup)
    (hr : root ∉ names r) : Segs (allSegs root r) := by
  refine ⟨?_, ?_, ?_⟩
  · rw [List.nodup_iff_count] at hn ⊢
    intro x
    have := hn x
    rw [count_names r hf x] at this
    simp only [allSegs, List.flatMap_append, List.count_append, List.flatMap_cons,
      List.flatMap_nil, List.append_nil]
    omega
  · intro x hx m hm
    simp only [allSegs, List.mem_append, List.mem_singleton] at hx
    rcases hx with hx | hx
    · right
      obtain ⟨c, hc, hl⟩ := segs_ends r hf x hx m hm
      obtain ⟨y, hy, rfl⟩ := (mem_chains_allSegs (root := root)).mp hc
      exact ⟨y, hy, hl⟩
    · subst hx
      simp only [Option.some.injEq] at hm
      subst hm
      exact .inl (fun h => hr ((mem_flat_allSegs hf).mp h))
  · intro x hx m hm
    simp only [allSegs, List.mem_append, List.mem_singleton] at hx
    rcases hx with hx | hx
    · exact segs_apart r hf hn x hx m hm
    · subst hx
      simp only [Option.some.injEq] at hm
      subst hm
      exact fun h => hr (chain_subset hf h)

theorem allSegs_ne_nil {root : Str} {r : Rel} : ∀ x ∈ allSegs root r, x.1 ≠ [] := by
  intro x hx
  simp only [allSegs, List.mem_append, List.mem_singleton] at hx
  rcases hx with hx | hx
  · exact segs_ne_nil r x hx
  · subst hx
    obtain ⟨c, e⟩ := chain_ne_nil r
    simp [e]

/-- What feeds another is in the chain. -/
theorem feeds_chain {x : List Str × Option Str} {n m : Str} (h : Feeds (lineOf x) n m) :
    n ∈ x.1 := by
  obtain ⟨a, b, e⟩ := h
  unfold lineOf at e
  have hrev := congrArg List.reverse e
  simp only [List.reverse_append, List.reverse_cons, List.append_assoc, List.cons_append,
    List.nil_append, List.reverse_reverse] at hrev
  cases hx : x.2 with
  | none =>
    rw [hx] at hrev
    simp only [Option.toList_none, List.reverse_nil, List.nil_append] at hrev
    rw [hrev]; simp
  | some k =>
    rw [hx] at hrev
    simp only [Option.toList_some, List.reverse_cons, List.reverse_nil, List.nil_append,
      List.cons_append] at hrev
    cases hb : b.reverse with
    | nil =>
      rw [hb] at hrev
      simp only [List.nil_append, List.cons.injEq] at hrev
      rw [hrev.2]; simp
    | cons w b' =>
      rw [hb] at hrev
      simp only [List.cons_append, List.cons.injEq] at hrev
      rw [hrev.2]; simp

/-- What follows another in its chain starts there. -/
theorem Segs.start {S : List (List Str × Option Str)} (h : Segs S) {x : List Str × Option Str}
    (hx : x ∈ S) {u v : List Str} {n m : Str} (hc : x.1 = u ++ m :: n :: v) {d : Str → Data}
    (hd : (d m).start = none) : (afterAll (S.map lineOf) d n).start = some m := by
  have hnd := h.accepted.nodup
  have hdis := h.disjoint
  obtain ⟨A, B, rfl⟩ := List.append_of_mem hx
  rw [List.pairwise_append, List.pairwise_cons] at hdis
  have hl : lineOf x = v.reverse ++ n :: m :: (u.reverse ++ x.2.toList) := by
    unfold lineOf
    rw [hc]
    simp
  rw [List.map_append, List.map_cons, hl] at hnd ⊢
  refine afterAll_start_at hnd ?_ ?_ hd
  · intro p hp r hf
    obtain ⟨y, hy, rfl⟩ := List.mem_map.mp hp
    exact hdis.2.1.1 y hy n (by simp [hc]) (feeds_chain hf)
  · intro p hp r hf
    obtain ⟨y, hy, rfl⟩ := List.mem_map.mp hp
    exact hdis.2.2 y hy x (by simp) m (feeds_chain hf) (by simp [hc])

/-- What comes last in a chain is followed by nothing in any chain. -/
theorem Segs.last {S : List (List Str × Option Str)} (h : Segs S) {y : List Str × Option Str}
    (hy : y ∈ S) {n : Str} (hl : y.1.getLast? = some n) :
    ∀ x ∈ S, ∀ u l v, x.1 ≠ u ++ n :: l :: v := by
  intro x hx u l v e
  obtain ⟨a, ha⟩ := getLast_concat.mp hl
  have : y = x := h.unique hy hx (by simp [ha] : n ∈ y.1) (by simp [e])
  subst this
  have := (nodup_split (h.chain_nodup hy) ha e).2
  simp at this

end Verif.Pipe
