import Verif.Lemmas.OrderTable

/-! # Two parts of a text in the other order -/

namespace Verif.Whole

open Verif Verif.Sec

/-! ## Two definitions in the other order -/

/-- Two tables that differ in the order of two definitions. -/
def Swapped (bases : List Str) (l l' : List Symbol) : Prop :=
  ∃ s p q t i j, l = s ++ (p ++ (q ++ t)) ∧ l' = s ++ (q ++ (p ++ t)) ∧ i ≠ j ∧
    (∀ x ∈ p, x.loc = i ∧ isTop x.info = false) ∧ (∀ x ∈ q, x.loc = j ∧ isTop x.info = false) ∧
    ∀ x ∈ p, ∀ y ∈ q, x.name = y.name → minor x.info = true ∧ minor y.info = true ∧ x.name ∉ bases

theorem lookup_append (a b : List Symbol) (n : Str) :
    lookup (a ++ b) n = (lookup a n).or (lookup b n) := by
  unfold lookup
  rw [List.find?_append]

theorem isEmpty_append {α : Type} (a b : List α) : (a ++ b).isEmpty = (a.isEmpty && b.isEmpty) := by
  cases a <;> rfl

variable {bases : List Str} {l l' : List Symbol}

theorem Swapped.append (h : Swapped bases l l') (r : List Symbol) :
    Swapped bases (l ++ r) (l' ++ r) := by
  obtain ⟨s, p, q, t, i, j, rfl, rfl, h⟩ := h
  exact ⟨s, p, q, t ++ r, i, j, by simp, by simp, h⟩

theorem Swapped.lookup (h : Swapped bases l l') (n : Str) :
    lookup l n = lookup l' n ∨ (n ∉ bases ∧ ∃ x y, lookup l n = some x ∧ lookup l' n = some y ∧
      minor x.info = true ∧ minor y.info = true) := by
  obtain ⟨s, p, q, t, i, j, rfl, rfl, hij, hp, hq, h⟩ := h
  simp only [lookup_append]
  cases hs : Sec.lookup s n with
  | some x => exact .inl rfl
  | none =>
    cases h1 : Sec.lookup p n with
    | none => exact .inl rfl
    | some x =>
      cases h2 : Sec.lookup q n with
      | none => exact .inl rfl
      | some y =>
        obtain ⟨hx, e1⟩ := lookup_mem h1
        obtain ⟨hy, e2⟩ := lookup_mem h2
        obtain ⟨a, b, c⟩ := h x hx y hy (e1.trans e2.symm)
        exact .inr ⟨e1 ▸ c, x, y, rfl, rfl, a, b⟩

theorem Swapped.found (h : Swapped bases l l') (n : Str) :
    (Sec.lookup l n).isSome = (Sec.lookup l' n).isSome := by
  rcases h.lookup n with e | ⟨-, x, y, e1, e2, -⟩
  · rw [e]
  · rw [e1, e2]; rfl

/-- What is looked for at one location is found in the same order. -/
theorem Swapped.filterMap {α : Type} (h : Swapped bases l l') {f : Symbol → Option α} {loc : Nat}
    (hf : ∀ x, x.loc ≠ loc → f x = none) : l.filterMap f = l'.filterMap f := by
  obtain ⟨s, p, q, t, i, j, rfl, rfl, hij, hp, hq, -⟩ := h
  have none_of : ∀ {r : List Symbol}, (∀ x ∈ r, f x = none) → r.filterMap f = [] := by
    intro r hr
    rw [List.filterMap_eq_nil_iff]
    exact hr
  simp only [List.filterMap_append]
  by_cases hl : loc = i
  · rw [none_of (r := q) fun x hx => hf x (by rw [(hq x hx).1]; omega)]
    simp
  · rw [none_of (r := p) fun x hx => hf x (by rw [(hp x hx).1]; omega)]
    simp

theorem findSome_head {α β : Type} (f : α → Option β) (l : List α) :
    l.findSome? f = (l.filterMap f).head? := by
  induction l with
  | nil => rfl
  | cons x l ih =>
    rw [List.findSome?_cons, List.filterMap_cons]
    cases f x with
    | none => exact ih
    | some b => rfl

theorem Swapped.alike {st st' : Sec.State} (h : Swapped bases st.symbols st'.symbols)
    (hx : st.ext = st'.ext) (he : st.errs.isEmpty = st'.errs.isEmpty) : Matching bases st st' := by
  have hc : ∀ loc, columnsAt st.symbols loc = columnsAt st'.symbols loc := fun loc =>
    h.filterMap (loc := loc) fun x hx => by
      obtain ⟨n, k, i⟩ := x
      cases i <;> simp_all
  have ht : ∀ loc, tablesAt st.symbols loc = tablesAt st'.symbols loc := fun loc =>
    h.filterMap (loc := loc) fun x hx => by
      obtain ⟨n, k, i⟩ := x
      cases i <;> simp_all
  have hl : ∀ loc, filesAt st.symbols loc = filesAt st'.symbols loc := fun loc =>
    h.filterMap (loc := loc) fun x hx => by
      obtain ⟨n, k, i⟩ := x
      cases i <;> simp_all
  have hs : ∀ loc, schemaAt st.symbols loc = schemaAt st'.symbols loc := fun loc => by
    unfold schemaAt
    rw [findSome_head, findSome_head, h.filterMap (loc := loc) fun x hx => by
      obtain ⟨n, k, i⟩ := x
      cases i <;> simp_all]
  have hb : ∀ n ∈ bases, Sec.lookup st.symbols n = Sec.lookup st'.symbols n := fun n hn =>
    (h.lookup n).resolve_right fun e => e.1 hn
  constructor
  · intro n
    rcases h.lookup n with e | ⟨-, x, y, e1, e2, h1, h2⟩
    · rw [e]; exact .inl rfl
    · rw [e1, e2]; exact .inr ⟨_, _, rfl, rfl, h1, h2⟩
  · intro n hn
    unfold Sec.schemaOf
    rw [hb n hn]
    simp only [hc]
  · intro n hn
    unfold Sec.columnFields
    rw [hb n hn]
    simp only [hc, hs]
  · intro n
    rcases h.lookup n with e | ⟨-, x, y, e1, e2, h1, h2⟩
    · unfold Sec.sourceOf
      rw [e]
      simp only [hl, ht]
    · unfold Sec.sourceOf
      rw [e1, e2]
      obtain ⟨n1, k1, i1⟩ := x
      obtain ⟨n2, k2, i2⟩ := y
      cases i1 <;> cases h1 <;> cases i2 <;> cases h2 <;> rfl
  · obtain ⟨s, p, q, t, i, j, e1, e2, -, hp, hq, -⟩ := h
    have ep : p.filter (fun x => isTop x.info) = [] := by
      rw [List.filter_eq_nil_iff]
      intro x hx
      rw [(hp x hx).2]; simp
    have eq : q.filter (fun x => isTop x.info) = [] := by
      rw [List.filter_eq_nil_iff]
      intro x hx
      rw [(hq x hx).2]; simp
    rw [e1, e2]
    simp only [List.filter_append, ep, eq, List.nil_append]
  · exact hx
  · exact he

/-- Two states that differ in the order of two definitions. -/
structure Exchanged (bases : List Str) (st st' : Sec.State) : Prop where
  symbols : Swapped bases st.symbols st'.symbols
  ext : st.ext = st'.ext
  errs : st.errs.isEmpty = st'.errs.isEmpty

theorem Exchanged.relation {st st' : Sec.State} (h : Exchanged bases st st') (loc : Nat)
    (d : PlanDetail) : Exchanged bases (visitRelation loc st d) (visitRelation loc st' d) := by
  cases d with
  | relation t =>
    have hf := h.symbols.found t.ref.id
    cases h1 : Sec.lookup st.symbols t.ref.id with
    | none =>
      cases h2 : Sec.lookup st'.symbols t.ref.id with
      | some y => rw [h1, h2] at hf; cases hf
      | none =>
        constructor
        · simp only [visitRelation, h1, h2]
          exact h.symbols.append _
        · exact h.ext
        · simp only [visitRelation, h1, h2, isEmpty_append, h.errs]
    | some x =>
      cases h2 : Sec.lookup st'.symbols t.ref.id with
      | none => rw [h1, h2] at hf; cases hf
      | some y =>
        constructor
        · simp only [visitRelation, h1, h2]
          exact h.symbols
        · exact h.ext
        · simp only [visitRelation, h1, h2, isEmpty_append, h.errs]
  | _ => exact h

theorem Exchanged.root {st st' : Sec.State} (h : Exchanged bases st st') (loc : Nat)
    (d : PlanDetail) : Exchanged bases (visitRoot loc st d) (visitRoot loc st' d) := by
  have key : ∀ st : Sec.State, ∀ ns, visitRoot loc st (.root ns) =
      if (Sec.lookup st.symbols rootNamesName).isSome then { st with errs := st.errs ++ [.rootTwice] }
      else if (Sec.lookup st.symbols rootName).isSome then { st with errs := st.errs ++ [.rootTaken] }
      else { st with symbols := st.symbols ++
          [⟨rootName, loc, .rootRelation⟩, ⟨rootNamesName, loc, .rootNames ns⟩] } := by
    intro st ns
    unfold visitRoot
    simp only
    cases Sec.lookup st.symbols rootNamesName with
    | some x => rfl
    | none => cases Sec.lookup st.symbols rootName <;> rfl
  cases d with
  | root ns =>
    rw [key, key, h.symbols.found, h.symbols.found]
    split
    · exact ⟨h.symbols, h.ext, by simp only [isEmpty_append, h.errs]⟩
    · split
      · exact ⟨h.symbols, h.ext, by simp only [isEmpty_append, h.errs]⟩
      · exact ⟨h.symbols.append _, h.ext, h.errs⟩
  | _ => exact h

theorem Exchanged.rels : ∀ (l : List (Nat × PlanDetail)) {st st' : Sec.State},
    Exchanged bases st st' → Exchanged bases (relsAt l st) (relsAt l st')
  | [], _, _, h => h
  | p :: l, _, _, h => Exchanged.rels l (h.relation p.1 p.2)

theorem Exchanged.roots : ∀ (l : List (Nat × PlanDetail)) {st st' : Sec.State},
    Exchanged bases st st' → Exchanged bases (rootsAt l st) (rootsAt l st')
  | [], _, _, h => h
  | p :: l, _, _, h => Exchanged.roots l (h.root p.1 p.2)

/-- Two parts of a text that can be exchanged: they are not of the same kind, or both are schemas or
sources. -/
def Free (x y : PlanDetail) : Prop :=
  (relationOf x = none ∨ relationOf y = none) ∧ (pipelinesOf x = none ∨ pipelinesOf y = none) ∧
  (rootOf x = none ∨ rootOf y = none) ∧ (spaceOf x = none ∨ spaceOf y = none)

theorem relsAt_swap {p q : Nat × PlanDetail} (h : Free p.2 q.2) :
    ∀ (a b : List (Nat × PlanDetail)) (st : Sec.State),
    relsAt (a ++ p :: q :: b) st = relsAt (a ++ q :: p :: b) st
  | [], b, st => by
    have key : ∀ (k : Nat) (st : Sec.State) (d : PlanDetail), relationOf d = none →
        visitRelation k st d = st := by
      intro k st d hd
      cases d with
      | relation t => cases hd
      | _ => rfl
    simp only [List.nil_append, relsAt]
    rcases h.1 with h | h
    · rw [key _ _ _ h, key _ _ _ h]
    · rw [key _ _ _ h, key _ _ _ h]
  | r :: a, b, st => relsAt_swap h a b _

theorem rootsAt_swap {p q : Nat × PlanDetail} (h : Free p.2 q.2) :
    ∀ (a b : List (Nat × PlanDetail)) (st : Sec.State),
    rootsAt (a ++ p :: q :: b) st = rootsAt (a ++ q :: p :: b) st
  | [], b, st => by
    have key : ∀ (k : Nat) (st : Sec.State) (d : PlanDetail), rootOf d = none →
        visitRoot k st d = st := by
      intro k st d hd
      cases d with
      | root t => cases hd
      | _ => rfl
    simp only [List.nil_append, rootsAt]
    rcases h.2.2.1 with h | h
    · rw [key _ _ _ h, key _ _ _ h]
    · rw [key _ _ _ h, key _ _ _ h]
  | r :: a, b, st => rootsAt_swap h a b _

theorem extsOf_swap {p q : Nat × PlanDetail} (h : Free p.2 q.2) (a b : List (Nat × PlanDetail))
    (e : Ext.State) : extsOf e (a ++ p :: q :: b) = extsOf e (a ++ q :: p :: b) := by
  have key : ∀ (e : Ext.State) (d : PlanDetail), spaceOf d = none → extOf e d = e := by
    intro e d hd
    cases d with
    | space t => cases hd
    | _ => rfl
  unfold extsOf
  simp only [List.foldl_append, List.foldl_cons]
  rcases h.2.2.2 with h | h
  · rw [key _ _ h, key _ _ h]
  · rw [key _ _ h, key _ _ h]

/-- Two parts with their locations in the other order. -/
theorem planAt_swap {a b : List (Nat × PlanDetail)} {p q : Nat × PlanDetail} (h : Free p.2 q.2)
    (hl : p.1 ≠ q.1) (hc : Clear bases p.2 q.2) (h1 : FilesNew [] (a ++ p :: q :: b))
    (h2 : FilesNew [] (a ++ q :: p :: b)) {st : Sec.State}
    (hs : planAt (a ++ p :: q :: b) = .ok st) :
    ∃ st', planAt (a ++ q :: p :: b) = .ok st' ∧ Matching bases st st' := by
  unfold planAt at hs ⊢
  obtain ⟨x, hx, hs⟩ := Outcome.of_map hs
  subst hs
  obtain ⟨ss, es, hb, rfl⟩ := (defsAt_blocks (st := {}) h1).mp hx
  obtain ⟨s1, e1, s2, e2, ha, hr, rfl, rfl⟩ := hb.split
  cases hr with
  | cons hp hr =>
    rename_i s2 e2 rp
    cases hr with
    | cons hq hr =>
      rename_i s2 e2 rq
      have hb' := Blocks.append (Blocks.cons hq (Blocks.cons hp hr)) ha
      have hd := (defsAt_blocks (st := {}) h2).mpr ⟨_, _, hb', rfl⟩
      refine ⟨_, by rw [hd]; rfl, ?_⟩
      have hE : Exchanged bases
          ⟨s1 ++ (rp.symbols ++ (rq.symbols ++ s2)), extsOf {} (a ++ p :: q :: b),
            e1 ++ (rp.errs ++ (rq.errs ++ e2))⟩
          ⟨s1 ++ (rq.symbols ++ (rp.symbols ++ s2)), extsOf {} (a ++ q :: p :: b),
            e1 ++ (rq.errs ++ (rp.errs ++ e2))⟩ := by
        refine ⟨⟨s1, rp.symbols, rq.symbols, s2, p.1, q.1, rfl, rfl, hl,
          fun x hx => (visitDefinition_own hp x hx).2, fun x hx => (visitDefinition_own hq x hx).2, ?_⟩,
          extsOf_swap h a b _, ?_⟩
        · intro x hx y hy e
          rcases hc with ⟨c1, c2⟩ | hc
          · rcases h.2.2.2 with h | h
            · rw [h] at c1; cases c1
            · rw [h] at c2; cases c2
          · have o1 := (visitDefinition_own hp x hx).1
            have o2 := (visitDefinition_own hq y hy).1
            rw [← e] at o2
            obtain ⟨c1, c2, c3⟩ := hc _ _ _ o1 o2
            exact ⟨by simpa using c1, by simpa using c2, c3⟩
        · simp only [isEmpty_append]
          cases e1.isEmpty <;> cases rp.errs.isEmpty <;> cases rq.errs.isEmpty <;> rfl
      have hE2 := (hE.rels (a ++ p :: q :: b)).roots (a ++ p :: q :: b)
      have key := hE2.symbols.alike hE2.ext hE2.errs
      rw [relsAt_swap h a b ⟨s1 ++ (rq.symbols ++ (rp.symbols ++ s2)), _, _⟩, rootsAt_swap h a b
        (relsAt (a ++ q :: p :: b) _)] at key
      simpa using key

end Verif.Whole

namespace Verif.Whole

open Verif Verif.Sec

/-! ## Every relation gets a symbol -/

theorem visitRelation_keeps {loc : Nat} {d : PlanDetail} {st : Sec.State} {n : Str}
    (h : (Sec.lookup st.symbols n).isSome = true) :
    (Sec.lookup (visitRelation loc st d).symbols n).isSome = true := by
  cases d with
  | relation t =>
    unfold visitRelation
    simp only
    split
    · exact h
    · rw [lookup_append]; simp [h]
  | _ => exact h

theorem visitRelation_own {loc : Nat} {t : Rel.RelTree} {st : Sec.State} :
    (Sec.lookup (visitRelation loc st (.relation t)).symbols t.ref.id).isSome = true := by
  unfold visitRelation
  simp only
  split
  · rename_i e; simp [e]
  · rw [lookup_append]; simp [Sec.lookup]

theorem relsAt_keeps {n : Str} : ∀ {l : List (Nat × PlanDetail)} {st : Sec.State},
    (Sec.lookup st.symbols n).isSome = true → (Sec.lookup (relsAt l st).symbols n).isSome = true
  | [], _, h => h
  | p :: l, st, h => by
    show (Sec.lookup (relsAt l (visitRelation p.1 st p.2)).symbols n).isSome = true
    exact relsAt_keeps (visitRelation_keeps h)

theorem rootsAt_keeps {n : Str} : ∀ {l : List (Nat × PlanDetail)} {st : Sec.State},
    (Sec.lookup st.symbols n).isSome = true → (Sec.lookup (rootsAt l st).symbols n).isSome = true
  | [], _, h => h
  | (loc, d) :: l, st, h => by
    show (Sec.lookup (rootsAt l (visitRoot loc st d)).symbols n).isSome = true
    refine rootsAt_keeps ?_
    cases d with
    | root ns =>
      unfold visitRoot
      simp only
      split
      · exact h
      · split
        · exact h
        · rw [lookup_append]; simp [h]
    | _ => exact h

theorem relsAt_own {t : Rel.RelTree} : ∀ {l : List (Nat × PlanDetail)} {st : Sec.State},
    t ∈ (l.map (·.2)).filterMap relationOf →
      (Sec.lookup (relsAt l st).symbols t.ref.id).isSome = true
  | [], _, h => by cases h
  | (loc, d) :: l, st, h => by
    unfold relsAt
    simp only [List.map_cons, List.filterMap_cons] at h
    cases d with
    | relation u =>
      simp only [relationOf, List.mem_cons] at h
      rcases h with rfl | h
      · exact relsAt_keeps visitRelation_own
      · exact relsAt_own h
    | _ => exact relsAt_own h

theorem number_map : ∀ (n : Nat) (ds : List PlanDetail), (number n ds).map (·.2) = ds
  | _, [] => rfl
  | n, d :: ds => by simp [number, number_map (n + 1) ds]

theorem visitPlan_relation {ds : List PlanDetail} {st : Sec.State} (h : visitPlan ds = .ok st)
    {t : Rel.RelTree} (ht : t ∈ ds.filterMap relationOf) :
    (Sec.lookup st.symbols t.ref.id).isSome = true := by
  rw [← planAt_number] at h
  obtain ⟨a, -, rfl⟩ := Outcome.of_map h
  refine rootsAt_keeps (relsAt_own ?_)
  rw [number_map]
  exact ht

theorem Tidy.known {ds : List PlanDetail} (h : Tidy ds) {st : Sec.State}
    (hs : visitPlan ds = .ok st) : refsKnown st.symbols [] ds = true := by
  refine refsKnown_of fun t ht n hn => ?_
  obtain ⟨u, hu, rfl⟩ := List.mem_map.mp (h.queries t ht n hn)
  exact visitPlan_relation hs hu

/-! ## Files have new names -/

theorem fileNames_given {d : PlanDetail} {n : Str} (h : n ∈ fileNames d) :
    (n, true) ∈ given d ∧ spaceOf d = none := by
  cases d with
  | source t =>
    cases t with
    | localFiles id fs =>
      obtain ⟨f, hf, rfl⟩ := List.mem_map.mp h
      exact ⟨List.mem_cons_of_mem _ (List.mem_map.mpr ⟨f, hf, rfl⟩), rfl⟩
    | _ => cases h
  | _ => cases h

theorem filesNew_of {bases : List Str} : ∀ {l : List (Nat × PlanDetail)} {before : List Str},
    (l.map (·.2)).Pairwise (Clear bases) →
    (∀ p ∈ l, ∀ n ∈ fileNames p.2, n ∉ before) → FilesNew before l
  | [], _, _, _ => trivial
  | p :: l, before, h, hb => by
    rw [List.map_cons, List.pairwise_cons] at h
    refine ⟨hb p (by simp), filesNew_of h.2 fun q hq n hn hm => ?_⟩
    rcases List.mem_append.mp hm with hm | hm
    · exact hb q (by simp [hq]) n hn hm
    · obtain ⟨x, hx, rfl⟩ := List.mem_map.mp hm
      obtain ⟨h1, h2⟩ := fileNames_given hn
      rcases h.1 q.2 (List.mem_map.mpr ⟨q, hq, rfl⟩) with hc | hc
      · rw [h2] at hc; cases hc.2
      · cases (hc x.1 x.2 true hx h1).2.1

/-! ## One step -/

theorem Clear.symm {bases : List Str} {d e : PlanDetail} (h : Clear bases d e) : Clear bases e d := by
  rcases h with h | h
  · exact .inl ⟨h.2, h.1⟩
  · exact .inr fun n a b ha hb => ⟨(h n b a hb ha).2.1, (h n b a hb ha).1, (h n b a hb ha).2.2⟩

theorem Free.symm {x y : PlanDetail} (h : Free x y) : Free y x :=
  ⟨h.1.symm, h.2.1.symm, h.2.2.1.symm, h.2.2.2.symm⟩

theorem filterMap_swap {α β : Type} {f : α → Option β} {x y : α} (h : f x = none ∨ f y = none)
    (a b : List α) : (a ++ x :: y :: b).filterMap f = (a ++ y :: x :: b).filterMap f := by
  simp only [List.filterMap_append, List.filterMap_cons]
  rcases h with h | h <;> simp [h]

theorem perm_swap {α : Type} (a b : List α) (x y : α) : (a ++ x :: y :: b).Perm (a ++ y :: x :: b) :=
  .append_left a (.swap y x b)

theorem Tidy.perm {ds ds' : List PlanDetail} (h : Tidy ds) (hp : ds.Perm ds')
    (hr : ds.filterMap relationOf = ds'.filterMap relationOf) : Tidy ds' := by
  constructor
  · have e : basesOf ds' = basesOf ds := by unfold basesOf; rw [hr]
    rw [e]
    exact (hp.pairwise_iff fun h => h.symm).mp h.names
  · rw [← hr]; exact h.queries

/-- The locations of two parts exchanged. -/
def trade (k n : Nat) : Nat := if n = k then k + 1 else if n = k + 1 then k else n

theorem trade_inj {k : Nat} {a b : Nat} (h : trade k a = trade k b) : a = b := by
  unfold trade at h
  split at h <;> split at h <;> (try split at h) <;> (try split at h) <;> omega

theorem trade_number {k n : Nat} {a : List PlanDetail} (h : n + a.length ≤ k ∨ k + 1 < n) :
    (number n a).map (moved (trade k)) = number n a := by
  conv => rhs; rw [← List.map_id (number n a)]
  refine List.map_congr_left fun p hp => ?_
  have := number_lt hp
  unfold moved trade
  rw [if_neg (by omega), if_neg (by omega)]
  rfl

theorem fromDetails_swap {a b : List PlanDetail} {x y : PlanDetail} (h : Free x y)
    (ht : Tidy (a ++ x :: y :: b)) {lib : Literal.Lib} {fuel : Nat} {r : Binary}
    (hr : fromDetails lib fuel (a ++ x :: y :: b) = .ok r) :
    fromDetails lib fuel (a ++ y :: x :: b) = .ok r := by
  have ht' : Tidy (a ++ y :: x :: b) := ht.perm (perm_swap a b x y) (filterMap_swap h.1 a b)
  rw [fromDetails_eq] at hr ⊢
  obtain ⟨st, h1, h2⟩ := Outcome.of_bind hr
  have hk := ht.known h1
  have e1 := planAt_move (trade a.length) (number 0 (a ++ x :: y :: b))
  have hn : ∀ x y : PlanDetail, number 0 (a ++ x :: y :: b) = number 0 a ++ (a.length, x) ::
      (a.length + 1, y) :: number (a.length + 1 + 1) b := by
    intro x y
    rw [number_append]; simp [number]
  rw [planAt_number, h1, hn, List.map_append, List.map_cons, List.map_cons,
    trade_number (.inl (by omega)), trade_number (.inr (by omega))] at e1
  have t1 : moved (trade a.length) (a.length, x) = (a.length + 1, x) := by simp [moved, trade]
  have t2 : moved (trade a.length) (a.length + 1, y) = (a.length, y) := by simp [moved, trade]
  rw [t1, t2] at e1
  have hm : ∀ x y : PlanDetail, ∀ i j, (number 0 a ++ (i, x) :: (j, y) ::
      number (a.length + 1 + 1) b).map (·.2) = a ++ x :: y :: b := by
    intro x y i j
    simp [number_map]
  have hc : Clear (basesOf (a ++ x :: y :: b)) x y := by
    have := ht.names
    rw [List.pairwise_append] at this
    exact (List.pairwise_cons.mp this.2.1).1 y (by simp)
  obtain ⟨st', e2, hal⟩ := planAt_swap (bases := basesOf (a ++ x :: y :: b))
    (a := number 0 a) (b := number (a.length + 1 + 1) b) (p := (a.length + 1, x))
    (q := (a.length, y)) h (by simp) hc
    (filesNew_of (by rw [hm]; exact ht.names) (by simp))
    (filesNew_of (by rw [hm]; exact ht'.names) (by simp)) e1
  rw [← hn, planAt_number] at e2
  rw [e2]
  have hk' := ht'.known e2
  have hb : Bases (basesOf (a ++ x :: y :: b)) ((a ++ x :: y :: b).filterMap relationOf) :=
    fun t htm id hid => List.mem_flatMap.mpr ⟨t, htm, List.mem_filterMap.mpr ⟨_, hid, rfl⟩⟩
  have hmv : refsKnown (st.move (trade a.length)).symbols [] (a ++ x :: y :: b) = true := by
    have := (matching_move (f := trade a.length) trade_inj [] st).found
    refine refsKnown_of fun t htm n hn => ?_
    obtain ⟨u, hu, rfl⟩ := List.mem_map.mp (ht.queries t htm n hn)
    rw [← this]
    exact visitPlan_relation h1 hu
  show fromState lib fuel (a ++ y :: x :: b) st' = .ok r
  rw [← hal.fromState (filterMap_swap h.1 a b) (filterMap_swap h.2.1 a b) hb (by rw [hmv, hk']),
    ← (matching_move trade_inj _ st).fromState rfl rfl hb (by rw [hk, hmv])]
  exact h2

/-! ## Many steps -/

/-- Neighbours exchanged, again and again. -/
inductive Steps : List PlanDetail → List PlanDetail → Prop
  | refl (l) : Steps l l
  | step {a b x y l} : Free x y → Steps (a ++ y :: x :: b) l → Steps (a ++ x :: y :: b) l

theorem Steps.trans {l m n : List PlanDetail} (h : Steps l m) (h' : Steps m n) : Steps l n := by
  induction h with
  | refl l => exact h'
  | step hf _ ih => exact .step hf (ih h')

theorem Steps.cons {l m : List PlanDetail} (d : PlanDetail) (h : Steps l m) :
    Steps (d :: l) (d :: m) := by
  induction h with
  | refl l => exact .refl _
  | step hf _ ih => exact Steps.step (a := d :: _) hf ih

theorem Steps.front {x : PlanDetail} {b : List PlanDetail} : ∀ {a : List PlanDetail},
    (∀ d ∈ a, Free d x) → Steps (a ++ x :: b) (x :: (a ++ b))
  | [], _ => .refl _
  | d :: a, h => by
    refine Steps.trans (.cons d (Steps.front fun e he => h e (by simp [he]))) ?_
    exact .step (a := []) (h d (by simp)) (.refl _)

theorem fromDetails_steps {ds ds' : List PlanDetail} (hs : Steps ds ds') (ht : Tidy ds)
    {lib : Literal.Lib} {fuel : Nat} {r : Binary} (hr : fromDetails lib fuel ds = .ok r) :
    fromDetails lib fuel ds' = .ok r := by
  induction hs with
  | refl l => exact hr
  | step hf _ ih =>
    exact ih (ht.perm (perm_swap _ _ _ _) (filterMap_swap hf.1 _ _)) (fromDetails_swap hf ht hr)

theorem Reordered.symm {ds ds' : List PlanDetail} (h : Reordered ds ds') : Reordered ds' ds :=
  ⟨h.perm.symm, h.relations.symm, h.pipelines.symm, h.roots.symm, h.spaces.symm⟩

/-- Without its first element, if that is not moved over its like. -/
theorem filterMap_drop {α : Type} {f : PlanDetail → Option α} {a b ds : List PlanDetail}
    {x : PlanDetail} (h : (a ++ x :: b).filterMap f = (x :: ds).filterMap f)
    (hf : ∀ d ∈ a, f d = none ∨ f x = none) : (a ++ b).filterMap f = ds.filterMap f := by
  cases hx : f x with
  | none => simpa [List.filterMap_append, List.filterMap_cons, hx] using h
  | some v =>
    have ha : a.filterMap f = [] := by
      rw [List.filterMap_eq_nil_iff]
      intro d hd
      rcases hf d hd with h | h
      · exact h
      · rw [hx] at h; cases h
    rw [List.filterMap_append, List.filterMap_cons, hx, ha, List.filterMap_cons, hx] at h
    rw [List.filterMap_append, ha]
    exact (List.cons.inj h).2

/-- The first element of a kind in one list is the first of this kind in the other. -/
theorem first_of {α : Type} {f : PlanDetail → Option α} {ds ds' : List PlanDetail} {x : PlanDetail}
    {v : α} (hx : f x = some v) (hi : ∀ y, f y = some v → y = x)
    (h : ds.filterMap f = (x :: ds').filterMap f) :
    ∃ a b, ds = a ++ x :: b ∧ ∀ d ∈ a, f d = none := by
  rw [List.filterMap_cons, hx] at h
  obtain ⟨a, y, b, rfl, ha, hy, -⟩ := List.filterMap_eq_cons_iff.mp h
  rw [hi y hy]
  exact ⟨a, b, rfl, ha⟩

theorem Reordered.first {ds ds' : List PlanDetail} {x : PlanDetail} (h : Reordered ds (x :: ds')) :
    ∃ a b, ds = a ++ x :: b ∧ ∀ d ∈ a, Free d x := by
  cases x with
  | relation t =>
    obtain ⟨a, b, e, ha⟩ := first_of (f := relationOf) rfl (by
      intro y hy; cases y <;> simp_all [relationOf]) h.relations
    exact ⟨a, b, e, fun d hd => ⟨.inl (ha d hd), .inr rfl, .inr rfl, .inr rfl⟩⟩
  | pipelines ps =>
    obtain ⟨a, b, e, ha⟩ := first_of (f := pipelinesOf) rfl (by
      intro y hy; cases y <;> simp_all [pipelinesOf]) h.pipelines
    exact ⟨a, b, e, fun d hd => ⟨.inr rfl, .inl (ha d hd), .inr rfl, .inr rfl⟩⟩
  | root ns =>
    obtain ⟨a, b, e, ha⟩ := first_of (f := rootOf) rfl (by
      intro y hy; cases y <;> simp_all [rootOf]) h.roots
    exact ⟨a, b, e, fun d hd => ⟨.inr rfl, .inr rfl, .inl (ha d hd), .inr rfl⟩⟩
  | space t =>
    obtain ⟨a, b, e, ha⟩ := first_of (f := spaceOf) rfl (by
      intro y hy; cases y <;> simp_all [spaceOf]) h.spaces
    exact ⟨a, b, e, fun d hd => ⟨.inr rfl, .inr rfl, .inr rfl, .inl (ha d hd)⟩⟩
  | schema id cs =>
    obtain ⟨a, b, e⟩ := List.append_of_mem (h.perm.mem_iff.mpr (List.mem_cons_self ..))
    exact ⟨a, b, e, fun d hd => ⟨.inr rfl, .inr rfl, .inr rfl, .inr rfl⟩⟩
  | source t =>
    obtain ⟨a, b, e⟩ := List.append_of_mem (h.perm.mem_iff.mpr (List.mem_cons_self ..))
    exact ⟨a, b, e, fun d hd => ⟨.inr rfl, .inr rfl, .inr rfl, .inr rfl⟩⟩

theorem Reordered.steps : ∀ {ds' ds : List PlanDetail}, Reordered ds ds' → Steps ds ds'
  | [], ds, h => by
    rw [h.perm.eq_nil]
    exact .refl _
  | x :: ds', ds, h => by
    obtain ⟨a, b, rfl, ha⟩ := h.first
    refine Steps.trans (.front ha) (.cons x (Reordered.steps ⟨?_, ?_, ?_, ?_, ?_⟩))
    · exact (List.perm_cons x).mp (List.perm_middle.symm.trans h.perm)
    · exact filterMap_drop h.relations fun d hd => (ha d hd).1
    · exact filterMap_drop h.pipelines fun d hd => (ha d hd).2.1
    · exact filterMap_drop h.roots fun d hd => (ha d hd).2.2.1
    · exact filterMap_drop h.spaces fun d hd => (ha d hd).2.2.2

end Verif.Whole
