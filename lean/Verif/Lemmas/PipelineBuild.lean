import Verif.Lemmas.PipelineTree

/-!
# Printing the pipelines of a tree, and building the tree again
-/

namespace Verif.Pipe

open Verif

/-! ## Lookups -/

mutual
theorem entries_names : ∀ (r : Rel) (x : Str), ((entries r).map (·.1)).count x = (names r).count x
  | .node k n ins subs, x => by
    have h1 := entriesL_names ins x
    have h2 := entriesL_names subs x
    unfold entries names arrange
    split <;>
      simp only [List.map_append, List.count_append, List.map_cons, List.map_nil,
        List.count_cons, List.count_nil] <;> omega
theorem entriesL_names : ∀ (rs : List Rel) (x : Str),
    ((entriesL rs).map (·.1)).count x = (namesL rs).count x
  | [], x => rfl
  | r :: rs, x => by
    have h1 := entries_names r x
    have h2 := entriesL_names rs x
    simp only [entriesL, namesL, List.map_append, List.count_append]
    omega
end

theorem entries_perm (r : Rel) : ((entries r).map (·.1)).Perm (names r) :=
  List.perm_iff_count.mpr (entries_names r)

/-- The symbol of a relation. -/
def entryOf : Rel → Str × Entry
  | .node k n ins subs => (n, .rel (some k) (dataOf k ins subs))

theorem entryOf_name (m : Rel) : (entryOf m).1 = m.name := by
  cases m with
  | node k n ins subs => rfl

mutual
theorem mem_entries : ∀ (r : Rel) (e : Str × Entry), e ∈ entries r ↔ ∃ m ∈ nodes r, entryOf m = e
  | .node k n ins subs, e => by
    simp only [entries, nodes, List.mem_append, mem_arrange, mem_entriesL ins e,
      mem_entriesL subs e, List.mem_cons, List.not_mem_nil, or_false, exists_eq_or_imp]
    constructor
    · rintro ((⟨m, h, r⟩ | ⟨m, h, r⟩) | h)
      · exact .inr ⟨m, .inl h, r⟩
      · exact .inr ⟨m, .inr h, r⟩
      · exact .inl h.symm
    · rintro (h | ⟨m, h | h, r⟩)
      · exact .inr h.symm
      · exact .inl (.inl ⟨m, h, r⟩)
      · exact .inl (.inr ⟨m, h, r⟩)
theorem mem_entriesL : ∀ (rs : List Rel) (e : Str × Entry),
    e ∈ entriesL rs ↔ ∃ m ∈ nodesL rs, entryOf m = e
  | [], e => by simp [entriesL, nodesL]
  | r :: rs, e => by
    simp only [entriesL, nodesL, List.mem_append, mem_entries r e, mem_entriesL rs e]
    constructor
    · rintro (⟨m, h, r⟩ | ⟨m, h, r⟩)
      · exact ⟨m, .inl h, r⟩
      · exact ⟨m, .inr h, r⟩
    · rintro ⟨m, h | h, r⟩
      · exact .inl ⟨m, h, r⟩
      · exact .inr ⟨m, h, r⟩
end

theorem find_nodup {l : List (Str × Entry)} (hn : (l.map (·.1)).Nodup) {e : Str × Entry}
    (he : e ∈ l) : (l.find? fun x => x.1 == e.1) = some e := by
  induction l with
  | nil => simp at he
  | cons a l ih =>
    rw [List.map_cons, List.nodup_cons] at hn
    rcases List.mem_cons.mp he with rfl | he'
    · simp
    · have : (a.1 == e.1) = false := by
        simp only [beq_eq_false_iff_ne, ne_eq]
        exact fun h => hn.1 (h ▸ List.mem_map.mpr ⟨e, he', rfl⟩)
      rw [List.find?_cons, this]
      exact ih hn.2 he'

theorem get_tableOf {l : List (Str × Entry)} (hn : (l.map (·.1)).Nodup) {e : Str × Entry}
    (he : e ∈ l) : (tableOf l).get e.1 = some e.2 := by
  unfold tableOf
  simp only [find_nodup hn he, Option.map_some]

theorem get_tableOf_none {l : List (Str × Entry)} {n : Str} (h : n ∉ l.map (·.1)) :
    (tableOf l).get n = none := by
  unfold tableOf
  simp only [Option.map_eq_none_iff, List.find?_eq_none, beq_iff_eq]
  exact fun x hx e => h (e ▸ List.mem_map.mpr ⟨x, hx, rfl⟩)

theorem convert_nodup {root : Str} {r : Rel} (hn : (names r).Nodup) (hr : root ∉ names r)
    (e : Entry) : ((entries r ++ [(root, e)]).map (·.1)).Nodup := by
  rw [List.map_append, List.nodup_append]
  refine ⟨(entries_perm r).nodup_iff.mpr hn, by simp, ?_⟩
  intro a ha b hb
  simp only [List.map_cons, List.map_nil, List.mem_singleton] at hb
  rw [hb]
  exact fun e' => hr (e' ▸ (entries_perm r).mem_iff.mp ha)

/-! ## Printing -/

theorem convert_data {root : Str} {r : Rel} (hn : (names r).Nodup) (hr : root ∉ names r)
    {k : RelKind} {n : Str} {ins subs : List Rel} (hm : Rel.node k n ins subs ∈ nodes r) :
    (convert root r).data n = dataOf k ins subs := by
  have he : entryOf (.node k n ins subs) ∈ entries r := (mem_entries r _).mpr ⟨_, hm, rfl⟩
  have := get_tableOf (convert_nodup hn hr (.rel none ⟨none, none, [r.name], []⟩))
    (e := entryOf (.node k n ins subs)) (List.mem_append_left _ he)
  unfold Table.data convert
  rw [show n = (entryOf (.node k n ins subs)).1 from rfl, this]
  rfl

theorem convert_root {root : Str} {r : Rel} (hn : (names r).Nodup) (hr : root ∉ names r) :
    (convert root r).data root = ⟨none, none, [r.name], []⟩ := by
  have := get_tableOf (convert_nodup hn hr (.rel none ⟨none, none, [r.name], []⟩))
    (e := (root, .rel none ⟨none, none, [r.name], []⟩)) (by simp)
  unfold Table.data convert
  rw [this]

mutual
theorem path_chain (t : Table) : ∀ (r : Rel), Fits r →
    (∀ k n ins subs, Rel.node k n ins subs ∈ nodes r → t.data n = dataOf k ins subs) →
    ∀ f, (names r).length ≤ f → path t f r.name = .ok (chain r)
  | .node k n ins subs, hf, hd, f, hl => by
    simp only [Fits] at hf
    obtain ⟨hw, ha, -, hi, -⟩ := hf
    simp only [names, List.length_cons, List.length_append] at hl
    obtain ⟨f, rfl⟩ : ∃ g, f = g + 1 := ⟨f - 1, by omega⟩
    have hdn := hd k n ins subs (by simp [nodes])
    simp only [path, Rel.name, hdn, dataOf]
    rw [chain]
    cases hc : convShape k with
    | none => simp
    | single =>
      obtain ⟨i, rfl⟩ := arity_single hw ha hc
      have := path_chainL t [i] hi
        (fun k' n' i' s' h => hd k' n' i' s' (by simp [nodes, h])) f (by omega) i (by simp)
      simp [this, chainHead, Outcome.map]
    | binary => simp
    | many => simp
theorem path_chainL (t : Table) : ∀ (rs : List Rel), FitsL rs →
    (∀ k n ins subs, Rel.node k n ins subs ∈ nodesL rs → t.data n = dataOf k ins subs) →
    ∀ f, (namesL rs).length ≤ f → ∀ r ∈ rs, path t f r.name = .ok (chain r)
  | [], _, _, _, _, r, hr => by simp at hr
  | a :: rs, hf, hd, f, hl, r, hr => by
    simp only [FitsL] at hf
    simp only [namesL, List.length_append] at hl
    rcases List.mem_cons.mp hr with e | hr
    · rw [e]
      exact path_chain t a hf.1 (fun k n i s h => hd k n i s (by simp [nodesL, h])) f (by omega)
    · exact path_chainL t rs hf.2 (fun k n i s h => hd k n i s (by simp [nodesL, h])) f
        (by omega) r hr
end

theorem mapM_ok {α β : Type} {f : α → Outcome β} {g : α → β} : ∀ {l : List α},
    (∀ a ∈ l, f a = .ok (g a)) → Outcome.mapM f l = .ok (l.map g)
  | [], _ => rfl
  | a :: l, h => by
    rw [Outcome.mapM_cons, h a (by simp), Outcome.bind_ok, mapM_ok fun b hb => h b (by simp [hb])]
    rfl

theorem mapM_append {α β : Type} {f : α → Outcome β} {bs cs : List β} : ∀ {l l' : List α} ,
    Outcome.mapM f l = .ok bs → Outcome.mapM f l' = .ok cs →
    Outcome.mapM f (l ++ l') = .ok (bs ++ cs) := by
  intro l
  induction l generalizing bs with
  | nil =>
    intro l' h h'
    simp only [Outcome.mapM_nil, Outcome.ok.injEq] at h
    rw [← h]; exact h'
  | cons a l ih =>
    intro l' h h'
    rw [Outcome.mapM_cons] at h
    cases ha : f a with
    | throw e => rw [ha] at h; simp at h
    | ub => rw [ha] at h; simp at h
    | ok b =>
      rw [ha, Outcome.bind_ok] at h
      cases hl : Outcome.mapM f l with
      | throw e => rw [hl] at h; simp at h
      | ub => rw [hl] at h; simp at h
      | ok ds =>
        rw [hl, Outcome.bind_ok] at h
        simp only [Outcome.ok.injEq] at h
        rw [List.cons_append, Outcome.mapM_cons, ha, Outcome.bind_ok, ih hl h', Outcome.bind_ok, ← h]
        rfl

theorem mapM_names {β : Type} {f : Str → Outcome β} {g : Rel → β} {rs : List Rel}
    (h : ∀ a ∈ rs, f a.name = .ok (g a)) : Outcome.mapM f (rs.map Rel.name) = .ok (rs.map g) := by
  induction rs with
  | nil => rfl
  | cons a rs ih =>
    rw [List.map_cons, Outcome.mapM_cons, h a (by simp), Outcome.bind_ok,
      ih fun b hb => h b (by simp [hb])]
    rfl

theorem linesOf_node (t : Table) (f : Nat) {k : RelKind} {n : Str} {ins subs : List Rel}
    (hd : t.data n = dataOf k ins subs) (hi : ∀ i ∈ ins, path t f i.name = .ok (chain i))
    (hs : ∀ s ∈ subs, path t f s.name = .ok (chain s)) :
    linesOf t f n = .ok ((own k n ins ++ subs.map fun s => (chain s, none)).map lineOf) := by
  have hsub : (dataOf k ins subs).subs = subs.map Rel.name := by
    unfold dataOf; split <;> rfl
  have hnews : (dataOf k ins subs).news =
      match convShape k with | .binary | .many => ins.map Rel.name | _ => [] := by
    unfold dataOf; split <;> simp_all
  have h2 : Outcome.mapM (fun m => (path t f m).map List.reverse) (subs.map Rel.name) =
      .ok (subs.map fun s => (chain s).reverse) :=
    mapM_names fun a ha => by rw [hs a ha]; rfl
  have h1 : Outcome.mapM (fun m => (path t f m).map fun p => (n :: p).reverse)
      (ins.map Rel.name) = .ok (ins.map fun i => (n :: chain i).reverse) :=
    mapM_names fun a ha => by rw [hi a ha]; rfl
  unfold linesOf
  rw [hd, hsub, hnews, h2]
  unfold own
  cases hc : convShape k with
  | none => simp [Outcome.map, lineOf, Function.comp_def]
  | single => simp [Outcome.map, lineOf, Function.comp_def]
  | binary =>
    simp only [h1]
    simp [Outcome.map, lineOf, Function.comp_def]
  | many =>
    simp only [h1]
    simp [Outcome.map, lineOf, Function.comp_def]

mutual
theorem lines_entries (t : Table) (f : Nat) : ∀ (r : Rel),
    (∀ k n ins subs, Rel.node k n ins subs ∈ nodes r → t.data n = dataOf k ins subs ∧
      (∀ i ∈ ins, path t f i.name = .ok (chain i)) ∧
      ∀ s ∈ subs, path t f s.name = .ok (chain s)) →
    ∃ L, Outcome.mapM (linesOf t f) ((entries r).map (·.1)) = .ok L ∧
      L.flatten = (segs r).map lineOf
  | .node k n ins subs, h => by
    obtain ⟨hd, hi, hs⟩ := h k n ins subs (by simp [nodes])
    obtain ⟨L1, e1, f1⟩ := lines_entriesL t f ins fun k n i s h' => h k n i s (by simp [nodes, h'])
    obtain ⟨L2, e2, f2⟩ := lines_entriesL t f subs fun k n i s h' => h k n i s (by simp [nodes, h'])
    have e3 : Outcome.mapM (linesOf t f) [n] =
        .ok [(own k n ins ++ subs.map fun s => (chain s, none)).map lineOf] := by
      rw [Outcome.mapM_cons, linesOf_node t f hd hi hs]; rfl
    have key : ∃ L, Outcome.mapM (linesOf t f)
        ((arrange k (entriesL ins) (entriesL subs)).map (·.1)) = .ok L ∧
        L.flatten = (arrange k (segsL ins) (segsL subs)).map lineOf := by
      unfold arrange
      split
      · rw [List.map_append, List.map_append]
        exact ⟨_, mapM_append e1 e2, by rw [List.flatten_append, f1, f2]⟩
      · rw [List.map_append, List.map_append]
        exact ⟨_, mapM_append e2 e1, by rw [List.flatten_append, f1, f2]⟩
    obtain ⟨L, e, fl⟩ := key
    simp only [entries, segs, List.map_append, List.map_cons, List.map_nil]
    refine ⟨_, mapM_append e e3, ?_⟩
    rw [List.flatten_append, fl]
    simp
theorem lines_entriesL (t : Table) (f : Nat) : ∀ (rs : List Rel),
    (∀ k n ins subs, Rel.node k n ins subs ∈ nodesL rs → t.data n = dataOf k ins subs ∧
      (∀ i ∈ ins, path t f i.name = .ok (chain i)) ∧
      ∀ s ∈ subs, path t f s.name = .ok (chain s)) →
    ∃ L, Outcome.mapM (linesOf t f) ((entriesL rs).map (·.1)) = .ok L ∧
      L.flatten = (segsL rs).map lineOf
  | [], _ => ⟨[], rfl, rfl⟩
  | r :: rs, h => by
    obtain ⟨L1, e1, f1⟩ := lines_entries t f r fun k n i s h' => h k n i s (by simp [nodesL, h'])
    obtain ⟨L2, e2, f2⟩ := lines_entriesL t f rs fun k n i s h' => h k n i s (by simp [nodesL, h'])
    simp only [entriesL, segsL, List.map_append]
    exact ⟨_, mapM_append e1 e2, by rw [List.flatten_append, f1, f2]⟩
end

mutual
theorem fits_nodes : ∀ (r : Rel), Fits r → ∀ m ∈ nodes r, Fits m ∧
    (names m).length ≤ (names r).length
  | .node k n ins subs, hf, m, hm => by
    have hf' := hf
    simp only [Fits] at hf'
    obtain ⟨-, -, -, hi, hs⟩ := hf'
    simp only [nodes, List.mem_cons, List.mem_append] at hm
    simp only [names, List.length_cons, List.length_append]
    rcases hm with rfl | hm | hm
    · exact ⟨hf, by simp [names]⟩
    · have := fits_nodesL ins hi m hm
      exact ⟨this.1, by omega⟩
    · have := fits_nodesL subs hs m hm
      exact ⟨this.1, by omega⟩
theorem fits_nodesL : ∀ (rs : List Rel), FitsL rs → ∀ m ∈ nodesL rs, Fits m ∧
    (names m).length ≤ (namesL rs).length
  | [], _, m, hm => by simp [nodesL] at hm
  | r :: rs, hf, m, hm => by
    simp only [FitsL] at hf
    simp only [nodesL, List.mem_append] at hm
    simp only [namesL, List.length_append]
    rcases hm with hm | hm
    · have := fits_nodes r hf.1 m hm
      exact ⟨this.1, by omega⟩
    · have := fits_nodesL rs hf.2 m hm
      exact ⟨this.1, by omega⟩
end

mutual
theorem nodes_trans : ∀ (r m x : Rel), m ∈ nodes r → x ∈ nodes m → x ∈ nodes r
  | .node k n ins subs, m, x, hm, hx => by
    simp only [nodes, List.mem_cons, List.mem_append] at hm
    rcases hm with rfl | hm | hm
    · exact hx
    · simp [nodes, nodesL_trans ins m x hm hx]
    · simp [nodes, nodesL_trans subs m x hm hx]
theorem nodesL_trans : ∀ (rs : List Rel) (m x : Rel), m ∈ nodesL rs → x ∈ nodes m → x ∈ nodesL rs
  | [], m, x, hm, _ => by simp [nodesL] at hm
  | r :: rs, m, x, hm, hx => by
    simp only [nodesL, List.mem_append] at hm ⊢
    rcases hm with hm | hm
    · exact .inl (nodes_trans r m x hm hx)
    · exact .inr (nodesL_trans rs m x hm hx)
end

theorem mem_nodes_self (r : Rel) : r ∈ nodes r := by
  cases r with
  | node k n ins subs => simp [nodes]

/-- The pipelines printed for a binary plan. -/
theorem lines_convert {root : Str} {r : Rel} (hf : Fits r) (hn : (names r).Nodup)
    (hr : root ∉ names r) {f : Nat} (hl : (names r).length ≤ f) :
    lines (convert root r) f = .ok ((allSegs root r).map lineOf) := by
  have hpath : ∀ m ∈ nodes r, path (convert root r) f m.name = .ok (chain m) := by
    intro m hm
    have := fits_nodes r hf m hm
    refine path_chain _ m this.1 ?_ f (by omega)
    intro k n ins subs hx
    exact convert_data hn hr (nodes_trans r m _ hm hx)
  obtain ⟨L, e, fl⟩ := lines_entries (convert root r) f r fun k n ins subs h =>
    ⟨convert_data hn hr h, fun i hi => hpath i (nodes_self_sub r k n ins subs h i (.inl hi)),
      fun s hs => hpath s (nodes_self_sub r k n ins subs h s (.inr hs))⟩
  have e2 : Outcome.mapM (linesOf (convert root r) f) [root] = .ok [[lineOf (chain r, some root)]] := by
    rw [Outcome.mapM_cons]
    unfold linesOf
    rw [convert_root hn hr]
    simp [hpath r (mem_nodes_self r), Outcome.map, lineOf]
  have ho : (convert root r).order = (entries r).map (·.1) ++ [root] := by
    simp [convert, tableOf]
  unfold lines
  rw [ho, mapM_append e e2]
  show Outcome.ok _ = _
  rw [List.flatten_append, fl]
  simp [allSegs]

/-! ## Building -/

/-- What the table says of the relation is what the tree says. -/
def Says (t : Table) (m : Rel) : Prop :=
  match m with
  | .node k n ins subs => t.kind n = some k ∧ inputsOf k (t.data n) = .ok (ins.map Rel.name) ∧
      (t.data n).subs = subs.map Rel.name

theorem takes_subs {k : RelKind} {ins subs : List Rel} (hw : Writable k) (ha : Arity k ins)
    (hs : subs ≠ [] → k ∉ [.read, .cross, .fetch, .set]) (h : takesSubs k ins.length = false) :
    subs = [] := by
  cases subs with
  | nil => rfl
  | cons s subs =>
    exfalso
    have := hs (by simp)
    cases k <;> simp_all [takesSubs, Writable, Arity]

mutual
theorem build_tree (t : Table) : ∀ (r : Rel), Fits r → (∀ m ∈ nodes r, Says t m) →
    ∀ f, (names r).length ≤ f → build t f r.name = .ok r
  | .node k n ins subs, hf, h, f, hl => by
    simp only [Fits] at hf
    obtain ⟨hw, ha, hs, hfi, hfs⟩ := hf
    simp only [names, List.length_cons, List.length_append] at hl
    obtain ⟨f, rfl⟩ : ∃ g, f = g + 1 := ⟨f - 1, by omega⟩
    obtain ⟨h1, h2, h3⟩ := h (.node k n ins subs) (by simp [nodes])
    have hi := build_treeL t ins hfi (fun m hm => h m (by simp [nodes, hm])) f (by omega)
    have hsb := build_treeL t subs hfs (fun m hm => h m (by simp [nodes, hm])) f (by omega)
    simp only [build, Rel.name, h1, h2, h3, Outcome.bind_ok, hi, hsb, List.length_map]
    cases ht : takesSubs k ins.length with
    | true => simp [Outcome.map]
    | false => simp [takes_subs hw ha hs ht]
theorem build_treeL (t : Table) : ∀ (rs : List Rel), FitsL rs → (∀ m ∈ nodesL rs, Says t m) →
    ∀ f, (namesL rs).length ≤ f → Outcome.mapM (build t f) (rs.map Rel.name) = .ok rs
  | [], _, _, f, _ => rfl
  | r :: rs, hf, h, f, hl => by
    simp only [FitsL] at hf
    simp only [namesL, List.length_append] at hl
    rw [List.map_cons, Outcome.mapM_cons,
      build_tree t r hf.1 (fun m hm => h m (by simp [nodesL, hm])) f (by omega),
      Outcome.bind_ok, build_treeL t rs hf.2 (fun m hm => h m (by simp [nodesL, hm])) f (by omega)]
    rfl
end

end Verif.Pipe
