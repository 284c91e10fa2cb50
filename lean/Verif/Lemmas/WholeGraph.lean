import Verif.Lemmas.WholeText

/-! # The graph of the relations, before and after the pipelines are read -/

namespace Verif.Whole

open Verif Verif.TyPb Verif.Expr Verif.Schema

variable {s : Setting} {bs : List Ext.Block} {names : List Str} {r : NRel}

theorem groupOf_info {k : Nat} {d : Sec.Def} {x : Sec.Symbol} (hx : x ∈ Sec.groupOf k d) :
    isRelation x.info = false := by
  cases d with
  | schema n t =>
    simp only [Sec.groupOf, List.mem_cons, List.mem_map] at hx
    rcases hx with rfl | ⟨c, _, rfl⟩ <;> rfl
  | source n t =>
    cases t <;>
      simp only [Sec.groupOf, List.mem_cons, List.mem_map, List.not_mem_nil, or_false] at hx
    · rcases hx with rfl | ⟨c, _, rfl⟩ <;> rfl
    · rcases hx with rfl | ⟨c, _, rfl⟩ <;> rfl
    · subst hx; rfl
    · subst hx; rfl
  | space b =>
    simp only [Sec.groupOf, Sec.spaceSymbols, List.mem_append, List.mem_map] at hx
    rcases hx with ⟨c, _, rfl⟩ | ⟨c, _, rfl⟩ <;> rfl

theorem Fine.lookup_root (h : Fine s bs names r) :
    ∃ k, Sec.lookup (table s bs names r).symbols Sec.rootName =
      Sec.lookup (Sec.rootSymbols k (planOf s bs names r).rootNames) Sec.rootName := by
  unfold table
  rw [Sec.tableOf_symbols, Sec.lookup_append_right (h.not_group h.root_no_def _), Sec.restOf,
    Sec.lookup_append_right]
  · exact ⟨_, rfl⟩
  · rw [Sec.relSymbols_names, Sec.trees_names h.parts, relationNames_plan]
    exact fun hk => h.root_fresh (mem_names.mpr hk)

/-- The symbols that are relations. -/
theorem Fine.isRelation (h : Fine s bs names r) {x : Sec.Symbol}
    (hx : x ∈ (table s bs names r).symbols) (hr : Whole.isRelation x.info = true) :
    x.name ∈ relNames r ∨ x.name = Sec.rootName ∧ (planOf s bs names r).rootNames ≠ [] := by
  unfold table at hx
  rw [Sec.tableOf_symbols] at hx
  rcases List.mem_append.mp hx with hx | hx
  · obtain ⟨d, hd, j, hj⟩ := mem_groups hx
    rw [groupOf_info hj] at hr
    simp at hr
  · rcases List.mem_append.mp hx with hx | hx
    · left
      rw [← relationNames_plan (s := s) (bs := bs) (names := names), ← Sec.trees_names h.parts,
        ← Sec.relSymbols_names]
      exact List.mem_map.mpr ⟨x, hx, rfl⟩
    · right
      unfold Sec.rootSymbols at hx
      split at hx
      · simp at hx
      · next e =>
        simp only [List.mem_cons, List.not_mem_nil, or_false] at hx
        rcases hx with rfl | rfl
        · exact ⟨rfl, by rw [e]; simp⟩
        · simp [Whole.isRelation] at hr

theorem lookup_mem {l : List Sec.Symbol} {n : Str} {x : Sec.Symbol}
    (h : Sec.lookup l n = some x) : x ∈ l ∧ x.name = n := by
  refine ⟨List.mem_of_find?_eq_some h, ?_⟩
  have := List.find?_some h
  simpa using this

theorem lookup_rootSymbols (k : Nat) : ∀ l : List (List Str),
    Sec.lookup (Sec.rootSymbols k l) Sec.rootName =
      match l with
      | [] => none
      | _ :: _ => some ⟨Sec.rootName, k, .rootRelation⟩
  | [] => rfl
  | _ :: _ => by simp [Sec.rootSymbols, Sec.lookup]

theorem graph_data (l : List Sec.Symbol) (ts : List Rel.RelTree) (n : Str) :
    ∃ qs, (graphOf l ts).data n = { Pipe.Data.empty with subs := qs } ∧
      (subsOf ts n = [] → qs = []) := by
  unfold Pipe.Table.data graphOf
  simp only
  cases Sec.lookup l n with
  | none => exact ⟨[], rfl, fun _ => rfl⟩
  | some x =>
    obtain ⟨_, _, i⟩ := x
    cases i <;> first | exact ⟨subsOf ts n, rfl, id⟩ | exact ⟨[], rfl, fun _ => rfl⟩

theorem subsOf_nil {ts : List Rel.RelTree} {n : Str} (h : n ∉ ts.map fun t => t.ref.id) :
    subsOf ts n = [] := by
  unfold subsOf
  rw [List.filter_eq_nil_iff.mpr]
  · rfl
  · intro t ht
    simp only [decide_eq_true_eq]
    exact fun e => h (List.mem_map.mpr ⟨t, ht, e⟩)

theorem subsOf_mem : ∀ {ts : List Rel.RelTree} {t : Rel.RelTree}, t ∈ ts →
    (ts.map fun t => t.ref.id).Nodup → subsOf ts t.ref.id = refsOf t
  | [], t, h, _ => by simp at h
  | u :: ts, t, h, hn => by
    rw [List.map_cons, List.nodup_cons] at hn
    by_cases e : u.ref.id = t.ref.id
    · have ht : t = u := by
        rcases List.mem_cons.mp h with h | h
        · exact h
        · exact absurd (List.mem_map.mpr ⟨t, h, e.symm⟩) hn.1
      subst ht
      have := subsOf_nil hn.1
      unfold subsOf at this ⊢
      rw [List.filter_cons_of_pos (by simp), List.flatMap_cons, this, List.append_nil]
    · have ht : t ∈ ts := by
        rcases List.mem_cons.mp h with h | h
        · exact absurd (by rw [h]) e
        · exact h
      have := subsOf_mem ht hn.2
      unfold subsOf at this ⊢
      rw [List.filter_cons_of_neg (by simpa using e), this]

theorem Fine.subs_of (h : Fine s bs names r) {x : NRel} (hx : x ∈ subs r) :
    subsOf ((subs r).map (treeOf s bs r)) x.names.rel = x.queries.map (·.names.rel) := by
  rw [← h.tree_name hx, subsOf_mem (List.mem_map.mpr ⟨x, hx, rfl⟩)
    (by rw [trees_ids (names := names) h]; exact h.relations_nodup), h.refs hx]

theorem graph_isRel (l : List Sec.Symbol) (ts : List Rel.RelTree) (n : Str) :
    (graphOf l ts).isRel n = true ↔ ∃ x, Sec.lookup l n = some x ∧ isRelation x.info = true := by
  unfold Pipe.Table.isRel graphOf
  simp only
  cases Sec.lookup l n with
  | none => simp
  | some x =>
    obtain ⟨_, _, i⟩ := x
    cases i <;> simp [entryOf, isRelation]

theorem readKind_body {lib : Literal.Lib} {fn : Known} {ks : List Bool} {emit : List Int}
    {b : Rel.Body} (h : BodyFits lib fn ks emit b) : readKind (some b.kind) = pipeKind b := by
  cases b <;> first | rfl | exact False.elim h

theorem table_symbols : (table s bs names r).symbols =
    Sec.groups (Sec.start (planOf s bs names r)) (planOf s bs names r).defs ++
      (Sec.relSymbols (Sec.pipelineLines (planOf s bs names r).pipelines).length
          (Sec.trees (planOf s bs names r)) ++
        Sec.rootSymbols ((Sec.pipelineLines (planOf s bs names r).pipelines).length +
          (Sec.trees (planOf s bs names r)).length) (planOf s bs names r).rootNames) := rfl

theorem filter_relSymbols : ∀ (ts : List Rel.RelTree) (k : Nat),
    ((Sec.relSymbols k ts).filter fun x => isRelation x.info) = Sec.relSymbols k ts
  | [], _ => rfl
  | t :: ts, k => by
    rw [Sec.relSymbols, List.filter_cons_of_pos (by rfl), filter_relSymbols ts]

theorem filter_rootSymbols (k : Nat) : ∀ l : List (List Str),
    (((Sec.rootSymbols k l).filter fun x => isRelation x.info).map (·.name)).Sublist [Sec.rootName]
  | [] => by simp [Sec.rootSymbols]
  | _ :: _ => by simp [Sec.rootSymbols, isRelation]

theorem Fine.prepared (h : Fine s bs names r) :
    Pipe.Prepared (graphOf (table s bs names r).symbols ((subs r).map (treeOf s bs r)))
      Sec.rootName (skeleton r) where
  fresh := fun n => by
    obtain ⟨qs, e, -⟩ := graph_data (table s bs names r).symbols ((subs r).map (treeOf s bs r)) n
    rw [e]
    exact ⟨rfl, rfl, rfl⟩
  apart := by
    intro n hn ho
    unfold Pipe.IsOther graphOf at ho
    simp only [Option.map_eq_some_iff] at ho
    obtain ⟨x, e, hx⟩ := ho
    rcases hn with rfl | hn
    · obtain ⟨k, hk⟩ := h.lookup_root
      rw [hk, lookup_rootSymbols] at e
      cases hl : (planOf s bs names r).rootNames with
      | nil => rw [hl] at e; simp at e
      | cons a l =>
        rw [hl] at e
        simp only [Option.some.injEq] at e
        subst e
        simp [entryOf] at hx
    · obtain ⟨y, hy, rfl⟩ := List.mem_map.mp (mem_names.mp hn)
      obtain ⟨j, hj⟩ := h.lookup_relation hy
      rw [hj] at e
      simp only [Option.some.injEq] at e
      subst e
      simp [entryOf] at hx
  get := by
    intro k n ins sb hm
    obtain ⟨x, hx, e⟩ := nodes_subs r _ hm
    rw [skeleton_eq] at e
    injection e with e1 e2 e3 e4
    subst e2 e4
    obtain ⟨j, hj⟩ := h.lookup_relation hx
    unfold graphOf
    simp only [hj, Option.map_some, entryOf]
    rw [readKind_body (h.good x hx).body, e1, h.subs_of hx, skeletonL_names]
    rfl
  only := by
    intro n hn
    obtain ⟨x, hx, hr⟩ := (graph_isRel _ _ n).mp hn
    obtain ⟨hm, rfl⟩ := lookup_mem hx
    rcases h.isRelation hm hr with hk | hk
    · exact .inr (mem_names.mpr hk)
    · exact .inl hk.1
  rootSubs := by
    obtain ⟨qs, e, hq⟩ := graph_data (table s bs names r).symbols ((subs r).map (treeOf s bs r))
      Sec.rootName
    rw [e]
    refine hq (subsOf_nil ?_)
    rw [trees_ids (names := names) h]
    exact fun hk => h.root_fresh (mem_names.mpr hk)
  listed := by
    refine ⟨?_, fun n => ⟨fun hn => ?_, fun hn => ?_⟩⟩
    · unfold graphOf
      simp only
      rw [table_symbols, List.filter_append, List.filter_append, filter_relSymbols,
        List.filter_eq_nil_iff.mpr, List.nil_append, List.map_append]
      · refine List.Sublist.nodup (List.Sublist.append (List.Sublist.refl _)
          (filter_rootSymbols _ _)) ?_
        rw [Sec.relSymbols_names, Sec.trees_names h.parts, relationNames_plan, List.nodup_append]
        refine ⟨h.relations_nodup, by simp, ?_⟩
        intro a ha b hb e
        rw [List.mem_singleton] at hb
        subst hb e
        exact h.root_fresh (mem_names.mpr ha)
      · intro x hx
        obtain ⟨d, hd, j, hj⟩ := mem_groups hx
        rw [groupOf_info hj]
        simp
    · obtain ⟨x, hx, rfl⟩ := List.mem_map.mp hn
      rw [List.mem_filter] at hx
      rw [graph_isRel]
      rcases h.isRelation hx.1 hx.2 with hk | ⟨hk, hne⟩
      · obtain ⟨y, hy, e⟩ := List.mem_map.mp hk
        obtain ⟨j, hj⟩ := h.lookup_relation hy
        rw [← e]
        exact ⟨_, hj, rfl⟩
      · rw [hk]
        obtain ⟨k, e⟩ := h.lookup_root
        rw [e, lookup_rootSymbols]
        cases hl : (planOf s bs names r).rootNames with
        | nil => exact absurd hl hne
        | cons a l => exact ⟨_, rfl, rfl⟩
    · obtain ⟨x, hx, hr⟩ := (graph_isRel _ _ n).mp hn
      obtain ⟨hm, rfl⟩ := lookup_mem hx
      exact List.mem_map.mpr ⟨x, List.mem_filter.mpr ⟨hm, hr⟩, rfl⟩

/-- The graph after the pipelines are read. -/
structure Graph (r : NRel) (fuel : Nat) (g : Pipe.State) : Prop where
  errors : g.errors = []
  plan : Pipe.binaryPlan g.table fuel = .ok [skeleton r]
  named : Pipe.namedRels g.table = [true]
  inputs : ∀ x ∈ subs r, (g.table.data x.names.rel).cont.toList ++ (g.table.data x.names.rel).news =
    x.inputs.map fun y => y.names.rel
  subs : ∀ x ∈ subs r, (g.table.data x.names.rel).subs = x.queries.map fun y => y.names.rel
  start : ∀ x ∈ Whole.subs r, Pipe.convShape (pipeKind x.own.body) = .single → ∀ i ∈ x.inputs,
    (g.table.data i.names.rel).start = some x.names.rel
  owner : ∀ m n, n ∈ (g.table.data m).subs → ∃ x ∈ Whole.subs r, x.names.rel = m ∧
    ∃ q ∈ x.queries, q.names.rel = n
  order : ∀ x ∈ Whole.subs r, x.names.rel ∈ g.table.order

theorem Graph.queries {fuel : Nat} {g : Pipe.State} (h : Graph r fuel g) (n : Str)
    (hn : Pipe.isSubquery g.table n = true) : ∃ x ∈ Whole.subs r, ∃ q ∈ x.queries, q.names.rel = n := by
  unfold Pipe.isSubquery at hn
  rw [List.any_eq_true] at hn
  obtain ⟨m, -, hx⟩ := hn
  obtain ⟨x, hx, -, hq⟩ := h.owner m n (by simpa using hx)
  exact ⟨x, hx, hq⟩

theorem Fine.graph (h : Fine s bs names r) {fuel : Nat} (hf : (subs r).length ≤ fuel) :
    ∃ g, Pipe.visitAll ((planOf s bs names r).pipelines.map Pipe.refs)
        ⟨graphOf (table s bs names r).symbols ((subs r).map (treeOf s bs r)), []⟩ = .ok g ∧
      Graph r fuel g := by
  obtain ⟨g, h1, h2, ⟨h3, h3'⟩, h4, h5, h6⟩ := Pipe.read_prepared h.fits h.names_nodup h.root_fresh h.prepared
    (by rw [names_length]; exact hf)
  refine ⟨g, h1, h2, h3, h3', fun x hx => ?_, fun x hx => ?_, fun x hx hc i hi => ?_, fun m n hn => ?_,
    fun x hx => h6 _ (mem_names.mpr (List.mem_map.mpr ⟨x, hx, rfl⟩))⟩
  · have hm := subs_nodes r x hx
    rw [skeleton_eq x] at hm
    rw [(h4 _ _ _ _ hm).1, skeletonL_names]
  · have hm := subs_nodes r x hx
    rw [skeleton_eq x] at hm
    rw [(h4 _ _ _ _ hm).2.1, skeletonL_names]
  · have hm := subs_nodes r x hx
    rw [skeleton_eq x] at hm
    have hk : i.names.rel ∈ (skeletonL x.inputs).map Pipe.Rel.name := by
      rw [skeletonL_names]
      exact List.mem_map.mpr ⟨i, hi, rfl⟩
    obtain ⟨w, hw, e⟩ := List.mem_map.mp hk
    rw [← e]
    exact (h4 _ _ _ _ hm).2.2 hc w hw
  · obtain ⟨k, ins, sb, hm, hs⟩ := h5 m n hn
    obtain ⟨x, hx, e⟩ := nodes_subs r _ hm
    rw [skeleton_eq] at e
    injection e with _ e2 _ e4
    subst e2 e4
    rw [skeletonL_names] at hs
    obtain ⟨q, hq, e⟩ := List.mem_map.mp hs
    exact ⟨x, hx, rfl, q, hq, e⟩

/-- An input is not the relation of a subquery. -/
theorem Fine.input_outside (h : Fine s bs names r) {fuel : Nat} {g : Pipe.State}
    (hg : Graph r fuel g) {x i : NRel} (hx : x ∈ subs r) (hi : i ∈ x.inputs) :
    Pipe.isSubquery g.table i.names.rel = false := by
  cases e : Pipe.isSubquery g.table i.names.rel with
  | false => rfl
  | true =>
    obtain ⟨y, hy, q, hq, he⟩ := hg.queries _ e
    exact absurd he.symm (input_not_query h.relations_nodup hx hy hi hq)

/-! ## The relations around a relation, as the reader finds them -/

theorem kid_length_pos (x : NRel) : 0 < (subs x).length :=
  List.length_pos_of_mem (self_subs x)

theorem Fine.parentIn_input (h : Fine s bs names r) {fuel : Nat} {g : Pipe.State}
    (hg : Graph r fuel g) {x i : NRel} (hx : x ∈ subs r) (hi : i ∈ x.inputs) :
    parentIn g.table i.names.rel = none := by
  have hs := h.input_outside hg hx hi
  unfold Pipe.isSubquery at hs
  unfold parentIn
  rw [List.find?_eq_none]
  intro m hm
  exact List.any_eq_false.mp hs m (List.mem_reverse.mp hm)

theorem Fine.parentIn_query (h : Fine s bs names r) {fuel : Nat} {g : Pipe.State}
    (hg : Graph r fuel g) {x q : NRel} {up : List NRel} (hx : Placed r x up) (hq : q ∈ x.queries) :
    parentIn g.table q.names.rel = some x.names.rel := by
  unfold parentIn
  cases hf : g.table.order.reverse.find? fun m => (g.table.data m).subs.contains q.names.rel with
  | none =>
    rw [List.find?_eq_none] at hf
    refine absurd ?_ (hf x.names.rel (List.mem_reverse.mpr (hg.order x hx.subs)))
    rw [hg.subs x hx.subs, List.contains_iff_mem]
    exact List.mem_map.mpr ⟨q, hq, rfl⟩
  | some m =>
    have hm : q.names.rel ∈ (g.table.data m).subs := by simpa using List.find?_some hf
    obtain ⟨y, hy, rfl, q', hq', e⟩ := hg.owner m _ hm
    obtain ⟨up', hy'⟩ := placed_subs hy
    have h1 := (hx.query hq).ownersOf h.relations_nodup
    have h2 := (hy'.query hq').ownersOf h.relations_nodup
    rw [e, h1, List.map_cons, List.map_cons, List.cons.injEq] at h2
    rw [h2.1]

theorem Fine.parentOf (h : Fine s bs names r) {fuel : Nat} {g : Pipe.State} (hg : Graph r fuel g)
    {x : NRel} {l : List NRel} (hx : Placed r x l) : ∀ {y : NRel} {up : List NRel} {k : Nat},
    l = y :: up → (subs r).length < k + (subs x).length →
      Whole.parentOf g.table k x.names.rel = some y.names.rel := by
  induction hx with
  | top => intro y up k e; simp at e
  | @input x i up hx hi ih =>
    intro y up k e hk
    split at e
    · next hc =>
      have hs := kid_shorter (mem_inputsIn hi)
      have hd := hx.depth
      cases k with
      | zero => omega
      | succ k =>
        rw [Whole.parentOf, h.parentIn_input hg hx.subs hi, hg.start x hx.subs hc i hi]
        exact ih e (by omega)
    · simp at e
  | @query x q up hx hq ih =>
    intro y up k e hk
    injection e with e1 e2
    subst e1 e2
    have hs := kid_shorter (mem_queriesIn hq)
    have hd := hx.depth
    cases k with
    | zero => omega
    | succ k => rw [Whole.parentOf, h.parentIn_query hg hx hq]

theorem Fine.order_length (h : Fine s bs names r) {fuel : Nat} {g : Pipe.State}
    (hg : Graph r fuel g) : (subs r).length ≤ g.table.order.length := by
  have := List.Nodup.length_le_of_subset h.relations_nodup (l₂ := g.table.order) fun n hn => by
    obtain ⟨x, hx, rfl⟩ := List.mem_map.mp hn
    exact hg.order x hx
  simpa [relNames] using this

/-- The reader finds the relations around a relation, and perhaps more. -/
theorem Fine.outersOf (h : Fine s bs names r) {fuel : Nat} {g : Pipe.State} (hg : Graph r fuel g) :
    ∀ {up : List NRel} {x : NRel} {k : Nat}, Placed r x up → up.length ≤ k →
      ∃ l, Whole.outersOf g.table k x.names.rel = up.map (fun y => y.names.rel) ++ l
  | [], x, k, _, _ => ⟨_, rfl⟩
  | y :: up, x, 0, _, hk => by simp at hk
  | y :: up, x, k + 1, hx, hk => by
    have ho := h.order_length hg
    have hd := kid_length_pos x
    rw [Whole.outersOf, h.parentOf hg hx rfl (by omega)]
    obtain ⟨l, e⟩ := Fine.outersOf h hg (hx.tail rfl) (k := k) (by simpa using hk)
    exact ⟨l, by simp [e]⟩

/-- If every name is that of a symbol, the order of the text does not matter. -/
theorem refsKnown_of {l : List Sec.Symbol} : ∀ {ds : List Sec.PlanDetail} {seen : List Str},
    (∀ t ∈ ds.filterMap relationOf, ∀ n ∈ refsOf t, (Sec.lookup l n).isSome = true) →
      refsKnown l seen ds = true
  | [], _, _ => rfl
  | d :: ds, seen, h => by
    have hd : ∀ {seen : List Str}, refsKnown l seen ds = true := refsKnown_of fun t ht => h t (by
      rw [List.filterMap_cons]
      split
      · exact ht
      · exact List.mem_cons_of_mem _ ht)
    cases d with
    | relation t =>
      have h1 := h t (by simp [relationOf])
      unfold refsKnown
      rw [hd, Bool.and_true, List.all_eq_true]
      intro n hn
      rw [h1 n hn, Bool.true_or]
    | _ => exact hd

theorem Fine.refs_known (h : Fine s bs names r) {ds : List Sec.PlanDetail}
    (hd : ds.filterMap relationOf = (subs r).map (treeOf s bs r)) :
    refsKnown (table s bs names r).symbols [] ds = true := by
  refine refsKnown_of fun t ht n hn => ?_
  rw [hd] at ht
  obtain ⟨x, hx, rfl⟩ := List.mem_map.mp ht
  rw [h.refs hx] at hn
  obtain ⟨q, hq, rfl⟩ := List.mem_map.mp hn
  obtain ⟨j, hj⟩ := h.lookup_relation (queries_subs hx hq)
  rw [hj]
  rfl

end Verif.Whole
