import Verif.Lemmas.PipelineBuild
import Verif.Lemmas.PipelineText
import Verif.Prop.Pipeline

/-!
# Reading the printed pipelines
-/

namespace Verif.Pipe

open Verif

/-! ## The relations that were read before the pipelines -/

theorem readKind_name {k : RelKind} (h : Writable k) : readKind (kindName k) = some k := by
  cases k <;> first | (exfalso; revert h; decide) | decide +kernel

/-- The list of the declared symbols. -/
def declaredList (root : Str) (named : Bool) (r : Rel) : List (Str × Entry) :=
  (entries r).map (fun e => (e.1, declaredEntry e.2)) ++
    if named then [(root, .rel none Data.empty)] else []

theorem declared_eq (root : Str) (named : Bool) (r : Rel) :
    declared root named r = tableOf (declaredList root named r) := rfl

theorem declared_keys (root : Str) (named : Bool) (r : Rel) :
    (declaredList root named r).map (·.1) =
      (entries r).map (·.1) ++ if named then [root] else [] := by
  unfold declaredList
  cases named <;> simp [Function.comp_def]

theorem declared_nodup {root : Str} {named : Bool} {r : Rel} (hn : (names r).Nodup)
    (hr : root ∉ names r) : ((declaredList root named r).map (·.1)).Nodup := by
  rw [declared_keys, List.nodup_append]
  refine ⟨(entries_perm r).nodup_iff.mpr hn, by cases named <;> simp, ?_⟩
  intro a ha b hb e
  have ha' := (entries_perm r).mem_iff.mp ha
  cases named with
  | false => simp at hb
  | true =>
    simp only [if_true, List.mem_singleton] at hb
    exact hr (hb ▸ e ▸ ha')

theorem declared_get {root : Str} {named : Bool} {r : Rel} (hf : Fits r) (hn : (names r).Nodup)
    (hr : root ∉ names r) {k : RelKind} {n : Str} {ins subs : List Rel}
    (hm : Rel.node k n ins subs ∈ nodes r) :
    (declared root named r).get n = some (.rel (some k) ⟨none, none, [], subs.map Rel.name⟩) := by
  have he : entryOf (.node k n ins subs) ∈ entries r := (mem_entries r _).mpr ⟨_, hm, rfl⟩
  have hin : (n, declaredEntry (.rel (some k) (dataOf k ins subs))) ∈ declaredList root named r :=
    List.mem_append_left _ (List.mem_map.mpr ⟨_, he, rfl⟩)
  have := get_tableOf (declared_nodup (named := named) hn hr) hin
  rw [declared_eq, this]
  have hfk := (fits_nodes r hf _ hm).1
  simp only [Fits] at hfk
  have hs : (dataOf k ins subs).subs = subs.map Rel.name := by
    unfold dataOf; split <;> rfl
  simp only [declaredEntry, readKind_name hfk.1, hs, Option.getD_some]

theorem declared_other {root : Str} {named : Bool} {r : Rel} (n : Str) :
    ∀ e, (declared root named r).get n = some e → ∃ k s, e = .rel k ⟨none, none, [], s⟩ := by
  intro e he
  rw [declared_eq] at he
  unfold tableOf at he
  simp only [Option.map_eq_some_iff] at he
  obtain ⟨x, hx, rfl⟩ := he
  have hx' := List.mem_of_find?_eq_some hx
  unfold declaredList at hx'
  rw [List.mem_append] at hx'
  rcases hx' with h | h
  · obtain ⟨y, hy, rfl⟩ := List.mem_map.mp h
    obtain ⟨m, hm, rfl⟩ := (mem_entries r y).mp hy
    cases m with
    | node k n ins subs => exact ⟨_, _, rfl⟩
  · cases named with
    | false => simp at h
    | true =>
      simp only [if_true, List.mem_singleton] at h
      subst h
      exact ⟨none, [], rfl⟩

theorem declared_fresh (root : Str) (named : Bool) (r : Rel) : Fresh (declared root named r) := by
  intro n
  unfold Table.data
  cases h : (declared root named r).get n with
  | none => exact ⟨rfl, rfl, rfl⟩
  | some e =>
    obtain ⟨k, s, rfl⟩ := declared_other n e h
    exact ⟨rfl, rfl, rfl⟩

theorem declared_not_other (root : Str) (named : Bool) (r : Rel) (n : Str) :
    ¬ IsOther (declared root named r) n := by
  intro h
  obtain ⟨k, s, e⟩ := declared_other n _ h
  simp at e

theorem declared_isRel {root : Str} {named : Bool} {r : Rel} {n : Str} :
    (declared root named r).isRel n = true ↔ n ∈ (declaredList root named r).map (·.1) := by
  constructor
  · intro h
    by_cases hx : n ∈ (declaredList root named r).map (·.1)
    · exact hx
    · have := get_tableOf_none hx
      rw [← declared_eq] at this
      simp [Table.isRel, this] at h
  · intro h
    rw [isRel_iff]
    cases hg : (declared root named r).get n with
    | none =>
      exfalso
      rw [declared_eq] at hg
      unfold tableOf at hg
      simp only [Option.map_eq_none_iff, List.find?_eq_none, beq_iff_eq] at hg
      obtain ⟨x, hx, e⟩ := List.mem_map.mp h
      exact hg x hx e
    | some e =>
      obtain ⟨k, s, rfl⟩ := declared_other n e hg
      exact ⟨k, _, rfl⟩

theorem declared_listed {root : Str} {named : Bool} {r : Rel} (hn : (names r).Nodup)
    (hr : root ∉ names r) : Listed (declared root named r) :=
  ⟨declared_nodup hn hr, fun _ => declared_isRel.symm⟩

/-! ## Names that are not in a pipeline -/

theorem connect_frame {parents : List Ref} {r : Ref} {left : Option Ref} {s s' : State}
    (h : connect parents r left s = .ok s') {n : Str} (hn : r.name ≠ n) :
    s'.table.get n = s.table.get n := by
  unfold connect at h
  split at h
  · simp at h
  · simp only [Outcome.ok.injEq] at h; rw [h]
  · split at h
    · simp only [Outcome.ok.injEq] at h; rw [← h]
    · cases hr : rightmost s.table parents with
      | throw e => rw [hr] at h; simp at h
      | ub => rw [hr] at h; simp at h
      | ok x =>
        rw [hr, Outcome.bind_ok] at h
        split at h
        · simp only [Outcome.ok.injEq] at h; rw [← h]
        · cases hl : leftOf s.table left with
          | throw e => rw [hl] at h; simp at h
          | ub => rw [hl] at h; simp at h
          | ok y =>
            rw [hl, Outcome.bind_ok] at h
            simp only [Outcome.ok.injEq] at h
            rw [← h]
            simp [Table.set, Ne.symm hn]

theorem visit_frame : ∀ (q parents : List Ref) (s s' : State), visit parents q s = .ok s' →
    ∀ n, (∀ r ∈ q, r.name ≠ n) → s'.table.get n = s.table.get n
  | [], parents, s, s', h, n, _ => by
    simp only [visit, Outcome.ok.injEq] at h
    rw [h]
  | r :: q, parents, s, s', h, n, hn => by
    rw [visit] at h
    cases hv : visit (r :: parents) q { s with table := touch s.table r.name } with
    | throw e => rw [hv] at h; simp at h
    | ub => rw [hv] at h; simp at h
    | ok s1 =>
      rw [hv, Outcome.bind_ok] at h
      rw [connect_frame h (hn r (by simp)),
        visit_frame q _ _ s1 hv n (fun x hx => hn x (by simp [hx]))]
      show (touch s.table r.name).get n = _
      rw [get_touch, if_neg (fun e => hn r (by simp) e.symm)]

theorem visitAll_frame : ∀ (ps : List (List Ref)) (s s' : State), visitAll ps s = .ok s' →
    ∀ n, (∀ p ∈ ps, ∀ r ∈ p, r.name ≠ n) → s'.table.get n = s.table.get n
  | [], s, s', h, n, _ => by
    simp only [visitAll, Outcome.ok.injEq] at h
    rw [h]
  | p :: ps, s, s', h, n, hn => by
    rw [visitAll] at h
    cases hv : visit [] p s with
    | throw e => rw [hv] at h; simp at h
    | ub => rw [hv] at h; simp at h
    | ok s1 =>
      rw [hv, Outcome.bind_ok] at h
      rw [visitAll_frame ps s1 s' h n (fun q hq => hn q (by simp [hq])),
        visit_frame p [] s s1 hv n (hn p (by simp))]

/-! ## The table that is read -/

theorem mem_line {root : Str} {r : Rel} (hf : Fits r) {x : Str} :
    (∃ y ∈ allSegs root r, x ∈ lineOf y) ↔ x = root ∨ x ∈ names r := by
  constructor
  · rintro ⟨y, hy, hx⟩
    unfold lineOf at hx
    rw [List.mem_append] at hx
    rcases hx with hx | hx
    · exact .inr ((mem_flat_allSegs (root := root) hf).mp
        (List.mem_flatMap.mpr ⟨y, hy, by simpa using hx⟩))
    · have hm : y.2 = some x := by simpa using hx
      simp only [allSegs, List.mem_append, List.mem_singleton] at hy
      rcases hy with hy | hy
      · obtain ⟨c, hc, hl⟩ := segs_ends r hf y hy x hm
        obtain ⟨a, rfl⟩ := getLast_concat.mp hl
        exact .inr ((mem_names_iff hf).mpr ⟨_, hc, by simp⟩)
      · subst hy
        simp only [Option.some.injEq] at hm
        exact .inl hm.symm
  · rintro (rfl | hx)
    · exact ⟨(chain r, some x), by simp [allSegs], by simp [lineOf]⟩
    · obtain ⟨y, hy, hx⟩ := List.mem_flatMap.mp ((mem_flat_allSegs (root := root) hf).mpr hx)
      exact ⟨y, hy, by simp [lineOf, hx]⟩

/-- Every relation of the tree feeds another one or belongs to a subquery. -/
theorem feeds_or_sub {root : Str} {r : Rel} (hf : Fits r) {x : Str} (hx : x ∈ names r) :
    (∃ p ∈ (allSegs root r).map lineOf, ∃ y, Feeds p x y) ∨
      ∃ k n ins subs, Rel.node k n ins subs ∈ nodes r ∧ x ∈ subs.map Rel.name := by
  obtain ⟨y, hy, hxy⟩ := List.mem_flatMap.mp ((mem_flat_allSegs (root := root) hf).mpr hx)
  obtain ⟨u, v, e⟩ := List.append_of_mem hxy
  have hline : lineOf y = v.reverse ++ x :: (u.reverse ++ y.2.toList) := by
    unfold lineOf; rw [e]; simp
  cases hw : u.reverse ++ y.2.toList with
  | cons w b =>
    left
    refine ⟨_, List.mem_map.mpr ⟨y, hy, rfl⟩, w, v.reverse, b, ?_⟩
    rw [hline, hw]
  | nil =>
    right
    simp only [List.append_eq_nil_iff, List.reverse_eq_nil_iff] at hw
    have hnone : y.2 = none := by
      cases h : y.2 with
      | none => rfl
      | some m => rw [h] at hw; simp at hw
    simp only [allSegs, List.mem_append, List.mem_singleton] at hy
    rcases hy with hy | hy
    · obtain ⟨c, o⟩ := y
      simp only at hnone
      subst hnone
      obtain ⟨k, n, ins, subs, hm, s, hs, hc⟩ := segs_none r c hy
      refine ⟨k, n, ins, subs, hm, ?_⟩
      obtain ⟨d, ed⟩ := chain_ne_nil s
      simp only [hw.1, List.nil_append] at e
      rw [hc, ed] at e
      simp only [List.cons.injEq] at e
      rw [← e.1]
      exact List.mem_map.mpr ⟨s, hs, rfl⟩
    · subst hy
      simp at hnone

theorem filterMap_one {α : Type} {f : Str → Option α} {b : α} {x : Str} : ∀ {l : List Str},
    l.Nodup → x ∈ l → f x = some b → (∀ y ∈ l, y ≠ x → f y = none) → l.filterMap f = [b]
  | [], _, hx, _, _ => by simp at hx
  | a :: l, hn, hx, hb, h => by
    rw [List.nodup_cons] at hn
    by_cases ha : a = x
    · subst ha
      have : l.filterMap f = [] := by
        rw [List.filterMap_eq_nil_iff]
        exact fun y hy => h y (by simp [hy]) (fun e => hn.1 (e ▸ hy))
      rw [List.filterMap_cons, hb, this]
    · rw [List.filterMap_cons, h a (by simp) ha]
      exact filterMap_one hn.2 ((List.mem_cons.mp hx).resolve_left (Ne.symm ha)) hb
        (fun y hy => h y (by simp [hy]))

theorem shape_conv {k : RelKind} (h : Writable k) : shape k = convShape k := by
  cases k <;> first | rfl | (revert h; decide)

/-- The table before the pipelines are read: the relations of the tree without places in
pipelines, perhaps the root, and no other relations. -/
structure Prepared (t : Table) (root : Str) (r : Rel) : Prop where
  fresh : Fresh t
  apart : ∀ x, x = root ∨ x ∈ names r → ¬ IsOther t x
  get : ∀ {k : RelKind} {n : Str} {ins subs : List Rel}, Rel.node k n ins subs ∈ nodes r →
    t.get n = some (.rel (some k) ⟨none, none, [], subs.map Rel.name⟩)
  only : ∀ x, t.isRel x = true → x = root ∨ x ∈ names r
  rootSubs : (t.data root).subs = []
  listed : Listed t

theorem hasNames_none {t : Table} {f : Nat} {n : Str} : planRel t f n = none ↔ hasNames t n = none := by
  unfold planRel hasNames
  split
  · simp
  · split
    · simp
    · cases (t.data n).news <;> simp

/-- Reading the printed pipelines gives the binary plan again. -/
theorem read_prepared {root : Str} {r : Rel} {t : Table} (hf : Fits r) (hn : (names r).Nodup)
    (hr : root ∉ names r) (ht : Prepared t root r) {f : Nat} (hl : (names r).length ≤ f) :
    ∃ s, visitAll (((allSegs root r).map lineOf).map refs) ⟨t, []⟩ = .ok s ∧
      s.errors = [] ∧ (binaryPlan s.table f = .ok [r] ∧ namedRels s.table = [true]) ∧
      (∀ k n ins subs, Rel.node k n ins subs ∈ nodes r →
        (s.table.data n).cont.toList ++ (s.table.data n).news = ins.map Rel.name ∧
          (s.table.data n).subs = subs.map Rel.name ∧
          (convShape k = .single → ∀ i ∈ ins, (s.table.data i.name).start = some n)) ∧
      (∀ m x, x ∈ (s.table.data m).subs → ∃ k ins subs, Rel.node k m ins subs ∈ nodes r ∧
        x ∈ subs.map Rel.name) ∧
      ∀ n ∈ names r, n ∈ s.table.order := by
  have hS := allSegs_segs hf hn hr
  have ho : ∀ p ∈ (allSegs root r).map lineOf, ∀ n ∈ p, ¬ IsOther t n := by
    intro p hp n hn
    obtain ⟨y, hy, rfl⟩ := List.mem_map.mp hp
    exact ht.apart n ((mem_line hf).mp ⟨y, hy, hn⟩)
  obtain ⟨s, e, herr, hcont, hnews, hstart, hsubs, hkind, hrel⟩ :=
    pipelines_graph _ _ ht.fresh ho hS.accepted
  refine ⟨s, e, herr, ?_⟩
  obtain ⟨s', e', st, -, hda, -⟩ := visitAll_plain _ ⟨t, []⟩ ho
  rw [e] at e'
  simp only [Outcome.ok.injEq] at e'
  subst e'
  obtain ⟨hnd, hlist⟩ := st.listed ht.listed
  -- the relations of the table
  have hisRel : ∀ x, s.table.isRel x = true → x = root ∨ x ∈ names r := by
    intro x hx
    by_cases hp : x = root ∨ x ∈ names r
    · exact hp
    · have hfr := visitAll_frame _ _ s e x (by
        intro p hp' q hq hqx
        obtain ⟨l, hl', rfl⟩ := List.mem_map.mp hp'
        obtain ⟨y, hy, rfl⟩ := List.mem_map.mp hl'
        unfold refs at hq
        obtain ⟨z, hz, rfl⟩ := List.mem_map.mp hq
        simp only at hqx
        subst hqx
        exact hp ((mem_line hf).mp ⟨y, hy, by simpa using hz⟩))
      have hdecl : t.isRel x = true := by
        unfold Table.isRel at hx ⊢
        rw [hfr] at hx
        exact hx
      exact ht.only x hdecl
  have hnode : ∀ k n ins subs, Rel.node k n ins subs ∈ nodes r →
      (s.table.data n).subs = subs.map Rel.name ∧ s.table.kind n = some k := by
    intro k n ins subs hm
    have hg := ht.get hm
    have h1 := hsubs n
    have h2 := (hkind n (isRel_iff.mpr ⟨_, _, hg⟩)).2
    unfold Table.data at h1
    unfold Table.kind at h2
    rw [hg] at h1 h2
    exact ⟨h1, h2⟩
  -- every relation gets its inputs again
  have hsays : ∀ m ∈ nodes r, Says s.table m := by
    intro m hm
    have hfol := nodes_followed r hf m hm
    have hlast := nodes_last r hf m hm
    have hfed := nodes_fed r hn m hm
    have hfm := (fits_nodes r hf m hm).1
    cases m with
    | node k n ins subs =>
      simp only [Fits] at hfm
      obtain ⟨hw, ha, -⟩ := hfm
      obtain ⟨h1, h2⟩ := hnode k n ins subs hm
      refine ⟨h2, ?_, h1⟩
      have hmulti : convShape k = .binary ∨ convShape k = .many →
          (s.table.data n).news = ins.map Rel.name := by
        intro hc
        obtain ⟨c, hc1, hc2⟩ := hlast (by rcases hc with hc | hc <;> simp [hc])
        obtain ⟨y, hy, rfl⟩ := (mem_chains_allSegs (root := root)).mp hc1
        rw [hnews n, segs_inputs allSegs_ne_nil (hS.last hy hc2)]
        show (allSegs root r).filterMap (feed n) = _
        have hne : ¬ root = n := fun h =>
          hr (h ▸ (mem_names_nodes r n).mpr ⟨_, hm, rfl⟩)
        rw [FedBy, if_pos hc] at hfed
        simp only [allSegs, List.filterMap_append, hfed]
        simp [feed, hne]
      unfold inputsOf
      rw [shape_conv hw]
      cases hc : convShape k with
      | none => rw [arity_none hw ha hc]; rfl
      | single =>
        obtain ⟨i, rfl, c, hcin, u, v, hcv⟩ := hfol hc
        obtain ⟨y, hy, rfl⟩ := (mem_chains_allSegs (root := root)).mp hcin
        have := hS.next hy hcv (s.table.data n) (hcont n) (hnews n)
        simp [this]
      | binary =>
        have h3 := hmulti (.inl hc)
        have : (s.table.data n).news.length = 2 := by
          rw [h3, List.length_map]
          cases k <;> simp [convShape] at hc <;> simp [Writable] at hw <;> simpa [Arity] using ha
        simp only [if_pos this]
        rw [h3]
      | many => simp [hmulti (.inr hc)]
  have hbuild := build_tree s.table r hf hsays f hl
  -- the root
  have hroot_isRel : s.table.isRel root = true :=
    hrel _ (List.mem_map.mpr ⟨_, (by simp [allSegs] : (chain r, some root) ∈ allSegs root r), rfl⟩)
      root (by simp [lineOf])
  have hrootnews : (s.table.data root).news = [r.name] := by
    rw [hnews root, segs_inputs allSegs_ne_nil]
    · show (allSegs root r).filterMap (feed root) = _
      simp only [allSegs, List.filterMap_append, feed_out r root hr]
      obtain ⟨c, ec⟩ := chain_ne_nil r
      simp [feed, ec]
    · intro x hx u l v ex
      exact hr ((mem_flat_allSegs (root := root) hf).mp
        (List.mem_flatMap.mpr ⟨x, hx, by simp [ex]⟩))
  have hrootstart : (s.table.data root).start = none := by
    rw [hstart root]
    rintro ⟨p, hp, z, a, b, hfeed⟩
    obtain ⟨y, hy, rfl⟩ := List.mem_map.mp hp
    have hrev := congrArg List.reverse hfeed
    rw [line_rev] at hrev
    simp only [List.reverse_append, List.reverse_cons, List.append_assoc, List.cons_append,
      List.nil_append] at hrev
    have hin : root ∈ y.1 := by
      cases hm : y.2 with
      | none => rw [hm] at hrev; simp at hrev; rw [hrev]; simp
      | some m =>
        rw [hm] at hrev
        simp only [Option.toList_some, List.cons_append, List.nil_append] at hrev
        cases hb : b.reverse with
        | nil =>
          rw [hb] at hrev
          simp only [List.nil_append, List.cons.injEq] at hrev
          rw [hrev.2]; simp
        | cons w b' =>
          rw [hb] at hrev
          simp only [List.cons_append, List.cons.injEq] at hrev
          rw [hrev.2]; simp
    exact hr ((mem_flat_allSegs (root := root) hf).mp (List.mem_flatMap.mpr ⟨y, hy, hin⟩))
  have hsubset : ∀ m x, x ∈ (s.table.data m).subs →
      ∃ k ins subs, Rel.node k m ins subs ∈ nodes r ∧ x ∈ subs.map Rel.name := by
    intro m x hx
    by_cases hm : m ∈ names r
    · obtain ⟨w, hw, hwm⟩ := (mem_names_nodes r m).mp hm
      cases w with
      | node k n ins subs =>
        simp only [Rel.name] at hwm
        subst hwm
        rw [(hnode k n ins subs hw).1] at hx
        exact ⟨k, ins, subs, hw, hx⟩
    · exfalso
      rw [hsubs m] at hx
      unfold Table.data at hx
      cases hg : t.get m with
      | none => rw [hg] at hx; simp [Data.empty] at hx
      | some en =>
        cases en with
        | other => rw [hg] at hx; simp [Data.empty] at hx
        | rel k d =>
          have hrm : t.isRel m = true := isRel_iff.mpr ⟨_, _, hg⟩
          rcases ht.only m hrm with h | h
          · have h0 := ht.rootSubs
            unfold Table.data at h0
            rw [← h, hg] at h0
            simp only at h0
            rw [hg] at hx
            simp [h0] at hx
          · exact hm h
  have hrootsub : isSubquery s.table root = false := by
    unfold isSubquery
    rw [List.any_eq_false]
    intro m _ hc
    obtain ⟨k, ins, subs, hm, hx⟩ := hsubset m root (by simpa using hc)
    obtain ⟨w, hw, hwn⟩ := List.mem_map.mp hx
    exact hr ((mem_names_nodes r root).mpr
      ⟨w, nodes_self_sub r k m ins subs hm w (.inr hw), hwn⟩)
  have hplan_root : planRel s.table f root = some (.ok r) := by
    unfold planRel
    rw [hrootsub, hrootstart, hrootnews]
    simp [hbuild]
  have hplan_rest : ∀ x ∈ s.table.order, x ≠ root → planRel s.table f x = none := by
    intro x hx hne
    have hxn : x ∈ names r := (hisRel x ((hlist x).mp hx)).resolve_left hne
    unfold planRel
    rcases feeds_or_sub (root := root) hf hxn with hfe | ⟨k, n, ins, subs, hm, hxs⟩
    · have : (s.table.data x).start.isSome = true := by
        cases hs : (s.table.data x).start with
        | none => exact absurd hfe ((hstart x).mp hs)
        | some _ => rfl
      simp [this]
    · have hsub : isSubquery s.table x = true := by
        unfold isSubquery
        rw [List.any_eq_true]
        refine ⟨n, (hlist n).mpr ?_, ?_⟩
        · have := (hnode k n ins subs hm).2
          rw [isRel_iff]
          unfold Table.kind at this
          cases hg : s.table.get n with
          | none => rw [hg] at this; simp at this
          | some en =>
            cases en with
            | rel k' d => exact ⟨k', d, rfl⟩
            | other => rw [hg] at this; simp at this
        · rw [(hnode k n ins subs hm).1]
          simpa using hxs
      simp [hsub]
  constructor
  · constructor
    · unfold binaryPlan
      rw [filterMap_one hnd ((hlist root).mpr hroot_isRel) hplan_root hplan_rest]
      rfl
    · refine filterMap_one hnd ((hlist root).mpr hroot_isRel) ?_ fun x hx hne =>
        hasNames_none.mp (hplan_rest x hx hne)
      unfold hasNames
      rw [hrootsub, hrootstart, hrootnews]
      rfl
  refine ⟨?_, hsubset, fun n hn => ?_⟩
  rotate_left
  · obtain ⟨w, hw, rfl⟩ := (mem_names_nodes r n).mp hn
    cases w with
    | node k n ins subs =>
      obtain ⟨k', d', hg⟩ := isRel_iff.mp (hkind n (isRel_iff.mpr ⟨_, _, ht.get hw⟩)).1
      exact (hlist n).mpr (isRel_iff.mpr ⟨_, _, hg⟩)
  have hdata := (hda ⟨hS.accepted.nodup, fun _ _ x _ => (ht.fresh x).2.1, hS.accepted.apart⟩).2
  intro k n ins subs hm
  refine ⟨?_, (hnode k n ins subs hm).1, fun hc i hi => ?_⟩
  rotate_left
  · obtain ⟨i', rfl, c, hcin, u, v, hcv⟩ := nodes_followed r hf _ hm hc
    rw [List.mem_singleton] at hi
    subst hi
    obtain ⟨y, hy, rfl⟩ := (mem_chains_allSegs (root := root)).mp hcin
    rw [hdata]
    exact hS.start hy hcv (ht.fresh n).1
  have hfol := nodes_followed r hf _ hm
  have hlast := nodes_last r hf _ hm
  have hfed := nodes_fed r hn _ hm
  have hfm := (fits_nodes r hf _ hm).1
  simp only [Fits] at hfm
  obtain ⟨hw, ha, -⟩ := hfm
  by_cases hc : convShape k = .single
  · obtain ⟨i, rfl, c, hcin, u, v, hcv⟩ := hfol hc
    obtain ⟨y, hy, rfl⟩ := (mem_chains_allSegs (root := root)).mp hcin
    rcases hS.only hy hcv (s.table.data n) (hcont n) (hnews n) with ⟨h1, h2⟩ | ⟨h1, h2⟩ <;>
      simp [h1, h2]
  · obtain ⟨c, hc1, hc2⟩ := hlast hc
    obtain ⟨y, hy, rfl⟩ := (mem_chains_allSegs (root := root)).mp hc1
    have hnot := hS.last hy hc2
    have hcn : (s.table.data n).cont = none := by
      cases hd : (s.table.data n).cont with
      | none => rfl
      | some m =>
        exfalso
        obtain ⟨p, hp, a, w, b, e1⟩ := (hcont n m).mp hd
        obtain ⟨z, hz, rfl⟩ := List.mem_map.mp hp
        obtain ⟨u, v, e2, -⟩ := inner_line.mp ⟨a, w, b, e1⟩
        exact hnot z hz u m v e2
    have hne : ¬ root = n := fun h =>
      hr (h ▸ (mem_names_nodes r n).mpr ⟨_, hm, rfl⟩)
    have hnw : (s.table.data n).news =
        if convShape k = .binary ∨ convShape k = .many then ins.map Rel.name else [] := by
      rw [hnews n, segs_inputs allSegs_ne_nil hnot]
      show (allSegs root r).filterMap (feed n) = _
      simp only [allSegs, List.filterMap_append]
      rw [FedBy] at hfed
      rw [hfed]
      simp [feed, hne]
    rw [hcn, hnw]
    split
    · rfl
    · rename_i h
      simp only [not_or] at h
      have : convShape k = .none := by
        cases hk : convShape k <;> simp_all
      rw [arity_none hw ha this]
      rfl

theorem declared_prepared {root : Str} {r : Rel} {named : Bool} (hf : Fits r) (hn : (names r).Nodup)
    (hr : root ∉ names r) : Prepared (declared root named r) root r where
  fresh := declared_fresh root named r
  apart := fun x _ => declared_not_other root named r x
  get := declared_get hf hn hr
  only := by
    intro x hdecl
    rw [declared_isRel, declared_keys, List.mem_append] at hdecl
    rcases hdecl with h | h
    · exact .inr ((entries_perm r).mem_iff.mp h)
    · cases named with
      | false => simp at h
      | true => exact .inl (by simpa using h)
  rootSubs := by
    cases named with
    | false =>
      have : root ∉ (declaredList root false r).map (·.1) := by
        rw [declared_keys]
        simp only [Bool.false_eq_true, if_false, List.append_nil]
        exact fun h => hr ((entries_perm r).mem_iff.mp h)
      have := get_tableOf_none this
      rw [← declared_eq] at this
      unfold Table.data
      rw [this]
      rfl
    | true =>
      have hin : (root, Entry.rel none Data.empty) ∈ declaredList root true r := by
        simp [declaredList]
      have := get_tableOf (declared_nodup (named := true) hn hr) hin
      rw [← declared_eq] at this
      unfold Table.data
      simp only at this
      rw [this]
      rfl
  listed := declared_listed hn hr

theorem read_back {root : Str} {r : Rel} {named : Bool} (hf : Fits r) (hn : (names r).Nodup)
    (hr : root ∉ names r) {f : Nat} (hl : (names r).length ≤ f) :
    ∃ s, visitAll (((allSegs root r).map lineOf).map refs) ⟨declared root named r, []⟩ = .ok s ∧
      s.errors = [] ∧ binaryPlan s.table f = .ok [r] := by
  obtain ⟨s, h1, h2, ⟨h3, -⟩, -⟩ := read_prepared hf hn hr (declared_prepared (named := named) hf hn hr) hl
  exact ⟨s, h1, h2, h3⟩

end Verif.Pipe
