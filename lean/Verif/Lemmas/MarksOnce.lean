import Verif.Lemmas.Marks

/-! # Every relation is the end of one link at most -/

namespace Verif.Trav

open Verif

/-- The relation a link leads to; the links of relations with several inputs are left out. -/
def target : Nat × Link → Option Nat
  | (_, .continuing t) => t
  | (_, .sub q) => some q
  | (_, .new _) => none

mutual
/-- The relations in a message that are not inside another one or in a subquery. -/
def outermost : Msg → List Nat
  | .node k loc fs => if k = .rel then [loc] else if k = .expression then [] else outermostF k fs
def outermostF (k : Kind) : Fields → List Nat
  | .nil => []
  | .cons l m r => (if (k, l) ∈ missed then [] else outermost m) ++ outermostF k r
end

theorem outermostF_eq (k : Kind) : ∀ fs : Fields,
    outermostF k fs = fs.toList.flatMap fun x => if (k, x.1) ∈ missed then [] else outermost x.2
  | .nil => by simp [outermostF, Fields.toList]
  | .cons l m r => by simp [outermostF, Fields.toList, outermostF_eq k r]

theorem outermostF_mem {k : Kind} {fs : Fields} {x : Label × Msg} (hx : x ∈ fs.toList)
    (hm : (k, x.1) ∉ missed) {n : Nat} (hn : n ∈ outermost x.2) : n ∈ outermostF k fs := by
  rw [outermostF_eq]
  exact List.mem_flatMap.mpr ⟨x, hx, by rw [if_neg hm]; exact hn⟩

theorem outermost_self {r : Msg} (h : r.kind = .rel) : outermost r = [r.loc] := by
  obtain ⟨k, loc, fs⟩ := r
  simp only [Msg.kind] at h
  simp [outermost, h, Msg.loc]

theorem count_sum {α : Type} {f g h : α → List Nat} (a : Nat) : ∀ {l : List α},
    (∀ x ∈ l, (f x).count a + (g x).count a ≤ (h x).count a) →
      (l.flatMap f).count a + (l.flatMap g).count a ≤ (l.flatMap h).count a
  | [], _ => by simp
  | x :: xs, hx => by
    have h1 := hx x (by simp)
    have h2 := count_sum (f := f) (g := g) (h := h) a (l := xs) fun y hy => hx y (by simp [hy])
    simp only [List.flatMap_cons, List.count_append]
    omega

theorem count_one {l : List Nat} {n : Nat} (h : n ∈ l) (a : Nat) : [n].count a ≤ l.count a :=
  (List.singleton_sublist.mpr h).count_le a

theorem linksOf_targets (loc : Nat) (r : Msg) :
    ((linksOf r.fields).map fun l => (loc, l)).filterMap target =
      ((onlyInput r).map Msg.loc).toList := by
  unfold linksOf onlyInput
  have one : ∀ m : Msg, ([Link.continuing ((m.fields.get .input).map Msg.loc)].map fun l =>
      (loc, l)).filterMap target = ((m.fields.get .input).map Msg.loc).toList := by
    intro m
    cases m.fields.get .input <;> simp [target]
  have many : ∀ ms : List Msg, ((ms.map fun r => Link.new (some r.loc)).map fun l =>
      (loc, l)).filterMap target = [] := by
    intro ms
    simp [List.filterMap_eq_nil_iff, target]
  split <;> rename_i hlm <;> simp only [hlm] <;>
    first
    | exact one _
    | exact many _
    | simp [target]

theorem rel_cases : ∀ p ∈ allowed .rel, p.2 ≠ .rel ∧ p.2 ≠ .expression := by decide

theorem subquery_cases : ∀ p ∈ allowed .subquery, p.2 ≠ .rel ∧ p.2 ≠ .expression := by decide

theorem onlyInput_top {loc : Nat} {fs : Fields} {x : Msg} (hc : Conforms (.node .rel loc fs))
    (h : onlyInput (.node .rel loc fs) = some x) : x.loc ∈ outermostF .rel fs := by
  have get : ∃ l m, fs.caseOf relCases = some (l, m) ∧ m.fields.get .input = some x := by
    unfold onlyInput at h
    simp only [Msg.fields] at h
    split at h <;> first | exact ⟨_, _, by assumption, h⟩ | cases h
  obtain ⟨l, m, hlm, hg⟩ := get
  rw [caseOf_eq] at hlm
  have hx := List.mem_of_find?_eq_some hlm
  simp only [Conforms] at hc
  obtain ⟨a1, a2⟩ := conformsF_mem hc.2 _ hx
  obtain ⟨k, loc', fs'⟩ := m
  simp only [Conforms] at a2
  have hy := get_mem hg
  obtain ⟨b1, b2⟩ := conformsF_mem a2.2 _ hy
  obtain ⟨c1, c2⟩ := input_kinds _ a1 _ b1 (by simp)
  obtain ⟨d1, d2⟩ := rel_cases _ a1
  simp only [Msg.kind] at d1 d2
  refine outermostF_mem hx (rel_missed l) ?_
  simp only [outermost, if_neg d1, if_neg d2]
  exact outermostF_mem hy c2 (by rw [outermost_self c1]; simp)

theorem relationOf_top {loc : Nat} {fs : Fields} {q r : Msg} (h : Conforms (.node .expression loc fs))
    (hq : fs.get .subquery = some q) (hr : relationOf q = some r) : r.loc ∈ outermostF .expression fs := by
  have hqm := get_mem hq
  simp only [Conforms] at h
  obtain ⟨h1, h2⟩ := conformsF_mem h.2 _ hqm
  have hqk : q.kind = .subquery := expression_subquery _ h1 rfl
  refine outermostF_mem hqm (show (Kind.expression, Label.subquery) ∉ missed by decide) ?_
  obtain ⟨k, loc', fs'⟩ := q
  simp only [Msg.kind] at hqk
  subst hqk
  simp only [outermost, show Kind.subquery ≠ .rel by decide, show Kind.subquery ≠ .expression by decide,
    if_false]
  simp only [relationOf, Msg.fields, Option.map_eq_some_iff] at hr
  obtain ⟨y, h3, rfl⟩ := hr
  have h4 := List.find?_some h3
  simp only [decide_eq_true_eq] at h4
  obtain ⟨x, h5, h6⟩ := List.mem_flatMap.mp (List.mem_of_find?_eq_some h3)
  simp only [Conforms] at h2
  obtain ⟨h7, h8⟩ := conformsF_mem h2.2 _ h5
  obtain ⟨d1, d2⟩ := subquery_cases _ h7
  refine outermostF_mem h5 ?_ ?_
  · revert h7
    generalize x.1 = l
    intro _
    cases l <;> decide
  · obtain ⟨l, ⟨k, loc2, fs2⟩⟩ := x
    simp only [Msg.kind] at d1 d2
    simp only [Conforms] at h6 h8
    obtain ⟨h9, h10⟩ := conformsF_mem h8.2 _ h6
    simp only [outermost, if_neg d1, if_neg d2]
    exact outermostF_mem h6 (missed_kinds k _ h9 h4) (by rw [outermost_self h4]; simp)

/-- Links lead to different relations, and to none of the outermost ones. -/
theorem targets_count (a : Nat) : ∀ m : Msg, Conforms m → ∀ sc,
    ((linksIn sc m).filterMap target).count a + (outermost m).count a ≤ (shownIn m).count a := by
  refine Msg.induct ?_
  intro k loc fs ih hc sc
  have hc' := hc
  simp only [Conforms] at hc'
  have sum : ∀ sc, ((linksF sc k fs).filterMap target).count a + (outermostF k fs).count a ≤
      (shownF k fs).count a := by
    intro sc
    rw [linksF_eq, outermostF_eq, shownF_eq, List.filterMap_flatMap]
    refine count_sum a fun x hx => ?_
    by_cases hm : (k, x.1) ∈ missed
    · simp [hm]
    · simp only [if_neg hm]
      exact ih x hx (conformsF_mem hc'.2 _ hx).2 sc
  simp only [linksIn, shownIn, List.filterMap_append, List.count_append]
  by_cases hk : k = .rel
  · subst hk
    have h1 := sum (some loc)
    have h2 : ((parentOf sc (.node .rel loc fs)).map fun p => (p.2, Link.sub p.1)) = [] := by
      simp [parentOf, Msg.kind]
    have h3 : (((linksOf fs).map fun l => (loc, l)).filterMap target).count a ≤
        (outermostF .rel fs).count a := by
      rw [show fs = (Msg.node .rel loc fs).fields from rfl, linksOf_targets]
      cases ho : onlyInput (.node .rel loc fs) with
      | none => simp
      | some x => exact count_one (onlyInput_top hc ho) a
    simp only [if_true, h2, outermost, List.filterMap_nil, List.count_nil]
    omega
  · have h1 := sum sc
    simp only [hk, if_false, List.filterMap_nil, List.count_nil]
    by_cases he : k = .expression
    · subst he
      have h3 : (((parentOf sc (.node .expression loc fs)).map fun p =>
          (p.2, Link.sub p.1)).filterMap target).count a ≤ (outermostF .expression fs).count a := by
        unfold parentOf
        simp only [Msg.kind, if_true]
        split
        · rename_i q c hq
          cases hr : relationOf q with
          | none => simp
          | some r => exact count_one (relationOf_top hc hq hr) a
        · simp
      simp only [outermost, hk, if_false, if_true, List.count_nil]
      omega
    · have h2 : ((parentOf sc (.node k loc fs)).map fun p => (p.2, Link.sub p.1)) = [] := by
        simp [parentOf, Msg.kind, he]
      simp only [h2, outermost, hk, he, if_false, List.filterMap_nil, List.count_nil]
      omega

theorem targets_nodup {m : Msg} (hc : Conforms m) (hn : (shownIn m).Nodup) {l : List (Nat × Link)}
    (hl : l.Perm (linksIn none m)) : (l.filterMap target).Nodup := by
  rw [(hl.filterMap target).nodup_iff, List.nodup_iff_count]
  intro a
  have h1 := targets_count a m hc none
  have h2 := List.nodup_iff_count.mp hn a
  omega

/-- Two links to one relation are the same link. -/
theorem target_unique : ∀ {l : List (Nat × Link)}, (l.filterMap target).Nodup → ∀ {x y : Nat × Link},
    x ∈ l → y ∈ l → ∀ {a : Nat}, target x = some a → target y = some a → x = y
  | [], _, _, _, hx, _, _, _, _ => by cases hx
  | z :: zs, h, x, y, hx, hy, a, h1, h2 => by
    have tail : (zs.filterMap target).Nodup := by
      rw [List.filterMap_cons] at h
      split at h
      · exact h
      · exact (List.nodup_cons.mp h).2
    rcases List.mem_cons.mp hx with hx' | hx' <;> rcases List.mem_cons.mp hy with hy' | hy'
    · rw [hx', hy']
    · subst hx'
      rw [List.filterMap_cons, h1] at h
      exact absurd (List.mem_filterMap.mpr ⟨y, hy', h2⟩) (List.nodup_cons.mp h).1
    · subst hy'
      rw [List.filterMap_cons, h2] at h
      exact absurd (List.mem_filterMap.mpr ⟨x, hx', h1⟩) (List.nodup_cons.mp h).1
    · exact target_unique tail hx' hy' h1 h2

/-- Relations on the way along the links. -/
inductive Reach (l : List (Nat × Link)) (q : Nat) : Nat → Prop
  | here : Reach l q q
  | step {b a : Nat} (h : Reach l q b) (hs : (b, Link.continuing (some a)) ∈ l) : Reach l q a

theorem continuing_mem {l : List (Nat × Link)} {b a : Nat} (h : continuing l b = some a) :
    (b, Link.continuing (some a)) ∈ l := by
  unfold continuing at h
  cases hL : (l.filterMap (written b)).getLast? with
  | none => rw [hL] at h; cases h
  | some t =>
    rw [hL] at h
    simp only [Option.join_some] at h
    subst h
    obtain ⟨⟨c, lk⟩, h1, h2⟩ := List.mem_filterMap.mp (List.mem_of_getLast? hL)
    cases lk with
    | continuing t' =>
      simp only [written] at h2
      split at h2
      · next hc => subst hc; cases h2; exact h1
      · cases h2
    | new _ => simp [written] at h2
    | sub _ => simp [written] at h2

theorem marked_reach {l : List (Nat × Link)} {q : Nat} : ∀ {f b : Nat} {xs : List Nat}, Reach l q b →
    marked l f b = some xs → ∀ a ∈ xs, Reach l q a
  | 0, _, _, _, h => by cases h
  | f + 1, b, xs, hb, h => by
    simp only [marked] at h
    intro a ha
    cases hn : continuing l b with
    | none =>
      rw [hn] at h
      simp only [Option.some.injEq] at h
      subst h
      rw [List.mem_singleton.mp ha]
      exact hb
    | some c =>
      rw [hn] at h
      simp only [Option.map_eq_some_iff] at h
      obtain ⟨ys, h1, rfl⟩ := h
      rcases List.mem_cons.mp ha with rfl | ha
      · exact hb
      · exact marked_reach (.step hb (continuing_mem hn)) h1 a ha

theorem reach_unique {l : List (Nat × Link)} (hl : (l.filterMap target).Nodup) {c c' q q' : Nat}
    (h : (c, Link.sub q) ∈ l) (h' : (c', Link.sub q') ∈ l) {a : Nat} (ha : Reach l q a) :
    Reach l q' a → q = q' := by
  induction ha with
  | here =>
    intro hr
    cases hr with
    | here => rfl
    | step _ hs => cases target_unique hl h hs (a := q) rfl rfl
  | step _ hs ih =>
    intro hr
    cases hr with
    | here => cases target_unique hl h' hs (a := q') rfl rfl
    | step hb hs' =>
      cases target_unique hl hs hs' rfl rfl
      exact ih hb

end Verif.Trav
