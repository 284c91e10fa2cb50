import Verif.Spec.Normalizer

/-! # Lemmas about the reference normaliser -/

namespace Verif.Norm

open Verif

/-! ## The tables -/

theorem visits_of_field : ∀ k s, s ∈ fieldsOf k → missed k s = false → visits k s = true := by
  intro k s
  cases k <;> cases s <;> decide

theorem missed_not_visited : ∀ k s, missed k s = true → visits k s = false := by
  intro k s
  cases k <;> cases s <;> decide

theorem creates_required : ∀ k s, s ∈ creates k → s ∈ required k := by
  intro k s
  cases k <;> cases s <;> decide

/-! ## Fields -/

@[simp] theorem has_mapRefs (f : Nat → Nat) (s : Slot) (kids : Kids) :
    (kids.mapRefs f).has s = kids.has s := by
  match kids with
  | .nil => rfl
  | .cons s' m rest => simp only [Kids.mapRefs, Kids.has]; rw [has_mapRefs f s rest]

theorem addMissing_of_has : ∀ (ss : List Slot) (kids : Kids), (∀ s ∈ ss, kids.has s = true) →
    addMissing ss kids = kids := by
  intro ss
  induction ss with
  | nil => intro kids _; rfl
  | cons s ss ih =>
    intro kids h
    simp only [addMissing]
    rw [if_pos (h s (by simp))]
    exact ih kids fun s' hs' => h s' (by simp [hs'])

theorem has_snoc (s s' : Slot) (m : Msg) (kids : Kids) :
    (kids.snoc s' m).has s = (kids.has s || s' == s) := by
  match kids with
  | .nil => simp [Kids.snoc, Kids.has]
  | .cons s1 m1 rest => simp only [Kids.snoc, Kids.has]; rw [has_snoc s s' m rest, Bool.or_assoc]

theorem has_addMissing_of_has : ∀ (ss : List Slot) (kids : Kids) (s : Slot), kids.has s = true →
    (addMissing ss kids).has s = true := by
  intro ss
  induction ss with
  | nil => intro kids s h; exact h
  | cons s' ss ih =>
    intro kids s h
    simp only [addMissing]
    apply ih
    by_cases hh : kids.has s' = true
    · rw [if_pos hh]; exact h
    · rw [if_neg hh, has_snoc, h]; rfl

theorem has_addMissing : ∀ (ss : List Slot) (kids : Kids) (s : Slot), s ∈ ss →
    (addMissing ss kids).has s = true := by
  intro ss
  induction ss with
  | nil => intro kids s h; cases h
  | cons s' ss ih =>
    intro kids s h
    simp only [addMissing]
    rcases List.mem_cons.mp h with rfl | h
    · apply has_addMissing_of_has
      by_cases hh : kids.has s = true
      · rw [if_pos hh]; exact hh
      · rw [if_neg hh, has_snoc]; simp
    · exact ih _ s h

/-! ## Trees -/

mutual
theorem mapRefs_none (f : Nat → Nat) : ∀ m : Msg, m.refs = [] → m.mapRefs f = m
  | .node k d r kids => by
    intro h
    simp only [Msg.refs, List.append_eq_nil_iff] at h
    have hr : r = none := by cases r <;> simp_all
    simp only [Msg.mapRefs, hr, Option.map_none]
    rw [mapRefs_none_kids f kids h.2]
theorem mapRefs_none_kids (f : Nat → Nat) : ∀ kids : Kids, kids.refs = [] → kids.mapRefs f = kids
  | .nil => by intro _; rfl
  | .cons s m rest => by
    intro h
    simp only [Kids.refs, List.append_eq_nil_iff] at h
    simp only [Kids.mapRefs]
    rw [mapRefs_none f m h.1, mapRefs_none_kids f rest h.2]
end

mutual
theorem mapRefs_congr (f g : Nat → Nat) : ∀ m : Msg, (∀ r ∈ m.refs, f r = g r) →
    m.mapRefs f = m.mapRefs g
  | .node k d r kids => by
    intro h
    simp only [Msg.refs, List.mem_append] at h
    simp only [Msg.mapRefs]
    rw [mapRefs_congr_kids f g kids fun r hr => h r (Or.inr hr)]
    cases r with
    | none => rfl
    | some r => simp [h r (by simp)]
theorem mapRefs_congr_kids (f g : Nat → Nat) : ∀ kids : Kids, (∀ r ∈ kids.refs, f r = g r) →
    kids.mapRefs f = kids.mapRefs g
  | .nil => by intro _; rfl
  | .cons s m rest => by
    intro h
    simp only [Kids.refs, List.mem_append] at h
    simp only [Kids.mapRefs]
    rw [mapRefs_congr f g m fun r hr => h r (Or.inl hr),
      mapRefs_congr_kids f g rest fun r hr => h r (Or.inr hr)]
end

mutual
theorem mapRefs_comp (f g : Nat → Nat) : ∀ m : Msg,
    (m.mapRefs f).mapRefs g = m.mapRefs fun r => g (f r)
  | .node k d r kids => by
    simp only [Msg.mapRefs]
    rw [mapRefs_comp_kids f g kids]
    cases r <;> rfl
theorem mapRefs_comp_kids (f g : Nat → Nat) : ∀ kids : Kids,
    (kids.mapRefs f).mapRefs g = kids.mapRefs fun r => g (f r)
  | .nil => rfl
  | .cons s m rest => by
    simp only [Kids.mapRefs]
    rw [mapRefs_comp f g m, mapRefs_comp_kids f g rest]
end

mutual
theorem refs_mapRefs (f : Nat → Nat) : ∀ m : Msg, (m.mapRefs f).refs = m.refs.map f
  | .node k d r kids => by
    simp only [Msg.mapRefs, Msg.refs]
    rw [refs_mapRefs_kids f kids]
    cases r <;> simp
theorem refs_mapRefs_kids (f : Nat → Nat) : ∀ kids : Kids,
    (kids.mapRefs f).refs = kids.refs.map f
  | .nil => rfl
  | .cons s m rest => by
    simp only [Kids.mapRefs, Kids.refs]
    rw [refs_mapRefs f m, refs_mapRefs_kids f rest]
    simp
end

mutual
theorem missedRefs_mapRefs (f : Nat → Nat) : ∀ m : Msg,
    (m.mapRefs f).missedRefs = m.missedRefs.map f
  | .node k d r kids => by
    simp only [Msg.mapRefs, Msg.missedRefs]
    rw [missedRefs_mapRefs_kids f k kids]
    by_cases hk : k = .scalarFunction ∨ k = .measure
    · simp [hk]
    · simp only [if_neg hk, List.map_append]
      cases r <;> simp
theorem missedRefs_mapRefs_kids (f : Nat → Nat) (k : Kind) : ∀ kids : Kids,
    (kids.mapRefs f).missedRefs k = (kids.missedRefs k).map f
  | .nil => rfl
  | .cons s m rest => by
    simp only [Kids.mapRefs, Kids.missedRefs]
    rw [missedRefs_mapRefs f m, missedRefs_mapRefs_kids f k rest, refs_mapRefs]
    by_cases h : missed k s = true
    · simp [h]
    · simp [h]
end

mutual
theorem norm_eq (mp : Nat → Option Nat) (f : Nat → Nat) : ∀ m : Msg, m.valid = true →
    m.missedRefs = [] → (∀ r ∈ m.refs, mp r = some (f r)) → norm mp m = .ok (m.mapRefs f)
  | .node k d r kids => by
    intro hv hm hr
    simp only [Msg.valid, Bool.and_eq_true, List.all_eq_true] at hv
    simp only [Msg.missedRefs, List.append_eq_nil_iff] at hm
    simp only [Msg.refs, List.mem_append] at hr
    have hk := norm_eq_kids mp f k kids hv.2 hm.2 fun x hx => hr x (Or.inr hx)
    have hmiss : addMissing (creates k) (kids.mapRefs f) = kids.mapRefs f := by
      apply addMissing_of_has
      intro s hs
      rw [has_mapRefs]
      exact hv.1.1 s (creates_required k s hs)
    have href : normRef mp k r = .ok (r.map f) := by
      by_cases hsm : k = .scalarFunction ∨ k = .measure
      · have hsome : r.isSome = true := by
          have := hv.1.2
          rcases hsm with rfl | rfl <;> simpa using this
        obtain ⟨x, rfl⟩ := Option.isSome_iff_exists.mp hsome
        have hx := hr x (by simp)
        rcases hsm with rfl | rfl <;> simp [normRef, mapAt, hx]
      · have hn : r = none := by
          have := hm.1
          rw [if_neg hsm] at this
          cases r <;> simp_all
        subst hn
        cases k <;> first | rfl | simp at hsm
    simp only [norm, Msg.mapRefs, href, hk, Outcome.bind_ok, hmiss]
theorem norm_eq_kids (mp : Nat → Option Nat) (f : Nat → Nat) (k : Kind) : ∀ kids : Kids,
    kids.valid k = true → kids.missedRefs k = [] → (∀ r ∈ kids.refs, mp r = some (f r)) →
    normKids mp k kids = .ok (kids.mapRefs f)
  | .nil => by intro _ _ _; rfl
  | .cons s m rest => by
    intro hv hm hr
    simp only [Kids.valid, Bool.and_eq_true, List.contains_iff_mem] at hv
    simp only [Kids.missedRefs, List.append_eq_nil_iff] at hm
    simp only [Kids.refs, List.mem_append] at hr
    have ih := norm_eq_kids mp f k rest hv.2 hm.2 fun x hx => hr x (Or.inr hx)
    by_cases hms : missed k s = true
    · rw [if_pos hms] at hm
      simp only [normKids, missed_not_visited k s hms, Bool.false_eq_true, if_false,
        Outcome.bind_ok, ih, Kids.mapRefs]
      rw [mapRefs_none f m hm.1]
    · rw [if_neg hms] at hm
      have h1 := norm_eq mp f m hv.1.2 hm.1 fun x hx => hr x (Or.inl hx)
      have hvis := visits_of_field k s hv.1.1 (by simpa using hms)
      simp only [normKids, hvis, if_true, h1, Outcome.bind_ok, ih, Kids.mapRefs]
end

theorem norm_empty (mp : Nat → Option Nat) (s : Slot) : norm mp s.empty = .ok s.empty := by
  cases s <;> rfl

theorem normKids_snoc (mp : Nat → Option Nat) (k : Kind) (s : Slot) : ∀ kids : Kids,
    normKids mp k kids = .ok kids → normKids mp k (kids.snoc s s.empty) = .ok (kids.snoc s s.empty)
  | .nil => by
    intro _
    simp only [Kids.snoc, normKids]
    by_cases h : visits k s = true <;> simp [h, norm_empty]
  | .cons s' m rest => by
    intro h
    simp only [normKids] at h
    simp only [Kids.snoc, normKids]
    cases h1 : (if visits k s' = true then norm mp m else .ok m) with
    | ub => rw [h1] at h; simp at h
    | throw e => rw [h1] at h; simp at h
    | ok m' =>
      rw [h1] at h
      simp only [Outcome.bind_ok] at h ⊢
      cases h2 : normKids mp k rest with
      | ub => rw [h2] at h; simp at h
      | throw e => rw [h2] at h; simp at h
      | ok rest' =>
        rw [h2] at h
        simp only [Outcome.bind_ok, Outcome.ok.injEq, Kids.cons.injEq, true_and] at h
        obtain ⟨rfl, rfl⟩ := h
        rw [normKids_snoc mp k s rest' h2]
        rfl

theorem normKids_addMissing (mp : Nat → Option Nat) (k : Kind) : ∀ (ss : List Slot) (kids : Kids),
    normKids mp k kids = .ok kids → normKids mp k (addMissing ss kids) = .ok (addMissing ss kids) := by
  intro ss
  induction ss with
  | nil => intro kids h; exact h
  | cons s ss ih =>
    intro kids h
    simp only [addMissing]
    apply ih
    by_cases hh : kids.has s = true
    · rw [if_pos hh]; exact h
    · rw [if_neg hh]; exact normKids_snoc mp k s kids h

mutual
theorem norm_again (mp mp' : Nat → Option Nat) (hid : ∀ r r', mp r = some r' → mp' r' = some r') :
    ∀ m m' : Msg, norm mp m = .ok m' → norm mp' m' = .ok m'
  | .node k d r kids => by
    intro m' h
    simp only [norm] at h
    cases h1 : normRef mp k r with
    | ub => rw [h1] at h; simp at h
    | throw e => rw [h1] at h; simp at h
    | ok r' =>
      rw [h1] at h
      simp only [Outcome.bind_ok] at h
      cases h2 : normKids mp k kids with
      | ub => rw [h2] at h; simp at h
      | throw e => rw [h2] at h; simp at h
      | ok kids' =>
        rw [h2] at h
        simp only [Outcome.bind_ok, Outcome.ok.injEq] at h
        subst h
        have hk := norm_again_kids mp mp' hid k kids kids' h2
        have hr : normRef mp' k r' = .ok r' := by
          have sf : ∀ x, (mapAt mp x).map some = .ok r' → (mapAt mp' (r'.getD 0)).map some = .ok r' := by
            intro x hx
            unfold mapAt at hx
            cases hm : mp x with
            | none => rw [hm] at hx; simp at hx
            | some y =>
              rw [hm] at hx
              simp only [Outcome.map_ok, Outcome.ok.injEq] at hx
              subst hx
              simp [mapAt, hid x y hm]
          cases k <;> first | rfl | exact sf _ h1
        simp only [norm, hr, Outcome.bind_ok, normKids_addMissing mp' k _ _ hk, Outcome.ok.injEq,
          Msg.node.injEq, true_and]
        exact addMissing_of_has _ _ fun s hs => has_addMissing _ _ s hs
theorem norm_again_kids (mp mp' : Nat → Option Nat)
    (hid : ∀ r r', mp r = some r' → mp' r' = some r') (k : Kind) :
    ∀ kids kids' : Kids, normKids mp k kids = .ok kids' → normKids mp' k kids' = .ok kids'
  | .nil => by
    intro kids' h
    simp only [normKids, Outcome.ok.injEq] at h
    subst h; rfl
  | .cons s m rest => by
    intro kids' h
    simp only [normKids] at h
    cases h1 : (if visits k s = true then norm mp m else .ok m) with
    | ub => rw [h1] at h; simp at h
    | throw e => rw [h1] at h; simp at h
    | ok m' =>
      rw [h1] at h
      simp only [Outcome.bind_ok] at h
      cases h2 : normKids mp k rest with
      | ub => rw [h2] at h; simp at h
      | throw e => rw [h2] at h; simp at h
      | ok rest' =>
        rw [h2] at h
        simp only [Outcome.bind_ok, Outcome.ok.injEq] at h
        subst h
        have hk := norm_again_kids mp mp' hid k rest rest' h2
        by_cases hv : visits k s = true
        · rw [if_pos hv] at h1
          have := norm_again mp mp' hid m m' h1
          simp only [normKids, hv, if_true, this, Outcome.bind_ok, hk]
        · simp only [normKids, hv, Bool.false_eq_true, if_false, Outcome.bind_ok, hk]
end

/-! ## Maps -/

theorem lookupLast_append (l : List (Nat × Nat)) (a b k : Nat) :
    lookupLast (l ++ [(a, b)]) k = if a = k then some b else lookupLast l k := by
  unfold lookupLast
  simp only [List.reverse_append, List.reverse_cons, List.reverse_nil, List.nil_append,
    List.singleton_append, List.find?_cons]
  by_cases h : a = k
  · simp [h]
  · have hb : (a == k) = false := by simpa using h
    rw [hb, if_neg h]

theorem lookupLast_zipIdx {α : Type} (key : α → Nat) (c : Nat) (l : List α)
    (hn : (l.map key).Nodup) :
    (∀ i a, l[i]? = some a → lookupLast (l.zipIdx.map fun e => (key e.1, e.2 + c)) (key a) = some (i + c)) ∧
    (∀ k, k ∉ l.map key → lookupLast (l.zipIdx.map fun e => (key e.1, e.2 + c)) k = none) := by
  have key' : ∀ (r : List α), (r.reverse.map key).Nodup →
      (∀ i a, r.reverse[i]? = some a →
        lookupLast (r.reverse.zipIdx.map fun e => (key e.1, e.2 + c)) (key a) = some (i + c)) ∧
      (∀ k, k ∉ r.reverse.map key →
        lookupLast (r.reverse.zipIdx.map fun e => (key e.1, e.2 + c)) k = none) := by
    intro r
    induction r with
    | nil => intro _; simp [lookupLast]
    | cons x r ih =>
      intro hn
      simp only [List.reverse_cons, List.map_append, List.map_cons, List.map_nil] at hn ⊢
      rw [List.nodup_append] at hn
      obtain ⟨hn1, _, hd⟩ := hn
      obtain ⟨ih1, ih2⟩ := ih hn1
      rw [List.zipIdx_append]
      simp only [List.map_append, List.zipIdx_cons, List.zipIdx_nil, List.map_cons, List.map_nil]
      constructor
      · intro i a ha
        rw [lookupLast_append]
        by_cases hi : i < r.reverse.length
        · rw [List.getElem?_append_left hi] at ha
          have hne : ¬ key x = key a := by
            intro e
            exact hd (key a) (List.mem_map.mpr ⟨a, List.mem_of_getElem? ha, rfl⟩) (key x) (by simp) e.symm
          rw [if_neg hne]
          exact ih1 i a ha
        · rw [List.getElem?_append_right (by omega)] at ha
          have h0 : i - r.reverse.length = 0 := by
            rcases Nat.eq_zero_or_pos (i - r.reverse.length) with h | h
            · exact h
            · rw [List.getElem?_eq_none (by rw [List.length_singleton]; omega)] at ha; cases ha
          rw [h0] at ha
          simp only [List.getElem?_cons_zero, Option.some.injEq] at ha
          subst ha
          rw [if_pos rfl]
          congr 1
          omega
      · intro k hk
        simp only [List.mem_append, List.mem_singleton, not_or] at hk
        rw [lookupLast_append, if_neg (fun e => hk.2 e.symm)]
        exact ih2 k hk.1
  have := key' l.reverse
  rw [List.reverse_reverse] at this
  exact this hn

/-! ## Sorting -/

theorem str_antisymm (a b : Str) (h1 : ¬ a < b) (h2 : ¬ b < a) : a = b := by
  exact List.le_antisymm (List.not_lt.mp h2) (List.not_lt.mp h1)

theorem uri_equiv (a b : Uri) (h1 : uriLess a b = false) (h2 : uriLess b a = false) : a.uri = b.uri := by
  simp only [uriLess, decide_eq_false_iff_not] at h1 h2
  exact str_antisymm _ _ h1 h2

theorem decl_equiv (a b : Decl) (h1 : declLess a b = false) (h2 : declLess b a = false) :
    a.key = b.key := by
  unfold declLess at h1 h2
  dsimp only at h1 h2
  generalize a.key = x at *
  generalize b.key = y at *
  obtain ⟨x1, x2, x3⟩ := x
  obtain ⟨y1, y2, y3⟩ := y
  by_cases e1 : x1 = y1
  · subst e1
    simp only [bne_self_eq_false, Bool.false_eq_true, if_false] at h1 h2
    by_cases e2 : x2 = y2
    · subst e2
      simp only [bne_self_eq_false, Bool.false_eq_true, if_false, decide_eq_false_iff_not] at h1 h2
      rw [str_antisymm _ _ h1 h2]
    · have e2' : ¬ y2 = x2 := fun e => e2 e.symm
      simp only [bne_iff_ne, ne_eq, e2, e2', not_false_eq_true, if_true, decide_eq_false_iff_not] at h1 h2
      omega
  · cases x1 <;> cases y1 <;> simp_all

/-- Two sorted arrangements of the same elements agree if equivalent elements are equal. -/
theorem sorted_unique {α κ : Type} (less : α → α → Bool) (key : α → κ)
    (hkey : ∀ a b, less a b = false → less b a = false → key a = key b)
    {l1 l2 : List α} (hp : l1.Perm l2) (h1 : l1.Pairwise fun a b => less b a = false)
    (h2 : l2.Pairwise fun a b => less b a = false) (hn : (l1.map key).Nodup) : l1 = l2 := by
  refine List.Perm.eq_of_pairwise (le := fun a b => less b a = false) ?_ h1 h2 hp
  intro a b ha hb hab hba
  have hk : key a = key b := hkey a b hba hab
  have hb1 : b ∈ l1 := hp.symm.subset hb
  obtain ⟨i, hi⟩ := List.mem_iff_getElem?.mp ha
  obtain ⟨j, hj⟩ := List.mem_iff_getElem?.mp hb1
  have e1 : (l1.map key)[i]? = some (key a) := by rw [List.getElem?_map, hi]; rfl
  have e2 : (l1.map key)[j]? = some (key b) := by rw [List.getElem?_map, hj]; rfl
  have hlt : i < (l1.map key).length := by
    rw [List.length_map]; exact (List.getElem?_eq_some_iff.mp hi).1
  have := (List.getElem?_inj hlt hn).mp (e1.trans (hk ▸ e2.symm))
  subst this
  rw [hi] at hj
  exact Option.some.inj hj

end Verif.Norm
