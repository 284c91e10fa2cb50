import Verif.Lemmas.Normalizer

/-! # Properties of the reference normaliser (C30 - C32) -/

namespace Verif.Norm

open Verif

/-! ## C30: idempotence -/

theorem idx_of_mem {α : Type} {l : List α} {a : α} (h : a ∈ l) : ∃ i : Nat, l[i]? = some a :=
  List.mem_iff_getElem?.mp h

theorem anchors_numbered {α β : Type} (l : List α) (c : Nat) (f : α × Nat → β) (key : β → Nat)
    (h : ∀ e, key (f e) = e.2 + c) : ((l.zipIdx.map f).map key).Nodup := by
  have : (l.zipIdx.map f).map key = (List.range' 0 l.length).map (· + c) := by
    rw [← List.zipIdx_map_snd 0 l, List.map_map, List.map_map]
    exact List.map_congr_left fun e _ => h e
  rw [this, List.Nodup, List.pairwise_map]
  exact (List.nodup_range' (s := 0) (n := l.length)).imp fun hne e => hne (by omega)

theorem pairwise_map_of {α β : Type} (r : β → β → Prop) (f : α → β) (l : List α)
    (h : l.Pairwise fun a b => r (f a) (f b)) : (l.map f).Pairwise r :=
  List.pairwise_map.mpr h

theorem pairwise_numbered {α β : Type} (less : α → α → Bool) (less' : β → β → Bool) (f : α × Nat → β)
    (hf : ∀ a b, less' (f a) (f b) = less a.1 b.1) (l : List α)
    (h : l.Pairwise fun a b => less b a = false) :
    (l.zipIdx.map f).Pairwise fun a b => less' b a = false := by
  rw [List.pairwise_map]
  have : (l.zipIdx.map Prod.fst).Pairwise fun a b => less b a = false := by
    rw [List.zipIdx_map_fst]; exact h
  rw [List.pairwise_map] at this
  exact this.imp fun h => by rw [hf]; exact h

theorem map_numbered {α β γ : Type} (f : α × Nat → β) (g : β → γ) (k : α → γ)
    (h : ∀ e, g (f e) = k e.1) (l : List α) : (l.zipIdx.map f).map g = l.map k := by
  rw [List.map_map]
  have : l.map k = (l.zipIdx.map Prod.fst).map k := by rw [List.zipIdx_map_fst]
  rw [this, List.map_map]
  exact List.map_congr_left fun e _ => h e

theorem renumber_numbered {α β : Type} (f : α × Nat → β) (g : β × Nat → β)
    (h : ∀ a i, g (f (a, i), i) = f (a, i)) (l : List α) :
    ((l.zipIdx.map f).zipIdx.map g) = l.zipIdx.map f := by
  apply List.ext_getElem?
  intro i
  simp only [List.getElem?_map, List.getElem?_zipIdx, Option.map_map]
  cases l[i]? with
  | none => rfl
  | some a => simp [h]

/-- **C30** (`_partial`: only functions are declared, and none twice).  Normalising a normalised
plan changes nothing, even if the second run uses another implementation of `std::sort`. -/
theorem normalize_idempotent_partial (s s' : Sorters) (hs : s.Correct) (hs' : s'.Correct)
    (p p' : Plan) (hf : ∀ d ∈ p.decls, d.isFunction = true) (hu : (p.uris.map (·.uri)).Nodup)
    (hk : ((normalizeSpaces s p).decls.map Decl.key).Nodup) (h : normalize s p = .ok p') :
    normalize s' p' = .ok p' := by
  unfold normalize normalizeFunctions at h
  generalize hp1 : normalizeSpaces s p = p1 at h hk
  have hrels : p1.relations = p.relations := by rw [← hp1]; rfl
  have huris : p1.uris = (s.uris p.uris).zipIdx.map fun e => ⟨e.2 + 1, e.1.uri⟩ := by rw [← hp1]; rfl
  have hfun : ∀ d ∈ p1.decls, d.isFunction = true := by
    rw [← hp1]
    intro d hd
    simp only [normalizeSpaces, List.mem_map] at hd
    obtain ⟨d0, hd0, rfl⟩ := hd
    have := hf d0 hd0
    cases d0 with
    | function => rfl
    | other => simp [Decl.isFunction] at this
  dsimp only at h
  cases hm : Outcome.mapM (norm (functionMapping (s.decls p1.decls))) p1.relations with
  | ub => rw [hm] at h; simp at h
  | throw e => rw [hm] at h; simp at h
  | ok rels =>
    rw [hm] at h
    simp only [Outcome.map_ok, Outcome.ok.injEq] at h
    obtain ⟨hsp, hss⟩ := hs.decls p1.decls
    obtain ⟨hup, hus⟩ := hs.uris p.uris
    -- the spaces stay
    have hUsorted : p1.uris.Pairwise fun a b => uriLess b a = false := by
      rw [huris]
      exact pairwise_numbered uriLess uriLess (fun e => ⟨e.2 + 1, e.1.uri⟩) (fun a b => rfl) _ hus
    have hUnodup : (p1.uris.map (·.uri)).Nodup := by
      rw [huris, map_numbered (fun e => (⟨e.2 + 1, e.1.uri⟩ : Uri)) Uri.uri Uri.uri (fun e => rfl)]
      exact (hup.map _).symm.nodup hu
    have hU : s'.uris p1.uris = p1.uris := by
      obtain ⟨a, b⟩ := hs'.uris p1.uris
      exact sorted_unique uriLess (·.uri) uri_equiv a b hUsorted
        ((a.map _).symm.nodup hUnodup)
    have hUnum : (p1.uris.zipIdx.map fun e => (⟨e.2 + 1, e.1.uri⟩ : Uri)) = p1.uris := by
      rw [huris]
      exact renumber_numbered _ _ (fun a i => rfl) _
    have hmap : ∀ x y, spaceMapping p1.uris x = some y → x = y := by
      have hall : ∀ e ∈ (p1.uris.zipIdx.map fun e => (e.1.anchor, e.2 + 1)), e.1 = e.2 := by
        intro e he
        rw [List.mem_map] at he
        obtain ⟨⟨u, i⟩, hui, rfl⟩ := he
        rw [List.mem_zipIdx_iff_getElem?, huris] at hui
        simp only [List.getElem?_map, List.getElem?_zipIdx, Option.map_map,
          Option.map_eq_some_iff] at hui
        obtain ⟨u0, _, rfl⟩ := hui
        simp
      intro x y hxy
      unfold spaceMapping lookupLast at hxy
      rw [Option.map_eq_some_iff] at hxy
      obtain ⟨e, he, rfl⟩ := hxy
      have h1 := hall e (List.mem_reverse.mp (List.mem_of_find?_eq_some he))
      have h2 := List.find?_some he
      simp only [beq_iff_eq] at h2
      omega
    have hren : ∀ d : Decl, renumberSpace (spaceMapping p1.uris) d = d := by
      intro d
      cases d with
      | other => rfl
      | function sp a n =>
        simp only [renumberSpace, Decl.function.injEq, and_true]
        cases hx : spaceMapping p1.uris sp with
        | none => rfl
        | some y => exact (hmap sp y hx).symm
    -- the functions stay
    let sorted := s.decls p1.decls
    have hsorted_fun : ∀ d ∈ sorted, d.isFunction = true := fun d hd => hfun d (hsp.subset hd)
    let D := sorted.zipIdx.map fun e => e.1.setAnchor e.2
    have hDkey : D.map Decl.key = sorted.map Decl.key := by
      simp only [D, List.map_map]
      have : sorted.map Decl.key = (sorted.zipIdx.map Prod.fst).map Decl.key := by
        rw [List.zipIdx_map_fst]
      rw [this, List.map_map]
      apply List.map_congr_left
      rintro ⟨d, i⟩ hd
      have := hsorted_fun d (List.mem_of_getElem? (List.mem_zipIdx_iff_getElem?.mp hd))
      cases d with
      | function => rfl
      | other => simp [Decl.isFunction] at this
    have hless : ∀ a b : Decl, ∀ a' b' : Decl, a.key = a'.key → b.key = b'.key →
        declLess a b = declLess a' b' := by
      intro a b a' b' e1 e2
      unfold declLess
      rw [e1, e2]
    have hDsorted : D.Pairwise fun a b => declLess b a = false := by
      simp only [D]
      rw [List.pairwise_map]
      have hz : (sorted.zipIdx.map Prod.fst).Pairwise fun a b => declLess b a = false := by
        rw [List.zipIdx_map_fst]; exact hss
      rw [List.pairwise_map] at hz
      refine List.Pairwise.imp_of_mem ?_ hz
      rintro ⟨a, i⟩ ⟨b, j⟩ ha hb hab
      have fa := hsorted_fun a (List.mem_of_getElem? (List.mem_zipIdx_iff_getElem?.mp ha))
      have fb := hsorted_fun b (List.mem_of_getElem? (List.mem_zipIdx_iff_getElem?.mp hb))
      cases a with
      | other => simp [Decl.isFunction] at fa
      | function =>
        cases b with
        | other => simp [Decl.isFunction] at fb
        | function => exact hab
    have hDnodup : (D.map Decl.key).Nodup := by
      rw [hDkey]
      exact (hsp.map _).symm.nodup hk
    have hD : s'.decls D = D := by
      obtain ⟨a, b⟩ := hs'.decls D
      exact sorted_unique declLess Decl.key decl_equiv a b hDsorted ((a.map _).symm.nodup hDnodup)
    have hDnum : (D.zipIdx.map fun e => e.1.setAnchor e.2) = D := by
      apply renumber_numbered
      intro a i
      cases a <;> rfl
    have hDanchor : ∀ (i : Nat) (d : Decl), D[i]? = some d → d.anchor = i := by
      intro i d hd
      simp only [D, List.getElem?_map, List.getElem?_zipIdx, Option.map_map,
        Option.map_eq_some_iff] at hd
      obtain ⟨d0, _, rfl⟩ := hd
      cases d0 <;> simp [Decl.setAnchor, Decl.anchor]
    have hDanchors : (D.map Decl.anchor).Nodup := by
      exact anchors_numbered sorted 0 _ _ (fun e => by cases e with | mk d i => cases d <;> rfl)
    have hid : ∀ r r', functionMapping sorted r = some r' → functionMapping D r' = some r' := by
      intro r r' hr
      have hlt : r' < D.length := by
        unfold functionMapping lookupLast at hr
        rw [Option.map_eq_some_iff] at hr
        obtain ⟨e, he, rfl⟩ := hr
        have := List.mem_reverse.mp (List.mem_of_find?_eq_some he)
        rw [List.mem_map] at this
        obtain ⟨⟨d, i⟩, hdi, rfl⟩ := this
        have := (List.getElem?_eq_some_iff.mp (List.mem_zipIdx_iff_getElem?.mp hdi)).1
        simpa [D] using this
      have h1 := (lookupLast_zipIdx Decl.anchor 0 D hDanchors).1 r' D[r'] (List.getElem?_eq_getElem hlt)
      rw [hDanchor r' _ (List.getElem?_eq_getElem hlt)] at h1
      exact h1
    have hrel2 : Outcome.mapM (norm (functionMapping D)) rels = .ok rels := by
      have key : ∀ (l l' : List Msg), Outcome.mapM (norm (functionMapping sorted)) l = .ok l' →
          Outcome.mapM (norm (functionMapping D)) l' = .ok l' := by
        intro l
        induction l with
        | nil =>
          intro l' h
          simp only [Outcome.mapM_nil, Outcome.ok.injEq] at h
          subst h; rfl
        | cons m ms ih =>
          intro l' h
          rw [Outcome.mapM_cons] at h
          cases h1 : norm (functionMapping sorted) m with
          | ub => rw [h1] at h; simp at h
          | throw e => rw [h1] at h; simp at h
          | ok m' =>
            cases h2 : Outcome.mapM (norm (functionMapping sorted)) ms with
            | ub => rw [h1, h2] at h; simp at h
            | throw e => rw [h1, h2] at h; simp at h
            | ok ms' =>
              rw [h1, h2] at h
              simp only [Outcome.bind_ok, Outcome.ok.injEq] at h
              subst h
              rw [Outcome.mapM_cons, norm_again _ _ hid m m' h1, ih ms' h2]
              rfl
      exact key p1.relations rels hm
    subst h
    unfold normalize normalizeSpaces normalizeFunctions
    simp only [hU, hUnum]
    have hmapid : D.map (renumberSpace (spaceMapping p1.uris)) = D := by
      have : D.map (renumberSpace (spaceMapping p1.uris)) = D.map id :=
        List.map_congr_left fun d _ => hren d
      rw [this, List.map_id]
    change Outcome.map _ (Outcome.mapM (norm (functionMapping
      (s'.decls (D.map (renumberSpace (spaceMapping p1.uris)))))) rels) = _
    rw [hmapid, hD, hrel2]
    simp only [Outcome.map_ok, Outcome.ok.injEq, hDnum]
    rfl

/-! ## C31: meaning -/

theorem findSome_unique {α β : Type} (l : List α) (f : α → Option β) (a : α) (b : β) (h : a ∈ l)
    (hf : f a = some b) (hu : ∀ x ∈ l, ∀ y, f x = some y → y = b) : l.findSome? f = some b := by
  induction l with
  | nil => cases h
  | cons x xs ih =>
    rw [List.findSome?_cons]
    cases hx : f x with
    | some y => simp [hu x (by simp) y hx]
    | none =>
      rcases List.mem_cons.mp h with rfl | h
      · rw [hf] at hx; cases hx
      · exact ih h fun z hz => hu z (by simp [hz])

theorem nodup_key {α κ : Type} (key : α → κ) {l : List α} (hn : (l.map key).Nodup) {a b : α}
    (ha : a ∈ l) (hb : b ∈ l) (h : key a = key b) : a = b := by
  obtain ⟨i, hi⟩ := idx_of_mem ha
  obtain ⟨j, hj⟩ := idx_of_mem hb
  have e1 : (l.map key)[i]? = some (key a) := by rw [List.getElem?_map, hi]; rfl
  have e2 : (l.map key)[j]? = some (key b) := by rw [List.getElem?_map, hj]; rfl
  have hlt : i < (l.map key).length := by
    rw [List.length_map]; exact (List.getElem?_eq_some_iff.mp hi).1
  have := (List.getElem?_inj hlt hn).mp (e1.trans (h ▸ e2.symm))
  subst this
  rw [hi] at hj
  exact Option.some.inj hj

theorem uriOf_eq (p : Plan) (hn : (p.uris.map (·.anchor)).Nodup) (u : Uri) (h : u ∈ p.uris) :
    p.uriOf u.anchor = some u.uri := by
  unfold Plan.uriOf
  cases hf : p.uris.find? fun v => v.anchor == u.anchor with
  | none =>
    rw [List.find?_eq_none] at hf
    have := hf u h
    simp at this
  | some v =>
    have h1 := List.find?_some hf
    simp only [beq_iff_eq] at h1
    rw [nodup_key Uri.anchor hn (List.mem_of_find?_eq_some hf) h h1]
    rfl

theorem uriOf_none (p : Plan) (a : Nat) (h : a ∉ p.uris.map (·.anchor)) : p.uriOf a = none := by
  unfold Plan.uriOf
  have : p.uris.find? (fun v => v.anchor == a) = none := by
    rw [List.find?_eq_none]
    intro v hv e
    simp only [beq_iff_eq] at e
    exact h (List.mem_map.mpr ⟨v, hv, e⟩)
  rw [this]
  rfl

theorem resolve_eq (p : Plan) (hn : (p.decls.map (·.anchor)).Nodup) (space r : Nat) (name : Str)
    (h : Decl.function space r name ∈ p.decls) :
    p.resolve r = some (p.uriOf space, name) := by
  unfold Plan.resolve
  refine findSome_unique _ _ _ _ h (by simp) ?_
  intro x hx y hy
  cases x with
  | other => simp at hy
  | function s' a' n' =>
    simp only at hy
    by_cases ha : a' = r
    · have := nodup_key Decl.anchor hn h hx (by simp [Decl.anchor, ha])
      injection this with e1 e2 e3
      subst e1; subst e3
      simpa [ha, eq_comm] using hy
    · rw [if_neg ha] at hy; cases hy

/-- The number a space gets. -/
def newSpace (sorted : List Uri) (space : Nat) : Nat := (spaceMapping sorted space).getD space

theorem spaceMapping_mem (sorted : List Uri) (hn : (sorted.map (·.anchor)).Nodup) (i : Nat) (u : Uri)
    (h : sorted[i]? = some u) : spaceMapping sorted u.anchor = some (i + 1) :=
  (lookupLast_zipIdx Uri.anchor 1 sorted hn).1 i u h

theorem spaceMapping_none (sorted : List Uri) (hn : (sorted.map (·.anchor)).Nodup) (a : Nat)
    (h : a ∉ sorted.map (·.anchor)) : spaceMapping sorted a = none :=
  (lookupLast_zipIdx Uri.anchor 1 sorted hn).2 a h

theorem functionMapping_mem (sorted : List Decl) (hn : (sorted.map (·.anchor)).Nodup) (i : Nat)
    (d : Decl) (h : sorted[i]? = some d) : functionMapping sorted d.anchor = some i :=
  (lookupLast_zipIdx Decl.anchor 0 sorted hn).1 i d h

/-- The plan after normalisation, when all goes well. -/
theorem normalize_ok (s : Sorters) (hs : s.Correct) (p : Plan) (hv : p.Valid) (hc : p.Covered) :
    normalize s p = .ok
      { uris := (s.uris p.uris).zipIdx.map fun e => ⟨e.2 + 1, e.1.uri⟩
        decls := (s.decls (p.decls.map (renumberSpace (spaceMapping (s.uris p.uris))))).zipIdx.map
          fun e => e.1.setAnchor e.2
        relations := p.relations.map (Msg.mapRefs fun r =>
          (functionMapping (s.decls (p.decls.map (renumberSpace (spaceMapping (s.uris p.uris))))) r).getD r) } := by
  unfold normalize normalizeFunctions normalizeSpaces
  dsimp only
  generalize hD : s.decls (p.decls.map (renumberSpace (spaceMapping (s.uris p.uris)))) = D
  have hperm : D.Perm (p.decls.map (renumberSpace (spaceMapping (s.uris p.uris)))) := by
    rw [← hD]; exact (hs.decls _).1
  have hanch : (p.decls.map (renumberSpace (spaceMapping (s.uris p.uris)))).map (·.anchor) =
      p.decls.map (·.anchor) := by
    rw [List.map_map]
    apply List.map_congr_left
    intro d _
    cases d <;> rfl
  have hn : (D.map (·.anchor)).Nodup :=
    (hperm.map _).symm.nodup (by rw [hanch]; exact hv.anchors)
  have hmap : ∀ r ∈ p.refs, functionMapping D r = some ((functionMapping D r).getD r) := by
    intro r hr
    have h1 := hv.references r hr
    rw [← hanch] at h1
    have h2 : r ∈ D.map (·.anchor) := (hperm.map Decl.anchor).symm.subset h1
    obtain ⟨d, hd, rfl⟩ := List.mem_map.mp h2
    obtain ⟨i, hi⟩ := idx_of_mem hd
    rw [functionMapping_mem D hn i d hi]
    rfl
  have : Outcome.mapM (norm (functionMapping D)) p.relations =
      .ok (p.relations.map (Msg.mapRefs fun r => (functionMapping D r).getD r)) := by
    have key : ∀ l : List Msg, (∀ m ∈ l, m.valid = true) → (∀ m ∈ l, m.missedRefs = []) →
        (∀ m ∈ l, ∀ r ∈ m.refs, r ∈ p.refs) → Outcome.mapM (norm (functionMapping D)) l =
          .ok (l.map (Msg.mapRefs fun r => (functionMapping D r).getD r)) := by
      intro l
      induction l with
      | nil => intro _ _ _; rfl
      | cons m ms ih =>
        intro a b c
        rw [Outcome.mapM_cons, ih (fun x hx => a x (by simp [hx])) (fun x hx => b x (by simp [hx]))
          (fun x hx => c x (by simp [hx])),
          norm_eq _ _ m (a m (by simp)) (b m (by simp)) fun r hr => hmap r (c m (by simp) r hr)]
        rfl
    refine key p.relations hv.messages hc ?_
    intro m hm r hr
    exact List.mem_flatten.mpr ⟨m.refs, List.mem_map.mpr ⟨m, hm, rfl⟩, hr⟩
  rw [this]
  rfl

/-- **C31** (`_partial`: the plan is valid, declares functions only, and has no reference in a
forgotten place).  The plan changes in its numbering only: the relations are the old ones with
their references renamed, and every reference still means the same function. -/
theorem normalize_meaning_partial (s : Sorters) (hs : s.Correct) (p : Plan) (hv : p.Valid)
    (hc : p.Covered) :
    ∃ p' f, normalize s p = .ok p' ∧ p'.relations = p.relations.map (Msg.mapRefs f) ∧
      (∀ r ∈ p.refs, p'.resolve (f r) = p.resolve r) ∧
      (p'.uris.map (·.uri)).Perm (p.uris.map (·.uri)) ∧
      (p'.decls.map (·.key.2.2)).Perm (p.decls.map (·.key.2.2)) := by
  refine ⟨_, _, normalize_ok s hs p hv hc, rfl, ?_, ?_, ?_⟩
  · generalize hU : s.uris p.uris = U
    have hUp : U.Perm p.uris := by rw [← hU]; exact (hs.uris _).1
    have hUn : (U.map (·.anchor)).Nodup := (hUp.map _).symm.nodup hv.spaces
    generalize hD : s.decls (p.decls.map (renumberSpace (spaceMapping U))) = D
    have hperm : D.Perm (p.decls.map (renumberSpace (spaceMapping U))) := by
      rw [← hD]; exact (hs.decls _).1
    have hanch : (p.decls.map (renumberSpace (spaceMapping U))).map (·.anchor) =
        p.decls.map (·.anchor) := by
      rw [List.map_map]
      apply List.map_congr_left
      intro d _
      cases d <;> rfl
    have hn : (D.map (·.anchor)).Nodup :=
      (hperm.map _).symm.nodup (by rw [hanch]; exact hv.anchors)
    intro r hr
    obtain ⟨d, hd, hdr⟩ := List.mem_map.mp (hv.references r hr)
    cases d with
    | other => have := hv.functions _ hd; simp [Decl.isFunction] at this
    | function space a name =>
      simp only [Decl.anchor] at hdr
      subst hdr
      rw [resolve_eq p hv.anchors space a name hd]
      have hd' : Decl.function ((spaceMapping U space).getD space) a name ∈ D :=
        hperm.symm.subset (List.mem_map.mpr ⟨_, hd, rfl⟩)
      obtain ⟨i, hi⟩ := idx_of_mem hd'
      have hfm := functionMapping_mem D hn i _ hi
      simp only [Decl.anchor] at hfm
      rw [hfm]
      simp only [Option.getD_some]
      generalize hp' : (Plan.mk _ _ _) = p'
      have huris : p'.uris = U.zipIdx.map fun e => ⟨e.2 + 1, e.1.uri⟩ := by rw [← hp']
      have hdecls : p'.decls = D.zipIdx.map fun e => e.1.setAnchor e.2 := by rw [← hp']
      have hmem : Decl.function ((spaceMapping U space).getD space) i name ∈ p'.decls := by
        rw [hdecls, List.mem_map]
        exact ⟨(_, i), List.mem_zipIdx_iff_getElem?.mpr hi, rfl⟩
      have hn' : (p'.decls.map (·.anchor)).Nodup := by
        rw [hdecls]
        exact anchors_numbered D 0 _ _ (fun e => by cases e with | mk d i => cases d <;> rfl)
      have hun' : (p'.uris.map (·.anchor)).Nodup := by
        rw [huris]
        exact anchors_numbered U 1 _ _ (fun e => rfl)
      rw [resolve_eq p' hn' _ i name hmem]
      congr 2
      rcases hv.declared _ hd with ⟨h0, h1⟩ | h1
      · simp only [Decl.space] at h0
        subst h0
        rw [spaceMapping_none U hUn 0 (fun h => h1 ((hUp.map Uri.anchor).subset h))]
        rw [uriOf_none p 0 h1]
        refine uriOf_none p' 0 ?_
        rw [huris]
        simp
      · simp only [Decl.space] at h1
        obtain ⟨u, hu, rfl⟩ := List.mem_map.mp h1
        obtain ⟨j, hj⟩ := idx_of_mem (hUp.symm.subset hu)
        rw [spaceMapping_mem U hUn j u hj, uriOf_eq p hv.spaces u hu]
        simp only [Option.getD_some]
        have hu' : (⟨j + 1, u.uri⟩ : Uri) ∈ p'.uris := by
          rw [huris, List.mem_map]
          exact ⟨(u, j), List.mem_zipIdx_iff_getElem?.mpr hj, rfl⟩
        exact uriOf_eq p' hun' _ hu'
  · dsimp only
    rw [map_numbered (fun e => (⟨e.2 + 1, e.1.uri⟩ : Uri)) Uri.uri Uri.uri (fun e => rfl)]
    exact ((hs.uris _).1).map _
  · dsimp only
    rw [map_numbered (fun e : Decl × Nat => e.1.setAnchor e.2) (fun d => d.key.2.2)
      (fun d => d.key.2.2) (fun e => by cases e with | mk d i => cases d <;> rfl)]
    refine ((hs.decls _).1.map _).trans ?_
    rw [List.map_map]
    have : p.decls.map ((fun d : Decl => d.key.2.2) ∘ renumberSpace (spaceMapping (s.uris p.uris))) =
        p.decls.map (fun d => d.key.2.2) := by
      apply List.map_congr_left
      intro d _
      cases d <;> rfl
    rw [this]

/-! ## C32: canonical form -/

theorem rename_sorted {α : Type} (less : α → α → Bool) {κ : Type} (key : α → κ)
    (hkey : ∀ a b, less a b = false → less b a = false → key a = key b) (g : α → α)
    (hg : ∀ a b, less (g a) (g b) = less a b) (hgk : ∀ a, key (g a) = key a)
    (sort sort' : List α → List α) (h1 : IsSort less sort) (h2 : IsSort less sort')
    (l l' : List α) (hp : l'.Perm (l.map g)) (hn : (l.map key).Nodup) :
    sort' l' = (sort l).map g := by
  obtain ⟨p1, s1⟩ := h1 l
  obtain ⟨p2, s2⟩ := h2 l'
  have hperm : (sort' l').Perm ((sort l).map g) := (p2.trans hp).trans (p1.map g).symm
  refine sorted_unique less key hkey hperm s2 ?_ ?_
  · rw [List.pairwise_map]
    exact s1.imp fun h => by rw [hg]; exact h
  · have e : ((sort l).map g).map key = (sort l).map key := by
      rw [List.map_map]; exact List.map_congr_left fun a _ => hgk a
    refine (hperm.map key).symm.nodup ?_
    rw [e]
    exact (p1.map key).symm.nodup hn

theorem find_congr {α : Type} (f g : α → Bool) (l : List α) (h : ∀ a ∈ l, f a = g a) :
    l.find? f = l.find? g := by
  induction l with
  | nil => rfl
  | cons a l ih =>
    rw [List.find?_cons, List.find?_cons, h a (by simp), ih fun x hx => h x (by simp [hx])]

/-- Rename the number of a function. -/
def Decl.renameAnchor (φ : Nat → Nat) : Decl → Decl
  | .function s a n => .function s (φ a) n
  | .other d => .other d

theorem newSpace_inj (p : Plan) (hv : p.Valid) (U : List Uri) (hUp : U.Perm p.uris) (d1 d2 : Decl)
    (h1 : d1 ∈ p.decls) (h2 : d2 ∈ p.decls) (h : newSpace U d1.space = newSpace U d2.space) :
    d1.space = d2.space := by
  have hUn : (U.map (·.anchor)).Nodup := (hUp.map _).symm.nodup hv.spaces
  have key : ∀ d ∈ p.decls, (d.space = 0 ∧ newSpace U d.space = 0) ∨
      ∃ (i : Nat) (u : Uri), U[i]? = some u ∧ d.space = u.anchor ∧ newSpace U d.space = i + 1 := by
    intro d hd
    rcases hv.declared d hd with ⟨h0, h1⟩ | h1
    · left
      refine ⟨h0, ?_⟩
      unfold newSpace
      rw [h0, spaceMapping_none U hUn 0 (fun h => h1 ((hUp.map Uri.anchor).subset h))]
      rfl
    · right
      obtain ⟨u, hu, hua⟩ := List.mem_map.mp h1
      obtain ⟨j, hj⟩ := idx_of_mem (hUp.symm.subset hu)
      refine ⟨j, u, hj, hua.symm, ?_⟩
      unfold newSpace
      rw [← hua, spaceMapping_mem U hUn j u hj]
      rfl
  rcases key d1 h1 with ⟨a1, b1⟩ | ⟨i, u, a1, b1, c1⟩ <;>
    rcases key d2 h2 with ⟨a2, b2⟩ | ⟨j, v, a2, b2, c2⟩
  · omega
  · omega
  · omega
  · have : i = j := by omega
    subst this
    rw [a1] at a2
    injection a2 with e
    rw [b1, b2, e]

theorem keys_nodup (p : Plan) (hv : p.Valid) (hd : p.Distinct) (U : List Uri) (hUp : U.Perm p.uris) :
    ((p.decls.map (renumberSpace (spaceMapping U))).map Decl.key).Nodup := by
  have hf := hd.functions
  unfold List.Nodup at *
  rw [List.map_map, List.pairwise_map]
  rw [List.pairwise_map] at hf
  refine List.Pairwise.imp_of_mem ?_ hf
  intro d1 d2 h1 h2 hne e
  have f1 := hv.functions d1 h1
  have f2 := hv.functions d2 h2
  cases d1 with
  | other => simp [Decl.isFunction] at f1
  | function s1 a1 n1 =>
    cases d2 with
    | other => simp [Decl.isFunction] at f2
    | function s2 a2 n2 =>
      simp only [Function.comp_apply, renumberSpace, Decl.key, Prod.mk.injEq, true_and] at e
      have := newSpace_inj p hv U hUp _ _ h1 h2 e.1
      simp only [Decl.space] at this
      exact hne (by simp [Decl.space, Decl.key, this, e.2])

/-- C30 for valid plans without duplicates. -/
theorem normalize_idempotent_valid_partial (s s' : Sorters) (hs : s.Correct) (hs' : s'.Correct)
    (p p' : Plan) (hv : p.Valid) (hd : p.Distinct) (h : normalize s p = .ok p') :
    normalize s' p' = .ok p' :=
  normalize_idempotent_partial s s' hs hs' p p' hv.functions hd.uris
    (keys_nodup p hv hd _ (hs.uris _).1) h

/-- **C32** (`_partial`: valid plans without duplicates, without forgotten references).  Two
plans that differ in the order and in the numbers of their declarations have the same normal
form, whatever implementations of `std::sort` are used. -/
theorem normalize_canonical_partial (s s' : Sorters) (hs : s.Correct) (hs' : s'.Correct)
    (p q : Plan) (α φ : Nat → Nat) (hα : ∀ a b, α a = α b → a = b) (hv : p.Valid) (hd : p.Distinct) (hc : p.Covered)
    (hq : q.Valid) (hr : q.Reordered (p.rename α φ)) : normalize s p = normalize s' q := by
  have hcq : q.Covered := by
    intro m hm
    rw [hr.relations] at hm
    simp only [Plan.rename, List.mem_map] at hm
    obtain ⟨m0, hm0, rfl⟩ := hm
    rw [missedRefs_mapRefs, hc m0 hm0]
    rfl
  rw [normalize_ok s hs p hv hc, normalize_ok s' hs' q hq hcq]
  -- spaces
  have hUq : s'.uris q.uris = (s.uris p.uris).map fun u => ⟨α u.anchor, u.uri⟩ :=
    rename_sorted uriLess Uri.uri uri_equiv (fun u => ⟨α u.anchor, u.uri⟩) (fun a b => rfl)
      (fun a => rfl) _ _ hs.uris hs'.uris _ _ hr.uris hd.uris
  generalize hU : s.uris p.uris = U at hUq
  have hUp : U.Perm p.uris := by rw [← hU]; exact (hs.uris _).1
  have hUn : (U.map (·.anchor)).Nodup := (hUp.map _).symm.nodup hv.spaces
  have hQn : ((U.map fun u => (⟨α u.anchor, u.uri⟩ : Uri)).map (·.anchor)).Nodup := by
    rw [← hUq]
    exact ((hs'.uris q.uris).1.map _).symm.nodup hq.spaces
  have e1 : ((s'.uris q.uris).zipIdx.map fun e => (⟨e.2 + 1, e.1.uri⟩ : Uri)) =
      U.zipIdx.map fun e => ⟨e.2 + 1, e.1.uri⟩ := by
    rw [hUq]
    apply List.ext_getElem?
    intro i
    simp only [List.getElem?_map, List.getElem?_zipIdx, Option.map_map]
    cases U[i]? <;> rfl
  -- the new spaces agree
  have hspace : ∀ d ∈ p.decls, ∀ sp a n, d = .function sp a n →
      newSpace (s'.uris q.uris) (α sp) = newSpace U sp := by
    intro d hdm sp a n hdeq
    subst hdeq
    rcases hv.declared _ hdm with ⟨h0, h1⟩ | h1
    · simp only [Decl.space] at h0
      subst h0
      have hmem : Decl.function (α 0) (φ a) n ∈ q.decls := by
        refine hr.decls.symm.subset ?_
        exact List.mem_map.mpr ⟨_, hdm, rfl⟩
      unfold newSpace
      rw [spaceMapping_none U hUn 0 (fun h => h1 ((hUp.map Uri.anchor).subset h))]
      rcases hq.declared _ hmem with ⟨h0, h2⟩ | h2
      · simp only [Decl.space] at h0
        rw [h0, hUq]
        have : 0 ∉ (U.map fun u => (⟨α u.anchor, u.uri⟩ : Uri)).map (·.anchor) := by
          rw [← hUq]
          exact fun h => h2 (((hs'.uris q.uris).1.map Uri.anchor).subset h)
        rw [spaceMapping_none _ hQn 0 this]
      · exfalso
        obtain ⟨u, hu, hua⟩ := List.mem_map.mp h2
        have hu' := hr.uris.subset hu
        simp only [Plan.rename, List.mem_map] at hu'
        obtain ⟨v, hv', rfl⟩ := hu'
        exact h1 (List.mem_map.mpr ⟨v, hv', hα _ _ hua⟩)
    · simp only [Decl.space] at h1
      obtain ⟨u, hu, rfl⟩ := List.mem_map.mp h1
      obtain ⟨j, hj⟩ := idx_of_mem (hUp.symm.subset hu)
      unfold newSpace
      rw [spaceMapping_mem U hUn j u hj, hUq]
      have := spaceMapping_mem _ hQn j ⟨α u.anchor, u.uri⟩ (by rw [List.getElem?_map, hj]; rfl)
      rw [this]
      rfl
  -- functions
  have hDq : s'.decls (q.decls.map (renumberSpace (spaceMapping (s'.uris q.uris)))) =
      (s.decls (p.decls.map (renumberSpace (spaceMapping U)))).map (Decl.renameAnchor φ) := by
    refine rename_sorted declLess Decl.key decl_equiv (Decl.renameAnchor φ) ?_ ?_ _ _
      hs.decls hs'.decls _ _ ?_ ?_
    · intro a b; cases a <;> cases b <;> rfl
    · intro a; cases a <;> rfl
    · refine (hr.decls.map _).trans ?_
      simp only [Plan.rename, List.map_map]
      refine List.Perm.of_eq ?_
      apply List.map_congr_left
      intro d hdm
      cases d with
      | other => have := hv.functions _ hdm; simp [Decl.isFunction] at this
      | function sp a n =>
        have := hspace _ hdm sp a n rfl
        unfold newSpace at this
        simp only [Function.comp_apply, renumberSpace, Decl.renameAnchor, this]
    · exact keys_nodup p hv hd U hUp
  generalize hD : s.decls (p.decls.map (renumberSpace (spaceMapping U))) = D at hDq
  have hDp : D.Perm (p.decls.map (renumberSpace (spaceMapping U))) := by
    rw [← hD]; exact (hs.decls _).1
  have hanch : ∀ (l : List Decl) (m : Nat → Option Nat),
      (l.map (renumberSpace m)).map (·.anchor) = l.map (·.anchor) := by
    intro l m
    rw [List.map_map]
    apply List.map_congr_left
    intro d _
    cases d <;> rfl
  have hDn : (D.map (·.anchor)).Nodup :=
    (hDp.map _).symm.nodup (by rw [hanch]; exact hv.anchors)
  have hDqn : ((D.map (Decl.renameAnchor φ)).map (·.anchor)).Nodup := by
    rw [← hDq]
    exact ((hs'.decls _).1.map _).symm.nodup (by rw [hanch]; exact hq.anchors)
  have e2 : ((D.map (Decl.renameAnchor φ)).zipIdx.map fun e => e.1.setAnchor e.2) =
      D.zipIdx.map fun e => e.1.setAnchor e.2 := by
    apply List.ext_getElem?
    intro i
    simp only [List.getElem?_map, List.getElem?_zipIdx, Option.map_map]
    cases D[i]? with
    | none => rfl
    | some d => cases d <;> rfl
  have e3 : q.relations.map (Msg.mapRefs fun r =>
        (functionMapping (D.map (Decl.renameAnchor φ)) r).getD r) =
      p.relations.map (Msg.mapRefs fun r => (functionMapping D r).getD r) := by
    rw [hr.relations]
    simp only [Plan.rename, List.map_map]
    apply List.map_congr_left
    intro m hm
    simp only [Function.comp_apply, mapRefs_comp]
    apply mapRefs_congr
    intro r hrm
    have hrp : r ∈ p.refs := List.mem_flatten.mpr ⟨m.refs, List.mem_map.mpr ⟨m, hm, rfl⟩, hrm⟩
    have h1 := hv.references r hrp
    rw [← hanch p.decls (spaceMapping U)] at h1
    have h2 : r ∈ D.map (·.anchor) := (hDp.map Decl.anchor).symm.subset h1
    obtain ⟨d, hdm, rfl⟩ := List.mem_map.mp h2
    obtain ⟨i, hi⟩ := idx_of_mem hdm
    have hfun : d.isFunction = true := by
      obtain ⟨d0, hd0, rfl⟩ := List.mem_map.mp (hDp.subset hdm)
      have := hv.functions d0 hd0
      cases d0 with
      | function => rfl
      | other => simp [Decl.isFunction] at this
    rw [functionMapping_mem D hDn i d hi]
    have h3 := functionMapping_mem _ hDqn i (d.renameAnchor φ) (by rw [List.getElem?_map, hi]; rfl)
    cases d with
    | other => simp [Decl.isFunction] at hfun
    | function sp a n =>
      simp only [Decl.renameAnchor, Decl.anchor] at h3 ⊢
      rw [h3]
      rfl
  rw [hDq, e1, e2, e3]

/-! ## What does not hold -/

/-- An implementation of `std::sort`: insertion. -/
def insertBy {α : Type} (less : α → α → Bool) (x : α) : List α → List α
  | [] => [x]
  | y :: ys => if less y x then y :: insertBy less x ys else x :: y :: ys

def sortBy {α : Type} (less : α → α → Bool) (l : List α) : List α := l.foldr (insertBy less) []

def sorters : Sorters := ⟨sortBy uriLess, sortBy declLess⟩

theorem insertBy_perm {α : Type} (less : α → α → Bool) (x : α) (l : List α) :
    (insertBy less x l).Perm (x :: l) := by
  induction l with
  | nil => exact List.Perm.refl _
  | cons y ys ih =>
    unfold insertBy
    by_cases h : less y x = true
    · rw [if_pos h]
      exact (ih.cons y).trans (List.Perm.swap x y ys)
    · rw [if_neg h]

theorem insertBy_sorted {α : Type} (less : α → α → Bool)
    (tr : ∀ a b c, less b a = false → less c b = false → less c a = false)
    (as : ∀ a b, less a b = true → less b a = false) (x : α) (l : List α)
    (h : l.Pairwise fun a b => less b a = false) :
    (insertBy less x l).Pairwise fun a b => less b a = false := by
  induction l with
  | nil => simp [insertBy]
  | cons y ys ih =>
    rw [List.pairwise_cons] at h
    unfold insertBy
    by_cases hy : less y x = true
    · rw [if_pos hy, List.pairwise_cons]
      refine ⟨?_, ih h.2⟩
      intro z hz
      rcases List.mem_cons.mp ((insertBy_perm less x ys).subset hz) with rfl | hz
      · exact as _ _ hy
      · exact h.1 z hz
    · rw [if_neg hy, List.pairwise_cons, List.pairwise_cons]
      have hyx : less y x = false := by simpa using hy
      refine ⟨?_, h⟩
      intro z hz
      rcases List.mem_cons.mp hz with rfl | hz
      · exact hyx
      · exact tr x y z hyx (h.1 z hz)

theorem sortBy_isSort {α : Type} (less : α → α → Bool)
    (tr : ∀ a b c, less b a = false → less c b = false → less c a = false)
    (as : ∀ a b, less a b = true → less b a = false) : IsSort less (sortBy less) := by
  intro l
  induction l with
  | nil => exact ⟨List.Perm.refl _, List.Pairwise.nil⟩
  | cons x l ih =>
    refine ⟨?_, insertBy_sorted less tr as x _ ih.2⟩
    exact (insertBy_perm less x _).trans (ih.1.cons x)

theorem str_trans (a b c : Str) (h1 : ¬ b < a) (h2 : ¬ c < b) : ¬ c < a :=
  List.not_lt.mpr (List.le_trans (List.not_lt.mp h1) (List.not_lt.mp h2))

theorem str_asymm (a b : Str) (h : a < b) : ¬ b < a := List.not_lt.mpr (List.le_of_lt h)

theorem declLess_false_iff (a b : Decl) : declLess a b = false ↔
    (a.key.1 = true ∧ b.key.1 = false) ∨ a.key.1 = b.key.1 ∧
      (b.key.2.1 < a.key.2.1 ∨ a.key.2.1 = b.key.2.1 ∧ ¬ a.key.2.2 < b.key.2.2) := by
  unfold declLess
  dsimp only
  generalize a.key = x
  generalize b.key = y
  obtain ⟨x1, x2, x3⟩ := x
  obtain ⟨y1, y2, y3⟩ := y
  dsimp only
  by_cases e : x2 = y2
  · subst e
    cases x1 <;> cases y1 <;> simp
  · have : (x2 != y2) = true := by simpa using e
    rw [this]
    cases x1 <;> cases y1 <;> simp [e] <;> omega

theorem sorters_correct : sorters.Correct := by
  constructor
  · apply sortBy_isSort
    · intro a b c h1 h2
      simp only [uriLess, decide_eq_false_iff_not] at *
      exact str_trans _ _ _ h1 h2
    · intro a b h
      simp only [uriLess, decide_eq_false_iff_not, decide_eq_true_eq] at *
      exact str_asymm _ _ h
  · apply sortBy_isSort
    · intro a b c h1 h2
      rw [declLess_false_iff] at *
      rcases h1 with ⟨p1, p2⟩ | ⟨p1, h1⟩ <;> rcases h2 with ⟨q1, q2⟩ | ⟨q1, h2⟩
      · rw [p1] at q2; cases q2
      · left; exact ⟨q1.trans p1, p2⟩
      · left; exact ⟨q1, p1 ▸ q2⟩
      · right
        refine ⟨q1.trans p1, ?_⟩
        rcases h1 with h1 | ⟨h1, t1⟩ <;> rcases h2 with h2 | ⟨h2, t2⟩
        · left; omega
        · left; omega
        · left; omega
        · right; exact ⟨h2.trans h1, str_trans _ _ _ t1 t2⟩
    · intro a b h
      cases hb : declLess b a with
      | false => rfl
      | true =>
        exfalso
        have n1 : ¬ declLess a b = false := by simp [h]
        have n2 : ¬ declLess b a = false := by simp [hb]
        rw [declLess_false_iff] at n1 n2
        cases hx : a.key.1 <;> cases hy : b.key.1 <;> simp only [hx, hy] at n1 n2
        · simp only [Bool.false_eq_true, false_and, true_and, false_or] at n1 n2
          by_cases e : a.key.2.1 = b.key.2.1
          · simp only [e, Nat.lt_irrefl, true_and, false_or, Classical.not_not] at n1 n2
            exact str_asymm _ _ n1 n2
          · omega
        · simp at n2
        · simp at n1
        · simp only [Bool.true_eq_false, and_false, true_and, false_or] at n1 n2
          by_cases e : a.key.2.1 = b.key.2.1
          · simp only [e, Nat.lt_irrefl, true_and, false_or, Classical.not_not] at n1 n2
            exact str_asymm _ _ n1 n2
          · omega

/-- A read with a filter `f(x)`, where `f` is the function with the number given. -/
def readWith (e : Msg) : Msg := .node .read 1 none (.cons .filter e .nil)

def callOf (r : Nat) (args : Kids) : Msg := .node .scalarFunction 0 (some r) args

def valueArg (m : Msg) : Msg := .node .argument 0 none (.cons .value m .nil)

/-- A valid plan with two functions and nested calls. -/
def samplePlan : Plan :=
  { uris := [⟨7, "b".toList⟩, ⟨3, "a".toList⟩]
    decls := [.function 7 10 "add".toList, .function 3 20 "sub".toList]
    relations := [readWith (callOf 10 (.cons .arguments (valueArg (callOf 20 .nil)) .nil))] }

/-- Non-vacuity of C30 - C32. -/
theorem samplePlan_ok : samplePlan.Valid ∧ samplePlan.Covered ∧ samplePlan.Distinct := by
  refine ⟨⟨?_, ?_, ?_, ?_, ?_, ?_⟩, ?_, ⟨?_, ?_⟩⟩ <;> first | decide | skip
  intro m hm
  simp only [samplePlan, List.mem_singleton] at hm
  subst hm
  decide

example : normalize sorters samplePlan = .ok
    { uris := [⟨1, "a".toList⟩, ⟨2, "b".toList⟩]
      decls := [.function 1 0 "sub".toList, .function 2 1 "add".toList]
      relations := [readWith (callOf 1 (.cons .arguments (valueArg (callOf 0 .nil)) .nil))] } := by
  decide

/-- A renamed and reordered copy of the sample plan. -/
example : (samplePlan.rename (· + 1) (· + 5)).Reordered (samplePlan.rename (· + 1) (· + 5)) :=
  ⟨List.Perm.refl _, List.Perm.refl _, rfl⟩

/-- **C30 is false if a type is declared**: the type declaration becomes a function without name,
which is sorted to the front in the second run. -/
theorem normalize_type_not_idempotent :
    let p : Plan := ⟨[⟨1, "u".toList⟩], [.function 1 0 "f".toList, .other 9],
      [readWith (callOf 0 .nil)]⟩
    ∃ p' p'', normalize sorters p = .ok p' ∧ normalize sorters p' = .ok p'' ∧ p' ≠ p'' := by
  refine ⟨_, _, rfl, rfl, ?_⟩
  decide

/-- **C31 is false if a type is declared**: a plan with a function numbered 0 and a type: after
normalisation the call refers to what was the type declaration. -/
theorem normalize_type_meaning :
    let p : Plan := ⟨[⟨1, "u".toList⟩], [.function 1 0 "f".toList, .other 9],
      [readWith (callOf 0 .nil)]⟩
    p.resolve 0 = some (some "u".toList, "f".toList) ∧
    ∃ p', normalize sorters p = .ok p' ∧ p'.relations = [readWith (callOf 1 .nil)] ∧
      p'.resolve 1 = some (none, []) := by
  refine ⟨by decide, _, rfl, ?_, ?_⟩ <;> decide

/-- **C31 is false for forgotten places**: a window function keeps its old number, which then
means another function. -/
theorem normalize_window_meaning :
    let p : Plan := ⟨[⟨1, "u".toList⟩], [.function 1 0 "g".toList, .function 1 1 "f".toList],
      [readWith (.node .windowFunction 0 (some 0) .nil)]⟩
    p.resolve 0 = some (some "u".toList, "g".toList) ∧
    ∃ p', normalize sorters p = .ok p' ∧
      p'.relations = [readWith (.node .windowFunction 0 (some 0) .nil)] ∧
      p'.resolve 0 = some (some "u".toList, "f".toList) := by
  refine ⟨by decide, _, rfl, ?_, ?_⟩ <;> decide

/-- The same for an argument of a measure. -/
theorem normalize_measure_argument :
    let m (outer inner : Nat) : Msg := .node .aggregate 0 none
      (.cons .input (.node .read 0 none .nil)
        (.cons .measures (.node .measure 0 (some outer)
          (.cons .arguments (valueArg (callOf inner .nil)) .nil)) .nil))
    let p : Plan := ⟨[⟨1, "u".toList⟩], [.function 1 0 "sum".toList, .function 1 1 "add".toList], [m 0 1]⟩
    p.resolve 1 = some (some "u".toList, "add".toList) ∧
    ∃ p', normalize sorters p = .ok p' ∧ p'.relations = [m 1 1] ∧
      p'.resolve 1 = some (some "u".toList, "sum".toList) := by
  refine ⟨by decide, _, rfl, ?_, ?_⟩ <;> decide

/-- **C32 is false for forgotten places**: two numberings of one plan with a window function
have different normal forms. -/
theorem normalize_window_not_canonical :
    let p (a b r : Nat) : Plan := ⟨[⟨1, "u".toList⟩], [.function 1 a "f".toList, .function 1 b "g".toList],
      [readWith (.node .windowFunction 0 (some r) .nil)]⟩
    (p 0 1 0).Reordered ((p 1 0 1).rename id (fun n => 1 - n)) ∧
    normalize sorters (p 0 1 0) ≠ normalize sorters (p 1 0 1) := by
  refine ⟨⟨List.Perm.refl _, List.Perm.refl _, rfl⟩, ?_⟩
  decide

/-- An absent input is created: "nothing else changes" is false for plans with missing parts. -/
theorem normalize_creates :
    norm (fun _ => none) (.node .filter 0 none .nil) =
      .ok (.node .filter 0 none (.cons .input (.node .relNotSet 0 none .nil) .nil)) := by
  decide

/-- References to undeclared functions are an exception. -/
theorem normalize_undeclared (s : Sorters) (hs : s.Correct) (r : Nat) (args : Kids) :
    normalize s ⟨[], [], [callOf r args]⟩ = .throw .outOfRange := by
  have : s.decls [] = [] := List.eq_nil_iff_forall_not_mem.mpr fun a ha => by
    have := (hs.decls []).1.subset ha
    cases this
  unfold normalize normalizeFunctions normalizeSpaces
  simp only [List.map_nil, this]
  rfl

end Verif.Norm
