import Verif.Model.Marks
import Verif.Spec.Marks
import Verif.Lemmas.TraverseLink

/-! # Lemmas on the marks of pipelines -/

namespace Verif.Trav

open Verif

theorem Within.trans {x r m : Msg} (h : Within x r) (h' : Within r m) : Within x m := by
  induction h' with
  | here => exact h
  | field h1 h2 _ ih => exact .field h1 h2 ih

theorem conforms_within {r m : Msg} (h : Within r m) : Conforms m → Conforms r := by
  induction h with
  | here => exact id
  | field h1 _ _ ih =>
    intro hc
    simp only [Conforms] at hc
    exact ih (conformsF_mem hc.2 _ h1).2

theorem within_shown {r m : Msg} (h : Within r m) (hk : r.kind = .rel) : r.loc ∈ shownIn m := by
  induction h with
  | here => exact shown_self hk
  | field h1 h2 _ ih => exact shown_mem h1 h2 ih

theorem shown_within : ∀ m : Msg, ∀ n ∈ shownIn m, ∃ r, Within r m ∧ r.kind = .rel ∧ r.loc = n := by
  refine Msg.induct ?_
  intro k loc fs ih n hn
  simp only [shownIn, shownF_eq, List.mem_append, List.mem_flatMap] at hn
  rcases hn with ⟨x, hx, hn⟩ | hn
  · by_cases hm : (k, x.1) ∈ missed
    · simp [hm] at hn
    · rw [if_neg hm] at hn
      obtain ⟨r, h1, h2, h3⟩ := ih x hx n hn
      exact ⟨r, .field hx hm h1, h2, h3⟩
  · by_cases hk : k = .rel
    · simp only [hk, if_true, List.mem_singleton] at hn
      exact ⟨_, .here, hk, hn.symm⟩
    · simp [hk] at hn

/-- In a row of lists without doubles an element is in one of them only. -/
theorem one_of {α : Type} {f : α → List Nat} {n : Nat} : ∀ {l : List α}, (l.flatMap f).Nodup →
    ∀ {x y : α}, x ∈ l → y ∈ l → n ∈ f x → n ∈ f y → x = y
  | [], _, _, _, hx, _, _, _ => by cases hx
  | z :: zs, h, x, y, hx, hy, h1, h2 => by
    simp only [List.flatMap_cons, List.nodup_append] at h
    obtain ⟨_, h4, h5⟩ := h
    rcases List.mem_cons.mp hx with hx' | hx' <;> rcases List.mem_cons.mp hy with hy' | hy'
    · rw [hx', hy']
    · subst hx'
      exact absurd rfl (h5 n h1 n (List.mem_flatMap.mpr ⟨y, hy', h2⟩))
    · subst hy'
      exact absurd rfl (h5 n h2 n (List.mem_flatMap.mpr ⟨x, hx', h1⟩))
    · exact one_of h4 hx' hy' h1 h2

theorem nodup_part {α : Type} {f : α → List Nat} : ∀ {l : List α}, (l.flatMap f).Nodup →
    ∀ {x : α}, x ∈ l → (f x).Nodup
  | [], _, _, hx => by cases hx
  | z :: zs, h, x, hx => by
    simp only [List.flatMap_cons, List.nodup_append] at h
    rcases List.mem_cons.mp hx with rfl | hx
    · exact h.1
    · exact nodup_part h.2.1 hx

/-- Relations are told apart by their addresses. -/
theorem within_unique : ∀ m : Msg, (shownIn m).Nodup → ∀ r r', Within r m → Within r' m →
    r.kind = .rel → r'.kind = .rel → r.loc = r'.loc → r = r' := by
  refine Msg.induct ?_
  intro k loc fs ih hn r r' h h' hk hk' he
  have hd := hn
  simp only [shownIn, shownF_eq, List.nodup_append] at hd
  obtain ⟨h1, _, h3⟩ := hd
  have below : ∀ {x : Label × Msg} {s : Msg}, x ∈ fs.toList → (k, x.1) ∉ missed → Within s x.2 →
      s.kind = .rel → s.loc ∈ (if (k, x.1) ∈ missed then [] else shownIn x.2) := by
    intro x s _ hm hw hs
    rw [if_neg hm]
    exact within_shown hw hs
  cases h with
  | here =>
    simp only [Msg.kind] at hk
    cases h' with
    | here => rfl
    | field a1 a2 a3 =>
      exact absurd he.symm (h3 _ (List.mem_flatMap.mpr ⟨_, a1, below a1 a2 a3 hk'⟩) _
        (by simp [hk, Msg.loc]))
  | field b1 b2 b3 =>
    cases h' with
    | here =>
      simp only [Msg.kind] at hk'
      exact absurd he (h3 _ (List.mem_flatMap.mpr ⟨_, b1, below b1 b2 b3 hk⟩) _
        (by simp [hk', Msg.loc]))
    | field a1 a2 a3 =>
      have hx := one_of h1 b1 a1 (below b1 b2 b3 hk) (he ▸ below a1 a2 a3 hk')
      subst hx
      have hp := nodup_part h1 b1
      rw [if_neg b2] at hp
      exact ih _ b1 hp r r' b3 a3 hk hk' he

theorem linksOf_onlyInput (r : Msg) {t : Option Nat} (h : Link.continuing t ∈ linksOf r.fields) :
    t = (onlyInput r).map Msg.loc := by
  unfold linksOf at h
  unfold onlyInput
  split at h <;> rename_i hlm <;> simp_all

theorem onlyInput_link {r x : Msg} (h : onlyInput r = some x) :
    Link.continuing (some x.loc) ∈ linksOf r.fields := by
  unfold onlyInput at h
  unfold linksOf
  split at h <;> rename_i hlm <;> simp_all

theorem links_from : ∀ m : Msg, ∀ sc a t, (a, Link.continuing t) ∈ linksIn sc m →
    ∃ r, Within r m ∧ r.kind = .rel ∧ r.loc = a ∧ Link.continuing t ∈ linksOf r.fields := by
  refine Msg.induct ?_
  intro k loc fs ih sc a t h
  simp only [linksIn, linksF_eq, List.mem_append, List.mem_flatMap] at h
  rcases h with (h | ⟨x, hx, h⟩) | h
  · by_cases hk : k = .rel
    · simp only [hk, if_true, List.mem_map, Prod.mk.injEq] at h
      obtain ⟨lk, h1, rfl, rfl⟩ := h
      exact ⟨_, .here, hk, rfl, h1⟩
    · simp [hk] at h
  · by_cases hm : (k, x.1) ∈ missed
    · simp [hm] at h
    · rw [if_neg hm] at h
      obtain ⟨r, h1, h2, h3⟩ := ih x hx _ a t h
      exact ⟨r, .field hx hm h1, h2, h3⟩
  · simp at h

theorem shownF_part {k : Kind} {fs : Fields} {y : Label × Msg} (hy : y ∈ fs.toList)
    (hm : (k, y.1) ∉ missed) : (shownIn y.2).length ≤ (shownF k fs).length := by
  rw [shownF_eq]
  obtain ⟨p, q, hpq⟩ := List.append_of_mem hy
  rw [hpq]
  simp only [List.flatMap_append, List.flatMap_cons, if_neg hm, List.length_append]
  omega

theorem within_length {r m : Msg} (h : Within r m) : (shownIn r).length ≤ (shownIn m).length := by
  induction h with
  | here => exact Nat.le_refl _
  | field h1 h2 _ ih =>
    have := shownF_part h1 h2
    simp only [shownIn, List.length_append] at this ⊢
    omega

/-- The only input of a relation is inside it. -/
theorem onlyInput_within {r x : Msg} (hc : Conforms r) (hk : r.kind = .rel)
    (h : onlyInput r = some x) :
    Within x r ∧ x.kind = .rel ∧ (shownIn x).length < (shownIn r).length := by
  obtain ⟨k, loc, fs⟩ := r
  simp only [Msg.kind] at hk
  subst hk
  have get : ∃ l m, fs.caseOf relCases = some (l, m) ∧ m.fields.get .input = some x := by
    unfold onlyInput at h
    simp only [Msg.fields] at h
    split at h <;> first | exact ⟨_, _, by assumption, h⟩ | cases h
  obtain ⟨l, m, hlm, hg⟩ := get
  rw [caseOf_eq] at hlm
  have hx := List.mem_of_find?_eq_some hlm
  simp only [Conforms] at hc
  obtain ⟨a1, a2⟩ := conformsF_mem hc.2 _ hx
  obtain ⟨k, loc', fs'⟩ := m
  simp only [Conforms] at a2
  have hy := get_mem hg
  obtain ⟨b1, b2⟩ := conformsF_mem a2.2 _ hy
  obtain ⟨c1, c2⟩ := input_kinds _ a1 _ b1 (by simp)
  refine ⟨.field hx (rel_missed l) (.field hy c2 .here), c1, ?_⟩
  have p1 := shownF_part hx (rel_missed l)
  have p2 : (shownIn x).length ≤ (shownF k fs').length := shownF_part hy c2
  simp only [shownIn, List.length_append, if_true, List.length_singleton] at p1 p2 ⊢
  omega

/-- The links of a plan lead from a relation to its only input. -/
theorem continuing_eq {m : Msg} {l : List (Nat × Link)} (hl : l.Perm (linksIn none m))
    (hi : Inputs l m) (hn : (shownIn m).Nodup) {r : Msg} (hr : Within r m) (hk : r.kind = .rel) :
    continuing l r.loc = (onlyInput r).map Msg.loc := by
  have all : ∀ t ∈ l.filterMap (written r.loc), t = (onlyInput r).map Msg.loc := by
    intro t ht
    obtain ⟨⟨c, lk⟩, h1, h2⟩ := List.mem_filterMap.mp ht
    cases lk with
    | continuing t' =>
      simp only [written] at h2
      split at h2
      · next hc =>
        subst hc
        cases h2
        obtain ⟨r', g1, g2, g3, g4⟩ := links_from m none _ _ (hl.mem_iff.mp h1)
        rw [← within_unique m hn r' r g1 hr g2 hk g3]
        exact linksOf_onlyInput r' g4
      · cases h2
    | new _ => simp [written] at h2
    | sub _ => simp [written] at h2
  unfold continuing
  cases hL : (l.filterMap (written r.loc)).getLast? with
  | some t =>
    rw [all t (List.mem_of_getLast? hL)]
    rfl
  | none =>
    cases ho : onlyInput r with
    | none => rfl
    | some x =>
      obtain ⟨a, b, hab⟩ := hi r hr hk
      have hmem : (r.loc, Link.continuing (some x.loc)) ∈ l := by
        rw [hab]
        simp only [List.mem_append, List.mem_map, Prod.mk.injEq, true_and, exists_eq_right]
        exact .inl (.inr (onlyInput_link ho))
      have : some x.loc ∈ l.filterMap (written r.loc) :=
        List.mem_filterMap.mpr ⟨_, hmem, by simp [written]⟩
      rw [List.getLast?_eq_none_iff.mp hL] at this
      cases this

theorem marked_line {m : Msg} (hc : Conforms m) {l : List (Nat × Link)}
    (hl : l.Perm (linksIn none m)) (hi : Inputs l m) (hn : (shownIn m).Nodup) :
    ∀ (s : Nat) (r : Msg), (shownIn r).length ≤ s → Within r m → r.kind = .rel →
      ∃ xs, Line r xs ∧ marked l s r.loc = some xs
  | 0, r, hs, _, hk => by
    have := List.length_pos_of_mem (shown_self hk)
    omega
  | s + 1, r, hs, hr, hk => by
    simp only [marked, continuing_eq hl hi hn hr hk]
    cases ho : onlyInput r with
    | none => exact ⟨_, .last ho, rfl⟩
    | some x =>
      obtain ⟨h1, h2, h3⟩ := onlyInput_within (conforms_within hr hc) hk ho
      obtain ⟨xs, h4, h5⟩ := marked_line hc hl hi hn s x (by omega) (h1.trans hr) h2
      exact ⟨_, .more ho h4, by simp [h5]⟩

theorem marked_self {l : List (Nat × Link)} {f a : Nat} {xs : List Nat}
    (h : marked l f a = some xs) : a ∈ xs := by
  cases f with
  | zero => cases h
  | succ f =>
    simp only [marked] at h
    cases hn : continuing l a with
    | none => rw [hn] at h; cases h; simp
    | some b =>
      rw [hn] at h
      simp only [Option.map_eq_some_iff] at h
      obtain ⟨ys, _, rfl⟩ := h
      simp

theorem note_of {m : Msg} {n : Noted} {l : Linked} (hl : noteAndLink m = .ok (n, l)) :
    note m = .ok n := by
  unfold noteAndLink at hl
  obtain ⟨n', g1, g2⟩ := bind_ok hl
  cases hv : visit second m none ⟨n'.relations, []⟩ with
  | ok t => rw [hv] at g2; cases g2; exact g1
  | throw e => rw [hv] at g2; cases g2
  | ub => rw [hv] at g2; cases g2

theorem sub_shown : ∀ m : Msg, Conforms m → ∀ sc c q, (c, Link.sub q) ∈ linksIn sc m →
    q ∈ shownIn m := by
  refine Msg.induct ?_
  intro k loc fs ih hc sc c q h
  have hc' := hc
  simp only [Conforms] at hc'
  simp only [linksIn, linksF_eq, List.mem_append, List.mem_flatMap] at h
  rcases h with (h | ⟨x, hx, h⟩) | h
  · by_cases hk : k = .rel
    · simp only [hk, if_true, List.mem_map, Prod.mk.injEq] at h
      obtain ⟨lk, h1, _, rfl⟩ := h
      unfold linksOf at h1
      split at h1 <;> simp at h1
    · simp [hk] at h
  · by_cases hm : (k, x.1) ∈ missed
    · simp [hm] at h
    · rw [if_neg hm] at h
      exact shown_mem hx hm (ih x hx (conformsF_mem hc'.2 _ hx).2 _ c q h)
  · simp only [List.mem_map, Prod.mk.injEq, Link.sub.injEq] at h
    obtain ⟨p, hp, _, rfl⟩ := h
    unfold parentOf at hp
    split at hp
    · next hk =>
      split at hp
      · next q' c' hq =>
        simp only [List.mem_map, Option.mem_toList] at hp
        obtain ⟨r, hr, rfl⟩ := hp
        exact relationOf_shown hc hk hq hr
      · cases hp
    · cases hp

end Verif.Trav
