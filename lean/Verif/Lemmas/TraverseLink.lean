import Verif.Lemmas.TraverseWay

/-! # The second visitor after the first -/

namespace Verif.Trav

open Verif

/-- Where the first visitor gets through, the second one does with the symbols of the first. -/
def Follows (a : Act Noted) (b : Act Linked) : Prop :=
  ∀ c s s', a c s = .ok s' → (∀ n ∈ s.relations, n ∈ s'.relations) ∧
    ∃ p, s'.parents = s.parents ++ p ∧ ∀ t : Linked, (∀ n ∈ s'.relations, n ∈ t.relations) →
      ∃ t', b c t = .ok t' ∧ t'.relations = t.relations ∧
        subqueryLinks t'.links = subqueryLinks t.links ++ p

theorem follows_skip {c : Option Msg} {s s' : Noted} {b : Act Linked} (h : Outcome.ok s = .ok s')
    (hb : ∀ t, b c t = .ok t) : (∀ n ∈ s.relations, n ∈ s'.relations) ∧
    ∃ p, s'.parents = s.parents ++ p ∧ ∀ t : Linked, (∀ n ∈ s'.relations, n ∈ t.relations) →
      ∃ t', b c t = .ok t' ∧ t'.relations = t.relations ∧
        subqueryLinks t'.links = subqueryLinks t.links ++ p := by
  cases h
  exact ⟨fun _ h => h, [], by simp, fun t _ => ⟨t, hb t, rfl, by simp⟩⟩

theorem subqueryLinks_append (a b : List (Nat × Link)) :
    subqueryLinks (a ++ b) = subqueryLinks a ++ subqueryLinks b := by
  simp [subqueryLinks]

theorem subqueryLinks_inputs (s : Linked) (loc : Nat) (fs : Fields) :
    subqueryLinks ((inputLinks s fs).map fun l => (loc, l)) = [] := by
  unfold inputLinks
  split <;> simp [subqueryLinks, asParent]

theorem follows_bind {a b : Act Noted} {a' b' : Act Linked} (h1 : Follows a a') (h2 : Follows b b') :
    Follows (fun c s => (a c s).bind fun s => b c s) (fun c s => (a' c s).bind fun s => b' c s) := by
  intro c s s' h
  obtain ⟨u, g1, g2⟩ := bind_ok h
  obtain ⟨a1, p, hp, a2⟩ := h1 c s u g1
  obtain ⟨b1, q, hq, b2⟩ := h2 c u s' g2
  refine ⟨fun n hn => b1 n (a1 n hn), p ++ q, by rw [hq, hp, List.append_assoc], fun t ht => ?_⟩
  obtain ⟨t1, e1, e2, e3⟩ := a2 t fun n hn => ht n (b1 n hn)
  obtain ⟨t2, e4, e5, e6⟩ := b2 t1 (by rw [e2]; exact ht)
  exact ⟨t2, by simp only [e1, Outcome.bind, e4], by rw [e5, e2], by rw [e6, e3, List.append_assoc]⟩

theorem follows_inOrder : ∀ (l : List (Act Noted × Act Linked)), (∀ x ∈ l, Follows x.1 x.2) →
    Follows (inOrder (l.map (·.1))) (inOrder (l.map (·.2)))
  | [], _ => by
    intro c s s' h
    exact follows_skip h fun _ => rfl
  | x :: l, hl =>
    follows_bind (hl x (by simp)) (follows_inOrder l fun y hy => hl y (by simp [hy]))

theorem follows_step (l : List (Label × Msg)) (h : ∀ x ∈ l, Follows (visit first x.2) (visit second x.2))
    (t : Step) : Follows (runStep (l.map fun x => (x.1, visit first x.2)) t)
      (runStep (l.map fun x => (x.1, visit second x.2)) t) := by
  have hn : ∀ f, Follows (inOrder (named f (l.map fun x => (x.1, visit first x.2))))
      (inOrder (named f (l.map fun x => (x.1, visit second x.2)))) := by
    intro f
    rw [named_map, named_map]
    have := follows_inOrder ((l.filter fun x => decide (x.1 = f)).map fun x =>
      (visit first x.2, visit second x.2)) (by
        intro x hx
        obtain ⟨y, hy, rfl⟩ := List.mem_map.mp hx
        exact h y (List.mem_filter.mp hy).1)
    simpa only [List.map_map, Function.comp_def] using this
  cases t with
  | each f => exact hn f
  | must f =>
    intro c s s' hs
    simp only [runStep] at hs ⊢
    have e : (named f (l.map fun x => (x.1, visit second x.2))).isEmpty =
        (named f (l.map fun x => (x.1, visit first x.2))).isEmpty := by
      rw [named_map, named_map]
      simp
    rw [e]
    split at hs
    · cases hs
    · next he =>
      simp only [he, Bool.false_eq_true, if_false]
      exact hn f c s s' hs
  | pick v q =>
    intro c s s' hs
    have e : ∀ {σ : Type} (g : Hooks σ), (l.map fun x => (x.1, visit g x.2)).find?
        (fun x => decide (x.1 ∈ v ∨ x.1 ∈ q)) =
        (l.find? fun x => decide (x.1 ∈ v ∨ x.1 ∈ q)).map fun x => (x.1, visit g x.2) := by
      intro σ g
      rw [List.find?_map]
      rfl
    simp only [runStep, e] at hs ⊢
    cases hf : l.find? (fun x => decide (x.1 ∈ v ∨ x.1 ∈ q)) with
    | none => rw [hf] at hs; cases hs
    | some x =>
      rw [hf] at hs
      simp only [Option.map_some] at hs ⊢
      split at hs
      · next hv =>
        simp only [hv, if_true]
        exact h x (List.mem_of_find?_eq_some hf) c s s' hs
      · next hv =>
        simp only [hv, if_false]
        exact follows_skip (c := c) (b := fun _ t => .ok t) hs fun _ => rfl

theorem follows_steps (l : List (Label × Msg)) (h : ∀ x ∈ l, Follows (visit first x.2) (visit second x.2)) :
    ∀ ts : List Step, Follows (runSteps (l.map fun x => (x.1, visit first x.2)) ts)
      (runSteps (l.map fun x => (x.1, visit second x.2)) ts)
  | [] => by
    intro c s s' hs
    exact follows_skip hs fun _ => rfl
  | t :: ts => follows_bind (follows_step l h t) (follows_steps l h ts)

theorem follows_after (m : Msg) : Follows (afterFields first m) (afterFields second m) := by
  intro c s s' h
  by_cases hk : m.kind = .expression
  · unfold afterFields at h ⊢
    simp only [if_pos hk] at h ⊢
    cases hq : m.fields.get .subquery with
    | none =>
      rw [hq] at h
      exact follows_skip (c := c) (b := fun _ t => .ok t) h fun _ => rfl
    | some q =>
      rw [hq] at h
      obtain ⟨c', q', rfl, e1, rfl, e2⟩ := first_subquery h
      refine ⟨fun _ h => h, [(q'.loc, c'.loc)], rfl, fun t ht => ?_⟩
      exact ⟨⟨t.relations, t.links ++ [(c'.loc, .sub q'.loc)]⟩,
        by simp only [second, e1, look, ht _ e2, if_true], rfl,
        by rw [subqueryLinks_append]; rfl⟩
  · unfold afterFields at h ⊢
    simp only [if_neg hk] at h ⊢
    exact follows_skip (c := c) (b := fun _ t => .ok t) h fun _ => rfl

theorem follows_all : ∀ m, Follows (visit first m) (visit second m) := by
  refine Msg.induct ?_
  intro k loc fs ih
  by_cases hk : k = .rel
  · intro c s s' h
    rw [first_rel hk] at h
    obtain ⟨u, h1, h2⟩ := bind_ok h
    cases h2
    rw [acts_eq] at h1
    obtain ⟨a1, p, hp, a2⟩ := follows_steps fs.toList ih (steps k) _ s u h1
    refine ⟨fun n hn => by simp [a1 n hn], p, hp, fun t ht => ?_⟩
    obtain ⟨t1, e1, e2, e3⟩ := a2 { t with links := t.links ++ (inputLinks t fs).map fun l => (loc, l) }
      fun n hn => ht n (by simp [hn])
    refine ⟨t1, ?_, e2, by
      rw [e3, subqueryLinks_append, subqueryLinks_inputs, List.append_nil]⟩
    rw [visit, if_pos hk, acts_eq]
    have hin : loc ∈ t.relations := ht loc (by simp)
    have : second.enter (.node k loc fs) t =
        .ok { t with links := t.links ++ (inputLinks t fs).map fun l => (loc, l) } := by
      simp only [second, Msg.loc, Msg.fields, hin, if_true]
    rw [this]
    simp only [Outcome.bind, e1]
    rfl
  · have := follows_bind (follows_steps fs.toList ih (steps k)) (follows_after (.node k loc fs))
    intro c s s' h
    rw [visit, if_neg hk, acts_eq] at h
    obtain ⟨a1, p, hp, a2⟩ := this c s s' h
    refine ⟨a1, p, hp, fun t ht => ?_⟩
    rw [visit, if_neg hk, acts_eq]
    exact a2 t ht

/-! ## The links -/

theorem input_kinds : ∀ p ∈ allowed .rel, ∀ y ∈ allowed p.2,
    y.1 ∈ [Label.input, .left, .right, .inputs] → y.2 = .rel ∧ (p.2, y.1) ∉ missed := by decide

theorem rel_missed : ∀ l : Label, (Kind.rel, l) ∉ missed := by
  intro l
  cases l <;> decide

theorem look_some {s : Linked} {m : Msg} (h : m.loc ∈ s.relations) : look s (some m) = some m.loc := by
  simp [look, h]

/-- The inputs of a relation have symbols. -/
theorem inputLinks_eq {loc : Nat} {fs : Fields} (h : Conforms (.node .rel loc fs)) {s : Linked}
    (hs : ∀ n ∈ shownIn (.node .rel loc fs), n ∈ s.relations) : inputLinks s fs = linksOf fs := by
  simp only [Conforms] at h
  have key : ∀ l m, fs.caseOf relCases = some (l, m) → ∀ y ∈ m.fields.toList,
      y.1 ∈ [Label.input, .left, .right, .inputs] → y.2.loc ∈ s.relations := by
    intro l m hlm y hy hyl
    rw [caseOf_eq] at hlm
    have hx := List.mem_of_find?_eq_some hlm
    obtain ⟨a1, a2⟩ := conformsF_mem h.2 _ hx
    obtain ⟨k, loc', fs'⟩ := m
    simp only [Conforms] at a2
    obtain ⟨b1, b2⟩ := conformsF_mem a2.2 _ hy
    obtain ⟨c1, c2⟩ := input_kinds _ a1 _ b1 hyl
    exact hs _ (shown_mem hx (rel_missed l) (shown_mem hy c2 (shown_self c1)))
  have get : ∀ l m, fs.caseOf relCases = some (l, m) → ∀ f ∈ [Label.input, .left, .right, .inputs],
      look s (m.fields.get f) = (m.fields.get f).map Msg.loc := by
    intro l m hlm f hf
    cases hg : m.fields.get f with
    | none => rfl
    | some r => exact look_some (key l m hlm _ (get_mem hg) hf)
  have all : ∀ l m, fs.caseOf relCases = some (l, m) →
      ((m.fields.all .inputs).map fun r => Link.new (look s (some r))) =
        (m.fields.all .inputs).map fun r => Link.new (some r.loc) := by
    intro l m hlm
    apply List.map_congr_left
    intro r hr
    rw [all_eq] at hr
    obtain ⟨x, hx, rfl⟩ := List.mem_map.mp hr
    obtain ⟨h1, h2⟩ := List.mem_filter.mp hx
    simp only [decide_eq_true_eq] at h2
    rw [look_some (key l m hlm x h1 (by simp [h2]))]
  unfold inputLinks linksOf
  split <;> rename_i hlm <;> simp only [hlm] <;>
    first
    | rw [get _ _ hlm .input (by decide)]
    | rw [get _ _ hlm .left (by decide), get _ _ hlm .right (by decide)]
    | rw [all _ _ hlm]
    | skip

/-- What is linked in a message. -/
def Links (m : Msg) : Prop := ∀ c t t', visit second m c t = .ok t' →
  (∀ n ∈ shownIn m, n ∈ t.relations) →
    ∃ l, t' = ⟨t.relations, t.links ++ l⟩ ∧ l.Perm (linksIn (c.map Msg.loc) m) ∧ Inputs l m

theorem Inputs.extend {l : List (Nat × Link)} {m : Msg} (h : Inputs l m) (a b : List (Nat × Link)) :
    Inputs (a ++ l ++ b) m := by
  intro r hr hk
  obtain ⟨x, y, rfl⟩ := h r hr hk
  exact ⟨a ++ x, y ++ b, by simp⟩

theorem links_inOrder : ∀ (ms : List Msg), (∀ m ∈ ms, Links m) → ∀ c s s',
    inOrder (ms.map (visit second)) c s = .ok s' → (∀ m ∈ ms, ∀ n ∈ shownIn m, n ∈ s.relations) →
    ∃ l, s' = ⟨s.relations, s.links ++ l⟩ ∧ l.Perm (ms.flatMap (linksIn (c.map Msg.loc))) ∧
      ∀ m ∈ ms, Inputs l m
  | [], _, c, s, s', h, _ => by
    simp only [List.map_nil, inOrder, Outcome.ok.injEq] at h
    exact ⟨[], by simp [← h], by simp, by simp⟩
  | m :: ms, hn, c, s, s', h, hs => by
    simp only [List.map_cons, inOrder] at h
    obtain ⟨t, h1, h2⟩ := bind_ok h
    obtain ⟨l1, rfl, b1, d1⟩ := hn m (by simp) c s t h1 (hs m (by simp))
    obtain ⟨l2, rfl, b2, d2⟩ := links_inOrder ms (fun x hx => hn x (by simp [hx])) c _ s' h2
      (fun x hx => hs x (by simp [hx]))
    refine ⟨l1 ++ l2, by simp, by rw [List.flatMap_cons]; exact b1.append b2, ?_⟩
    intro x hx
    rcases List.mem_cons.mp hx with rfl | hx
    · exact d1.extend [] l2
    · simpa using (d2 x hx).extend l1 []

theorem links_fields {k : Kind} {loc : Nat} {fs : Fields} (hc : Conforms (.node k loc fs))
    (ih : ∀ x ∈ fs.toList, Conforms x.2 → Links x.2) {c : Option Msg} {s s' : Linked}
    (h : runSteps (acts second fs) (steps k) c s = .ok s')
    (hs : ∀ n ∈ shownIn (.node k loc fs), n ∈ s.relations) :
    ∃ l, s' = ⟨s.relations, s.links ++ l⟩ ∧ l.Perm (linksF (c.map Msg.loc) k fs) ∧
      ∀ x ∈ fs.toList, (k, x.1) ∉ missed → Inputs l x.2 := by
  simp only [Conforms] at hc
  have hm := conformsF_mem hc.2
  have he := exclusive_of (k := k) hc.1
  rw [acts_eq] at h
  obtain ⟨r1, r2⟩ := runSteps_eq second fs.toList (steps k) he c s
  rw [r1 (r2 s' h)] at h
  obtain ⟨l, e, h1, h2⟩ := links_inOrder _ (fun m hm' => by
    obtain ⟨n, hn, _⟩ := intoAll_mem hm'
    exact ih _ hn (hm _ hn).2) c s s' h (fun m hm' n hn => by
    obtain ⟨f, h1, h2⟩ := intoAll_mem hm'
    exact hs n (shown_mem h1 (labels_missed k _ h2) hn))
  refine ⟨l, e, ?_, ?_⟩
  · rw [linksF_eq]
    exact h1.trans (intoAll_shown (linksIn _) hc.2 fun m => leaf_links _)
  · intro x hx hxm
    obtain ⟨a1, a2⟩ := hm x hx
    rcases labels_all k _ a1 with hl | hl | hl
    · exact h2 _ (mem_intoAll hx hl)
    · exact absurd hl hxm
    · intro r hw hr
      rw [within_leaf a2 hl hw] at hr
      exact absurd (hr.symm.trans hl) (by decide)

theorem links_all : ∀ m, Conforms m → Links m := by
  refine Msg.induct ?_
  intro k loc fs ih hc c s s' h hs
  rw [visit] at h
  by_cases hk : k = .rel
  · rw [if_pos hk] at h
    obtain ⟨t, h1, h2⟩ := bind_ok h
    obtain ⟨u, h3, h4⟩ := bind_ok h2
    subst hk
    have hin : loc ∈ s.relations := hs _ (shown_self rfl)
    have e : second.enter (.node .rel loc fs) s =
        .ok { s with links := s.links ++ (inputLinks s fs).map fun l => (loc, l) } := by
      simp only [second, Msg.loc, Msg.fields, hin, if_true]
    rw [e] at h1
    cases h1
    obtain ⟨l, rfl, a1, a2⟩ := links_fields hc ih h3 hs
    cases h4
    rw [inputLinks_eq hc hs]
    refine ⟨((linksOf fs).map fun l => (loc, l)) ++ l, by simp, ?_, ?_⟩
    · simp only [linksIn, if_true, parentOf_ne (m := .node .rel loc fs) _ (by simp [Msg.kind]),
        List.map_nil, List.append_nil]
      exact a1.append_left _
    · intro r hw hr
      cases hw with
      | here => exact ⟨[], l, rfl⟩
      | field g1 g2 g3 =>
        obtain ⟨a, b, e⟩ := a2 _ g1 g2 r g3 hr
        exact ⟨((linksOf fs).map fun l => (loc, l)) ++ a, b, by rw [e]; simp⟩
  · rw [if_neg hk] at h
    obtain ⟨u, h3, h4⟩ := bind_ok h
    obtain ⟨l, rfl, a1, a2⟩ := links_fields hc ih h3 hs
    have ho : Inputs l (.node k loc fs) := by
      intro r hw hr
      cases hw with
      | here => exact absurd hr hk
      | field g1 g2 g3 => exact a2 _ g1 g2 r g3 hr
    simp only [linksIn, hk, if_false, List.nil_append]
    unfold afterFields at h4
    split at h4
    · next hx =>
      cases hq : (Msg.node k loc fs).fields.get .subquery with
      | none =>
        rw [hq] at h4
        cases h4
        refine ⟨l, rfl, ?_, ho⟩
        rw [parentOf_none _ hq, List.map_nil, List.append_nil]
        exact a1
      | some q =>
        rw [hq] at h4
        have hcc := hc
        simp only [Conforms] at hcc
        obtain ⟨g1, g2⟩ := conformsF_mem hcc.2 _ (get_mem hq)
        have hx' : k = .expression := hx
        subst hx'
        have e := subRelation_eq (q := q) g2 (expression_subquery _ g1 rfl)
        simp only [second, e] at h4
        split at h4
        · next c' q' e1 =>
          cases h4
          cases hr : relationOf q with
          | none => rw [hr] at e1; cases e1
          | some r =>
            rw [hr] at e1
            have hq' : q' = r.loc := by
              simp only [look] at e1
              split at e1
              · exact (Option.some.inj e1).symm
              · cases e1
            subst hq'
            refine ⟨l ++ [(c'.loc, .sub r.loc)], by simp, ?_, by
              simpa using ho.extend [] [(c'.loc, .sub r.loc)]⟩
            rw [Option.map_some, parentOf_some hx hq, hr]
            exact a1.append_right _
        · cases h4
    · next hx =>
      cases h4
      rw [parentOf_ne _ hx]
      exact ⟨l, rfl, by simpa using a1, ho⟩

/-! ## Plans without relations in missed fields -/

theorem relationsF_eq : ∀ fs : Fields, relationsF fs = fs.toList.flatMap fun x => relationsIn x.2
  | .nil => rfl
  | .cons l m r => by simp [relationsF, Fields.toList, relationsF_eq r]

theorem shownF_mem {k : Kind} : ∀ {fs : Fields}, ShownF k fs → ∀ x ∈ fs.toList,
    ((k, x.1) ∈ missed → relationsIn x.2 = []) ∧ Shown x.2
  | .nil, _, x, hx => by cases hx
  | .cons l m r, h, x, hx => by
    simp only [ShownF] at h
    simp only [Fields.toList, List.mem_cons] at hx
    rcases hx with rfl | hx
    · exact ⟨h.1, h.2.1⟩
    · exact shownF_mem h.2.2 x hx

theorem shown_all : ∀ m, Shown m → shownIn m = relationsIn m := by
  refine Msg.induct ?_
  intro k loc fs ih h
  simp only [Shown] at h
  simp only [shownIn, relationsIn, shownF_eq, relationsF_eq]
  congr 1
  have hm := shownF_mem h
  revert ih hm
  generalize fs.toList = l
  intro ih hm
  induction l with
  | nil => rfl
  | cons x l hl =>
    simp only [List.flatMap_cons]
    rw [hl (fun y hy => ih y (by simp [hy])) (fun y hy => hm y (by simp [hy]))]
    congr 1
    split
    · next hx => exact ((hm x (by simp)).1 hx).symm
    · exact ih x (by simp) (hm x (by simp)).2

end Verif.Trav
