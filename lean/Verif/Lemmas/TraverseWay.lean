import Verif.Lemmas.Traverse

/-! # What the visitors find on their way -/

namespace Verif.Trav

open Verif

theorem bind_ok {α β : Type} {x : Outcome α} {f : α → Outcome β} {b : β} (h : x.bind f = .ok b) :
    ∃ a, x = .ok a ∧ f a = .ok b := by
  cases x with
  | ok a => exact ⟨a, rfl, h⟩
  | throw e => cases h
  | ub => cases h

theorem within_leaf {r m : Msg} (h : Conforms m) (hk : m.kind = .leaf) (hw : Within r m) : r = m := by
  have := leaf_fields h hk
  cases hw with
  | here => rfl
  | field h1 h2 h3 =>
    simp only [Msg.fields] at this
    subst this
    simp [Fields.toList] at h1

/-! ## The relation of a subquery -/

theorem rel_labels : (∀ p ∈ allowed .subqueryScalar, p.2 = .rel ↔ p.1 = .input) ∧
    (∀ p ∈ allowed .subqueryIn, p.2 = .rel ↔ p.1 = .haystack) ∧
    (∀ p ∈ allowed .subquerySetPredicate, p.2 = .rel ↔ p.1 = .tuples) ∧
    (∀ p ∈ allowed .subquerySetComparison, p.2 = .rel ↔ p.1 = .right) := by decide

theorem find_congr {α : Type} {p q : α → Bool} : ∀ {l : List α}, (∀ x ∈ l, p x = q x) →
    l.find? p = l.find? q
  | [], _ => rfl
  | x :: l, h => by
    rw [List.find?_cons, List.find?_cons, h x (by simp), find_congr fun y hy => h y (by simp [hy])]

theorem get_rel {m : Msg} {l : Label} (h : Conforms m)
    (hl : ∀ p ∈ allowed m.kind, p.2 = .rel ↔ p.1 = l) :
    m.fields.get l = (m.fields.toList.find? fun y => y.2.kind = .rel).map (·.2) := by
  obtain ⟨k, loc, fs⟩ := m
  rw [get_eq]
  simp only [Conforms, Msg.kind, Msg.fields] at *
  congr 1
  apply find_congr
  intro x hx
  have := hl _ (conformsF_mem h.2 x hx).1
  exact decide_eq_decide.mpr this.symm

theorem subquery_case : ∀ p ∈ allowed .subquery,
    p = (.scalar, .subqueryScalar) ∨ p = (.inPredicate, .subqueryIn) ∨
      p = (.setPredicate, .subquerySetPredicate) ∨ p = (.setComparison, .subquerySetComparison) := by
  decide

theorem length_le_one {α : Type} {l : List α} (h : l.length ≤ 1) : l = [] ∨ ∃ x, l = [x] := by
  match l, h with
  | [], _ => exact .inl rfl
  | [x], _ => exact .inr ⟨x, rfl⟩
  | _ :: _ :: _, h => simp at h

theorem fields_single {k : Kind} {loc : Nat} {fs : Fields} (h : Conforms (.node k loc fs))
    (ho : ∀ p ∈ allowed k, p.1 ∈ oneof k) : fs.toList = [] ∨ ∃ x, fs.toList = [x] := by
  simp only [Conforms] at h
  apply length_le_one
  refine Nat.le_trans (Nat.le_of_eq ?_) h.1
  congr 1
  symm
  rw [List.filter_eq_self]
  intro x hx
  simpa using ho _ (conformsF_mem h.2 x hx).1

theorem subRelation_eq {q : Msg} (h : Conforms q) (hk : q.kind = .subquery) :
    subRelation q = relationOf q := by
  obtain ⟨k, loc, fs⟩ := q
  simp only [Msg.kind] at hk
  subst hk
  unfold subRelation relationOf
  simp only [Msg.fields, caseOf_eq]
  rcases fields_single h (by decide) with hf | ⟨⟨l, m⟩, hf⟩
  · simp [hf]
  · simp only [Conforms] at h
    obtain ⟨h1, h2⟩ := conformsF_mem h.2 (l, m) (by simp [hf])
    rw [hf]
    simp only [List.flatMap_cons, List.flatMap_nil, List.append_nil, List.find?_cons]
    have hx := subquery_case _ h1
    simp only [Prod.mk.injEq] at hx
    rcases hx with ⟨rfl, hx⟩ | ⟨rfl, hx⟩ | ⟨rfl, hx⟩ | ⟨rfl, hx⟩ <;>
      simp only [List.mem_cons, reduceCtorEq, true_or, or_true, false_or, decide_true]
    · exact get_rel h2 (hx ▸ rel_labels.1)
    · exact get_rel h2 (hx ▸ rel_labels.2.1)
    · exact get_rel h2 (hx ▸ rel_labels.2.2.1)
    · exact get_rel h2 (hx ▸ rel_labels.2.2.2)

theorem expression_subquery : ∀ p ∈ allowed .expression, p.1 = .subquery → p.2 = .subquery := by
  decide

theorem missed_kinds : ∀ k : Kind, ∀ p ∈ allowed k, p.2 = .rel → (k, p.1) ∉ missed := by
  intro k
  cases k <;> decide

theorem shown_mem {k : Kind} {loc : Nat} {fs : Fields} {x : Label × Msg} (hx : x ∈ fs.toList)
    (hm : (k, x.1) ∉ missed) {n : Nat} (hn : n ∈ shownIn x.2) : n ∈ shownIn (.node k loc fs) := by
  simp only [shownIn, shownF_eq, List.mem_append, List.mem_flatMap]
  exact .inl ⟨x, hx, by rw [if_neg hm]; exact hn⟩

theorem shown_self {r : Msg} (h : r.kind = .rel) : r.loc ∈ shownIn r := by
  obtain ⟨k, loc, fs⟩ := r
  simp only [Msg.kind] at h
  simp [shownIn, h, Msg.loc]

theorem get_mem {fs : Fields} {l : Label} {m : Msg} (h : fs.get l = some m) : (l, m) ∈ fs.toList := by
  rw [get_eq, Option.map_eq_some_iff] at h
  obtain ⟨x, h1, rfl⟩ := h
  have h2 := List.find?_some h1
  simp only [decide_eq_true_eq] at h2
  rw [← h2]
  exact List.mem_of_find?_eq_some h1

/-- The relation of a subquery is among the relations that are shown. -/
theorem relationOf_shown {m q r : Msg} (h : Conforms m) (hk : m.kind = .expression)
    (hq : m.fields.get .subquery = some q) (hr : relationOf q = some r) : r.loc ∈ shownIn m := by
  obtain ⟨k, loc, fs⟩ := m
  simp only [Msg.kind, Msg.fields] at hk hq
  subst hk
  have hqm := get_mem hq
  simp only [Conforms] at h
  obtain ⟨h1, h2⟩ := conformsF_mem h.2 _ hqm
  have hqk : q.kind = .subquery := expression_subquery _ h1 rfl
  refine shown_mem hqm (show (Kind.expression, Label.subquery) ∉ missed by decide) ?_
  obtain ⟨k, loc', fs'⟩ := q
  simp only [Msg.kind] at hqk
  subst hqk
  simp only [relationOf, Msg.fields, Option.map_eq_some_iff] at hr
  obtain ⟨y, h3, rfl⟩ := hr
  have h4 := List.find?_some h3
  simp only [decide_eq_true_eq] at h4
  obtain ⟨x, h5, h6⟩ := List.mem_flatMap.mp (List.mem_of_find?_eq_some h3)
  simp only [Conforms] at h2
  obtain ⟨h7, h8⟩ := conformsF_mem h2.2 _ h5
  refine shown_mem h5 ?_ ?_
  · revert h7
    generalize x.1 = l
    intro _
    cases l <;> decide
  · obtain ⟨l, ⟨k, loc2, fs2⟩⟩ := x
    simp only [Conforms] at h6 h8
    obtain ⟨h9, h10⟩ := conformsF_mem h8.2 _ h6
    exact shown_mem h6 (missed_kinds k _ h9 h4) (shown_self h4)

/-! ## The first visitor -/

theorem Ordered.extend {l : List Nat} {m : Msg} (h : Ordered l m) (a b : List Nat) :
    Ordered (a ++ l ++ b) m := by
  intro r hr hk
  obtain ⟨x, i, y, rfl, hp⟩ := h r hr hk
  exact ⟨a ++ x, i, y ++ b, by simp, hp⟩

/-- What is noted on a message. -/
def Notes (m : Msg) : Prop := ∀ c s s', visit first m c s = .ok s' →
  ∃ l p, s' = ⟨s.relations ++ l, s.parents ++ p⟩ ∧ l.Perm (shownIn m) ∧
    p.Perm (parentsIn (c.map Msg.loc) m) ∧ Ordered l m

theorem notes_inOrder : ∀ (ms : List Msg), (∀ m ∈ ms, Notes m) → ∀ c s s',
    inOrder (ms.map (visit first)) c s = .ok s' →
    ∃ l p, s' = ⟨s.relations ++ l, s.parents ++ p⟩ ∧ l.Perm (ms.flatMap shownIn) ∧
      p.Perm (ms.flatMap (parentsIn (c.map Msg.loc))) ∧ ∀ m ∈ ms, Ordered l m
  | [], _, c, s, s', h => by
    simp only [List.map_nil, inOrder, Outcome.ok.injEq] at h
    exact ⟨[], [], by simp [← h], by simp, by simp, by simp⟩
  | m :: ms, hn, c, s, s', h => by
    simp only [List.map_cons, inOrder] at h
    obtain ⟨t, h1, h2⟩ := bind_ok h
    obtain ⟨l1, p1, rfl, b1, c1, d1⟩ := hn m (by simp) c s t h1
    obtain ⟨l2, p2, rfl, b2, c2, d2⟩ := notes_inOrder ms (fun x hx => hn x (by simp [hx])) c _ s' h2
    refine ⟨l1 ++ l2, p1 ++ p2, by simp, ?_, ?_, ?_⟩
    · rw [List.flatMap_cons]; exact b1.append b2
    · rw [List.flatMap_cons]; exact c1.append c2
    · intro x hx
      simp only [List.mem_cons] at hx
      rcases hx with rfl | hx
      · exact d1.extend [] l2
      · simpa using (d2 x hx).extend l1 []

theorem parentOf_ne {m : Msg} (c : Option Nat) (h : m.kind ≠ .expression) : parentOf c m = [] := by
  unfold parentOf
  rw [if_neg h]

theorem parentOf_none {m : Msg} (c : Option Nat) (h : m.fields.get .subquery = none) :
    parentOf c m = [] := by
  unfold parentOf
  split
  · rw [h]
  · rfl

theorem parentOf_some {m q : Msg} {c : Nat} (hk : m.kind = .expression)
    (h : m.fields.get .subquery = some q) :
    parentOf (some c) m = (relationOf q).toList.map fun r => (r.loc, c) := by
  unfold parentOf
  rw [if_pos hk, h]

/-- The notes of the visited fields of a message. -/
theorem notes_fields {k : Kind} {loc : Nat} {fs : Fields} (hc : Conforms (.node k loc fs))
    (ih : ∀ x ∈ fs.toList, Conforms x.2 → Notes x.2) {c : Option Msg} {s s' : Noted}
    (h : runSteps (acts first fs) (steps k) c s = .ok s') :
    ∃ l p, s' = ⟨s.relations ++ l, s.parents ++ p⟩ ∧ l.Perm (shownF k fs) ∧
      p.Perm (parentsF (c.map Msg.loc) k fs) ∧
      ∀ r, r.kind = .rel → (∃ x ∈ fs.toList, (k, x.1) ∉ missed ∧ Within r x.2) →
        ∃ a i b, l = a ++ i ++ r.loc :: b ∧ (i ++ [r.loc]).Perm (shownIn r) := by
  simp only [Conforms] at hc
  have hf := hc.2
  have hm := conformsF_mem hc.2
  have he := exclusive_of (k := k) hc.1
  rw [acts_eq] at h
  obtain ⟨r1, r2⟩ := runSteps_eq first fs.toList (steps k) he c s
  rw [r1 (r2 s' h)] at h
  obtain ⟨l, p, e, h1, h2, h3⟩ := notes_inOrder _ (fun m hm' => by
    obtain ⟨n, hn, _⟩ := intoAll_mem hm'
    exact ih _ hn (hm _ hn).2) c s s' h
  refine ⟨l, p, e, ?_, ?_, ?_⟩
  · rw [shownF_eq]
    exact h1.trans (intoAll_shown shownIn hf fun m => leaf_shown)
  · rw [parentsF_eq]
    exact h2.trans (intoAll_shown (parentsIn _) hf fun m => leaf_parents _)
  · rintro r hr ⟨x, hx, hxm, hw⟩
    obtain ⟨a1, a2⟩ := hm x hx
    rcases labels_all k _ a1 with hl | hl | hl
    · exact h3 _ (mem_intoAll hx hl) r hw hr
    · exact absurd hl hxm
    · have := within_leaf a2 hl hw
      rw [this] at hr
      exact absurd (hr.symm.trans hl) (by decide)

theorem first_subquery {c q : Option Msg} {s s' : Noted} (h : first.subquery c q s = .ok s') :
    ∃ c' q', c = some c' ∧ q = some q' ∧ s' = ⟨s.relations, s.parents ++ [(q'.loc, c'.loc)]⟩ ∧
      q'.loc ∈ s.relations := by
  simp only [first] at h
  split at h
  · split at h
    · next h1 =>
      cases h
      exact ⟨_, _, rfl, rfl, rfl, h1⟩
    · cases h
  · cases h

theorem notes_all : ∀ m, Conforms m → Notes m := by
  refine Msg.induct ?_
  intro k loc fs ih hc c s s' h
  simp only [visit] at h
  by_cases hk : k = .rel
  · rw [if_pos hk] at h
    obtain ⟨t, h1, h2⟩ := bind_ok h
    obtain ⟨u, h3, h4⟩ := bind_ok h2
    simp only [first, Outcome.ok.injEq] at h1 h4
    subst h1
    obtain ⟨l, p, rfl, a1, a2, a3⟩ := notes_fields hc ih h3
    subst h4
    refine ⟨l ++ [loc], p, by simp [Msg.loc], ?_, ?_, ?_⟩
    · simp only [shownIn, hk, if_true]
      exact (hk ▸ a1).append_right _
    · simp only [parentsIn, hk, if_true, parentOf_ne (m := .node .rel loc fs) _ (by simp [Msg.kind]),
        List.append_nil]
      exact hk ▸ a2
    · intro r hw hr
      cases hw with
      | here =>
        refine ⟨[], l, [], by simp [Msg.loc], ?_⟩
        simp only [shownIn, hk, if_true, Msg.loc]
        exact (hk ▸ a1).append_right _
      | field g1 g2 g3 =>
        obtain ⟨a, i, b, rfl, hp⟩ := a3 r hr ⟨_, g1, g2, g3⟩
        exact ⟨a, i, b ++ [loc], by simp, hp⟩
  · rw [if_neg hk] at h
    obtain ⟨u, h3, h4⟩ := bind_ok h
    obtain ⟨l, p, rfl, a1, a2, a3⟩ := notes_fields hc ih h3
    have ho : Ordered l (.node k loc fs) := by
      intro r hw hr
      cases hw with
      | here => exact absurd hr hk
      | field g1 g2 g3 => exact a3 r hr ⟨_, g1, g2, g3⟩
    simp only [afterFields] at h4
    simp only [shownIn, parentsIn, hk, if_false, List.append_nil]
    by_cases hx : k = .expression
    · rw [if_pos (show (Msg.node k loc fs).kind = .expression from hx)] at h4
      simp only [Msg.fields] at h4
      subst hx
      cases hq : fs.get .subquery with
      | none =>
        rw [hq] at h4
        cases h4
        refine ⟨l, p, rfl, a1, ?_, ho⟩
        rw [parentOf_none (m := .node .expression loc fs) _ hq, List.append_nil]
        exact a2
      | some q =>
        rw [hq] at h4
        obtain ⟨c', q', rfl, e1, e2, _⟩ := first_subquery h4
        have hqm := get_mem hq
        simp only [Conforms] at hc
        obtain ⟨g1, g2⟩ := conformsF_mem hc.2 _ hqm
        rw [subRelation_eq (q := q) g2 (expression_subquery _ g1 rfl)] at e1
        refine ⟨l, p ++ [(q'.loc, c'.loc)], by simp [e2], a1, ?_, ho⟩
        rw [Option.map_some, parentOf_some (m := .node .expression loc fs) rfl hq,
          show relationOf q = some q' from e1]
        exact a2.append_right _
    · rw [if_neg (show (Msg.node k loc fs).kind ≠ .expression from hx)] at h4
      cases h4
      rw [parentOf_ne (m := .node k loc fs) _ hx]
      exact ⟨l, p, rfl, a1, by simpa using a2, ho⟩

/-! ## When the first visitor gets through -/

def Step.asking : Step → Option (List Label)
  | .each _ => none
  | .must f => some [f]
  | .pick v q => some (v ++ q)

theorem passes_iff (t : Step) (l : List (Label × Msg)) :
    t.passes l ↔ ∀ a, t.asking = some a → ∃ x ∈ l, x.1 ∈ a := by
  cases t <;> simp [Step.passes, Step.asking]

def asksFor (k : Kind) : Bool :=
  match (steps k).filterMap Step.asking with
  | [] => (needed k).isEmpty
  | [a] => !(needed k).isEmpty && a.all (fun x => decide (x ∈ needed k)) &&
      (needed k).all fun x => decide (x ∈ a)
  | _ => false

theorem asksFor_all (k : Kind) : asksFor k = true := by cases k <;> decide

theorem steps_pass (k : Kind) (l : List (Label × Msg)) :
    (∀ t ∈ steps k, t.passes l) ↔ (needed k = [] ∨ ∃ x ∈ l, x.1 ∈ needed k) := by
  have h := asksFor_all k
  have e : (∀ t ∈ steps k, t.passes l) ↔
      ∀ a ∈ (steps k).filterMap Step.asking, ∃ x ∈ l, x.1 ∈ a := by
    simp only [List.mem_filterMap, passes_iff]
    exact ⟨fun h a ⟨t, h1, h2⟩ => h t h1 a h2, fun h t h1 a h2 => h a ⟨t, h1, h2⟩⟩
  rw [e]
  unfold asksFor at h
  split at h
  · next hn => simp_all
  · next a hn =>
    simp only [Bool.and_eq_true, List.all_eq_true, decide_eq_true_eq, Bool.not_eq_true',
      List.isEmpty_eq_false_iff] at h
    obtain ⟨⟨h1, h2⟩, h3⟩ := h
    simp only [hn, List.mem_singleton, forall_eq, h1, false_or]
    exact ⟨fun ⟨x, a1, a2⟩ => ⟨x, a1, h2 _ a2⟩, fun ⟨x, a1, a2⟩ => ⟨x, a1, h3 _ a2⟩⟩
  · cases h

def tops : List Kind := [.plan, .planRel, .relRoot, .rel]

theorem tops_fields : ∀ k ∈ tops, k ≠ .rel → ∀ p ∈ allowed k, p.2 ∈ tops := by decide

theorem inOrder_ok {σ : Type} (h : Hooks σ) (c : Option Msg) : ∀ (ms : List Msg),
    (∀ m ∈ ms, ∀ s, ∃ s', visit h m c s = .ok s') → ∀ s, ∃ s', inOrder (ms.map (visit h)) c s = .ok s'
  | [], _, s => ⟨s, rfl⟩
  | m :: ms, hm, s => by
    obtain ⟨t, ht⟩ := hm m (by simp) s
    obtain ⟨u, hu⟩ := inOrder_ok h c ms (fun x hx => hm x (by simp [hx])) t
    exact ⟨u, by simp only [List.map_cons, inOrder, ht, Outcome.bind, hu]⟩

theorem inOrder_each {σ : Type} (h : Hooks σ) (c : Option Msg) : ∀ (ms : List Msg) (s s' : σ),
    inOrder (ms.map (visit h)) c s = .ok s' → ∀ m ∈ ms, ∃ t t', visit h m c t = .ok t'
  | [], s, s', _, m, hm => by simp at hm
  | x :: ms, s, s', h1, m, hm => by
    simp only [List.map_cons, inOrder] at h1
    obtain ⟨t, h2, h3⟩ := bind_ok h1
    simp only [List.mem_cons] at hm
    rcases hm with rfl | hm
    · exact ⟨s, t, h2⟩
    · exact inOrder_each h c ms t s' h3 m hm

/-- The scope of the fields of a message. -/
theorem scope_fields {k : Kind} {loc : Nat} {fs : Fields} (hc : Conforms (.node k loc fs))
    {c : Option Msg} (h : c.isSome ∨ k ∈ tops) (hk : k ≠ .rel) :
    ∀ x ∈ fs.toList, c.isSome ∨ x.2.kind ∈ tops := by
  intro x hx
  simp only [Conforms] at hc
  rcases h with h | h
  · exact .inl h
  · exact .inr (tops_fields k h hk _ (conformsF_mem hc.2 x hx).1)

theorem after_ok {k : Kind} {loc : Nat} {fs : Fields} (hc : Conforms (.node k loc fs)) {c : Option Msg}
    (h : c.isSome ∨ k ∈ tops) (hr : HasRelation (.node k loc fs)) {s : Noted}
    (hs : ∀ n ∈ shownF k fs, n ∈ s.relations) :
    ∃ s', afterFields first (.node k loc fs) c s = .ok s' := by
  unfold afterFields
  by_cases hx : k = .expression
  · rw [if_pos (show (Msg.node k loc fs).kind = .expression from hx)]
    subst hx
    simp only [Msg.fields]
    cases hq : fs.get .subquery with
    | none => exact ⟨s, rfl⟩
    | some q =>
      have h1 := hr rfl q hq
      obtain ⟨r, h2⟩ := Option.isSome_iff_exists.mp h1
      have h3 := relationOf_shown hc rfl hq h2
      have hcc := hc
      simp only [Conforms] at hcc
      obtain ⟨g1, g2⟩ := conformsF_mem hcc.2 _ (get_mem hq)
      show ∃ s', first.subquery c (subRelation q) s = .ok s'
      rw [subRelation_eq (q := q) g2 (expression_subquery _ g1 rfl), h2]
      rcases h with h | h
      · obtain ⟨c', rfl⟩ := Option.isSome_iff_exists.mp h
        have : r.loc ∈ s.relations := by
          apply hs
          simpa [shownIn] using h3
        exact ⟨_, by simp only [first, this, if_true]; rfl⟩
      · exact absurd h (by decide)
  · rw [if_neg (show (Msg.node k loc fs).kind ≠ .expression from hx)]
    exact ⟨s, rfl⟩

theorem first_rel {k : Kind} (hk : k = .rel) (loc : Nat) (fs : Fields) (c : Option Msg) (s : Noted) :
    visit first (.node k loc fs) c s =
      (runSteps (acts first fs) (steps k) (some (.node k loc fs)) s).bind fun s =>
        .ok { s with relations := s.relations ++ [loc] } := by
  rw [visit, if_pos hk]
  rfl

theorem ok_of_complete : ∀ m, Conforms m → Complete m → ∀ c, (c.isSome ∨ m.kind ∈ tops) → ∀ s,
    ∃ s', visit first m c s = .ok s' := by
  refine Msg.induct ?_
  intro k loc fs ih hc hp c ht s
  have hcc := hc
  simp only [Conforms] at hcc
  simp only [Complete, completeF_iff] at hp
  have he := exclusive_of (k := k) hcc.1
  have hsteps : ∀ c', (∀ x ∈ fs.toList, c'.isSome ∨ x.2.kind ∈ tops) → ∀ s,
      ∃ s', runSteps (acts first fs) (steps k) c' s = .ok s' := by
    intro c' hc' s
    rw [acts_eq, (runSteps_eq first fs.toList (steps k) he c' s).1 ((steps_pass k _).mpr hp.1)]
    refine inOrder_ok first c' _ (fun m hm => ?_) s
    obtain ⟨l, h1, h2⟩ := intoAll_mem hm
    exact ih _ h1 (conformsF_mem hcc.2 _ h1).2 (hp.2.2 _ h1 (labels_missed k _ h2)) c' (hc' _ h1)
  by_cases hk : k = .rel
  · rw [first_rel hk]
    obtain ⟨u, hu⟩ := hsteps (some (.node k loc fs)) (fun x _ => .inl rfl) s
    rw [hu]
    exact ⟨_, rfl⟩
  · rw [visit, if_neg hk]
    obtain ⟨u, hu⟩ := hsteps c (scope_fields hc ht hk) s
    obtain ⟨l, p, rfl, a1, _, _⟩ := notes_fields hc (fun x hx h => notes_all _ h) hu
    simp only [hu, Outcome.bind]
    refine after_ok hc ht hp.2.1 fun n hn => ?_
    simp only [List.mem_append]
    exact .inr (a1.mem_iff.mpr hn)

theorem complete_of_ok : ∀ m, Conforms m → ∀ c s s', visit first m c s = .ok s' → Complete m := by
  refine Msg.induct ?_
  intro k loc fs ih hc c s s' h
  have hcc := hc
  simp only [Conforms] at hcc
  have he := exclusive_of (k := k) hcc.1
  have hsteps : ∀ c s s', runSteps (acts first fs) (steps k) c s = .ok s' →
      (needed k = [] ∨ ∃ x ∈ fs.toList, x.1 ∈ needed k) ∧ CompleteF k fs := by
    intro c s s' h
    rw [acts_eq] at h
    have hp := (runSteps_eq first fs.toList (steps k) he c s).2 s' h
    rw [(runSteps_eq first fs.toList (steps k) he c s).1 hp] at h
    refine ⟨(steps_pass k _).mp hp, completeF_iff.mpr fun x hx hm => ?_⟩
    obtain ⟨a1, a2⟩ := conformsF_mem hcc.2 x hx
    rcases labels_all k _ a1 with hl | hl | hl
    · obtain ⟨t, t', h1⟩ := inOrder_each first c _ s s' h _ (mem_intoAll hx hl)
      exact ih x hx a2 c t t' h1
    · exact absurd hl hm
    · have hf := leaf_fields a2 hl
      obtain ⟨l, ⟨k', loc', fs'⟩⟩ := x
      simp only [Msg.kind, Msg.fields] at hl hf
      subst hl hf
      refine ⟨.inl rfl, ?_, ?_⟩
      · intro h
        cases h
      · simp [CompleteF]
  simp only [visit] at h
  by_cases hk : k = .rel
  · rw [if_pos hk] at h
    obtain ⟨t, h1, h2⟩ := bind_ok h
    obtain ⟨u, h3, h4⟩ := bind_ok h2
    obtain ⟨b1, b2⟩ := hsteps _ _ _ h3
    refine ⟨b1, fun h => ?_, b2⟩
    subst hk
    exact absurd (show Kind.rel = .expression from h) (by decide)
  · rw [if_neg hk] at h
    obtain ⟨u, h3, h4⟩ := bind_ok h
    obtain ⟨b1, b2⟩ := hsteps _ _ _ h3
    refine ⟨b1, ?_, b2⟩
    intro hx q hq
    have hx' : k = .expression := hx
    subst hx'
    simp only [Msg.fields] at hq
    unfold afterFields at h4
    rw [if_pos hx] at h4
    simp only [Msg.fields, hq] at h4
    obtain ⟨c', q', _, e1, _, _⟩ := first_subquery h4
    obtain ⟨g1, g2⟩ := conformsF_mem hcc.2 _ (get_mem hq)
    rw [subRelation_eq (q := q) g2 (expression_subquery _ g1 rfl)] at e1
    simp [e1]

/-! ## No undefined behaviour -/

theorem inOrder_ub {σ : Type} (h : Hooks σ) (c : Option Msg) : ∀ (ms : List Msg) (s : σ),
    inOrder (ms.map (visit h)) c s = .ub → ∃ m ∈ ms, ∃ t, visit h m c t = .ub
  | [], s, h1 => by cases h1
  | x :: ms, s, h1 => by
    simp only [List.map_cons, inOrder] at h1
    cases hv : visit h x c s with
    | ok t =>
      rw [hv] at h1
      obtain ⟨m, h2, h3⟩ := inOrder_ub h c ms t h1
      exact ⟨m, by simp [h2], h3⟩
    | throw e => rw [hv] at h1; cases h1
    | ub => exact ⟨x, by simp, s, hv⟩

theorem runSteps_ub {σ : Type} (h : Hooks σ) (l : List (Label × Msg)) (c : Option Msg) :
    ∀ (ts : List Step) (_ : ∀ t ∈ ts, t.exclusive l) (s : σ),
    runSteps (l.map fun x => (x.1, visit h x.2)) ts c s = .ub →
    ∃ m ∈ intoAll ts l, ∃ t, visit h m c t = .ub
  | [], _, s, h1 => by cases h1
  | t :: ts, he, s, h1 => by
    simp only [runSteps, runStep_eq h l t (he t (by simp))] at h1
    by_cases hp : t.passes l
    · rw [if_pos hp] at h1
      cases hr : inOrder ((t.into l).map (visit h)) c s with
      | ok r =>
        rw [hr] at h1
        obtain ⟨m, h2, h3⟩ := runSteps_ub h l c ts (fun t ht => he t (by simp [ht])) r h1
        exact ⟨m, by simp only [intoAll, List.flatMap_cons, List.mem_append]; exact .inr h2, h3⟩
      | throw e => rw [hr] at h1; cases h1
      | ub =>
        obtain ⟨m, h2, h3⟩ := inOrder_ub h c _ s hr
        exact ⟨m, by simp only [intoAll, List.flatMap_cons, List.mem_append]; exact .inl h2, h3⟩
    · rw [if_neg hp] at h1
      cases h1

theorem not_ub : ∀ m, Conforms m → Answered m → ∀ c, (c.isSome ∨ m.kind ∈ tops) → ∀ s,
    visit first m c s ≠ .ub := by
  refine Msg.induct ?_
  intro k loc fs ih hc hp c ht s h
  have hcc := hc
  simp only [Conforms] at hcc
  simp only [Answered, answeredF_iff] at hp
  have he := exclusive_of (k := k) hcc.1
  have hsteps : ∀ c', (∀ x ∈ fs.toList, c'.isSome ∨ x.2.kind ∈ tops) → ∀ s,
      runSteps (acts first fs) (steps k) c' s ≠ .ub := by
    intro c' hc' s hu
    rw [acts_eq] at hu
    obtain ⟨m, h1, t, h2⟩ := runSteps_ub first _ c' _ he s hu
    obtain ⟨l, h3, h4⟩ := intoAll_mem h1
    exact ih _ h3 (conformsF_mem hcc.2 _ h3).2 (hp.2 _ h3 (labels_missed k _ h4)) c' (hc' _ h3) t h2
  by_cases hk : k = .rel
  · rw [first_rel hk] at h
    have := hsteps (some (.node k loc fs)) (fun x _ => .inl rfl) s
    cases hr : runSteps (acts first fs) (steps k) (some (.node k loc fs)) s with
    | ok t => rw [hr] at h; cases h
    | throw e => rw [hr] at h; cases h
    | ub => exact this hr
  · rw [visit, if_neg hk] at h
    have := hsteps c (scope_fields hc ht hk) s
    cases hr : runSteps (acts first fs) (steps k) c s with
    | ok t =>
      simp only [hr, Outcome.bind] at h
      obtain ⟨l, p, rfl, a1, _, _⟩ := notes_fields hc (fun x hx h => notes_all _ h) hr
      obtain ⟨s', h'⟩ := after_ok hc ht hp.1 (s := ⟨s.relations ++ l, s.parents ++ p⟩) fun n hn => by
        simp only [List.mem_append]
        exact .inr (a1.mem_iff.mpr hn)
      rw [h'] at h
      cases h
    | throw e => simp only [hr, Outcome.bind] at h; cases h
    | ub => exact this hr

end Verif.Trav
