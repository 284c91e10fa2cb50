import Verif.Model.Scopes

/-! # Lemmas on the members of the visitors -/

namespace Verif.Scope

open Verif Verif.Trav

/-- A run from `v` that ended as it would with the relation as an argument, with the members as they
were. -/
def Same {σ : Type} (v : Visitor σ) : Outcome σ → Run σ → Prop
  | .ok s, r => r = (.ok (), { v with data := s })
  | .throw e, r => ∃ d, r = (.throw e, { v with data := d })
  | .ub, r => r.1 = .ub

def Agrees {σ : Type} (a : Act σ) (b : Fn σ) : Prop := ∀ v, Same v (a v.scope v.data) (b v)

def AgreesL {σ : Type} : List (Label × Act σ) → List (Label × Fn σ) → Prop
  | [], [] => True
  | x :: xs, y :: ys => x.1 = y.1 ∧ Agrees x.2 y.2 ∧ AgreesL xs ys
  | _, _ => False

theorem same_ok {σ : Type} (v : Visitor σ) : Same v (.ok v.data) (.ok (), v) := rfl

theorem same_throw {σ : Type} (v : Visitor σ) (e : Exc) : Same v (.throw e) (.throw e, v) :=
  ⟨v.data, rfl⟩

theorem same_next {σ : Type} {v : Visitor σ} {o : Outcome σ} {r : Run σ} {f : σ → Outcome σ}
    {g : Fn σ} (h : Same v o r)
    (hf : ∀ s, Same { v with data := s } (f s) (g { v with data := s })) :
    Same v (o.bind f) (r.next g) := by
  cases o with
  | ok s =>
    simp only [Same] at h
    subst h
    have := hf s
    simp only [Outcome.bind, Run.next]
    cases hs : f s with
    | ok t => rw [hs] at this; exact this
    | throw e => rw [hs] at this; exact this
    | ub => rw [hs] at this; exact this
  | throw e =>
    obtain ⟨d, rfl⟩ := h
    exact ⟨d, rfl⟩
  | ub =>
    simp only [Same] at h
    simp only [Outcome.bind, Run.next, h, Same]

theorem same_hook {σ : Type} (v : Visitor σ) (f : σ → Outcome σ) : Same v (f v.data) (hook f v) := by
  unfold hook
  cases f v.data with
  | ok s => rfl
  | throw e => exact ⟨v.data, rfl⟩
  | ub => rfl

theorem setScope_next {σ : Type} (c : Option Msg) (v : Visitor σ) (f : Fn σ) :
    (setScope c v).next f = f { v with scope := c } := rfl

theorem pushOuter_next {σ : Type} (v : Visitor σ) (f : Fn σ) :
    (pushOuter v).next f = f { v with outer := v.scope :: v.outer } := rfl

/-- What is done inside with other members, and reset. -/
theorem same_finally {σ : Type} {v w : Visitor σ} {o : Outcome σ} {r : Run σ} {clean : Fn σ}
    (h : Same w o r)
    (hc : ∀ s, clean { w with data := s } = (.ok (), { v with data := s })) :
    Same v o (r.finally clean) := by
  cases o with
  | ok s =>
    simp only [Same] at h
    subst h
    simp only [Run.finally, hc, Same]
  | throw e =>
    obtain ⟨d, rfl⟩ := h
    exact ⟨d, by simp only [Run.finally, hc]⟩
  | ub =>
    simp only [Same] at h
    simp only [Run.finally, h, Same]

theorem inOrder_agrees {σ : Type} : ∀ {as : List (Act σ)} {bs : List (Fn σ)},
    as.length = bs.length → (∀ p ∈ as.zip bs, Agrees p.1 p.2) →
      Agrees (Trav.inOrder as) (inOrder bs)
  | [], [], _, _ => fun v => same_ok v
  | a :: as, b :: bs, hl, h => fun v => by
    simp only [Trav.inOrder, inOrder]
    refine same_next (h (a, b) (by simp) v) fun s => ?_
    exact inOrder_agrees (as := as) (bs := bs) (by simpa using hl)
      (fun p hp => h p (by simp [hp])) { v with data := s }

theorem named_agrees {σ : Type} (f : Label) : ∀ {l : List (Label × Act σ)} {k : List (Label × Fn σ)},
    AgreesL l k → (Trav.named f l).length = (named f k).length ∧
      ∀ p ∈ (Trav.named f l).zip (named f k), Agrees p.1 p.2
  | [], [], _ => by simp [Trav.named, named]
  | x :: xs, y :: ys, h => by
    obtain ⟨h1, h2, h3⟩ := h
    obtain ⟨h4, h5⟩ := named_agrees f h3
    simp only [Trav.named, named] at h4 h5 ⊢
    by_cases hx : x.1 = f
    · have hy : y.1 = f := h1 ▸ hx
      simp only [List.filter_cons, hx, hy, decide_true, if_true, List.map_cons, List.length_cons, h4,
        List.zip_cons_cons, List.mem_cons, true_and]
      rintro p (rfl | hp)
      · exact h2
      · exact h5 p hp
    · have hy : ¬ y.1 = f := h1 ▸ hx
      simp only [List.filter_cons, hx, hy, decide_false, Bool.false_eq_true, if_false]
      exact ⟨h4, h5⟩
  | [], _ :: _, h => h.elim
  | _ :: _, [], h => h.elim

theorem find_agrees {σ : Type} (p : Label → Bool) :
    ∀ {l : List (Label × Act σ)} {k : List (Label × Fn σ)}, AgreesL l k →
      (l.find? (fun x => p x.1) = none ∧ k.find? (fun x => p x.1) = none) ∨
      ∃ x y, l.find? (fun x => p x.1) = some x ∧ k.find? (fun x => p x.1) = some y ∧
        x.1 = y.1 ∧ Agrees x.2 y.2
  | [], [], _ => .inl ⟨rfl, rfl⟩
  | x :: xs, y :: ys, h => by
    obtain ⟨h1, h2, h3⟩ := h
    by_cases hx : p x.1 = true
    · exact .inr ⟨x, y, by simp [hx], by simp [← h1, hx], h1, h2⟩
    · have hy : ¬ p y.1 = true := h1 ▸ hx
      have e1 : (x :: xs).find? (fun x => p x.1) = xs.find? (fun x => p x.1) :=
        List.find?_cons_of_neg hx
      have e2 : (y :: ys).find? (fun x => p x.1) = ys.find? (fun x => p x.1) :=
        List.find?_cons_of_neg hy
      rw [e1, e2]
      exact find_agrees p h3
  | [], _ :: _, h => h.elim
  | _ :: _, [], h => h.elim

theorem runStep_agrees {σ : Type} {l : List (Label × Act σ)} {k : List (Label × Fn σ)}
    (h : AgreesL l k) (t : Step) : Agrees (Trav.runStep l t) (runStep k t) := by
  intro v
  cases t with
  | each f =>
    obtain ⟨h1, h2⟩ := named_agrees f h
    exact inOrder_agrees h1 h2 v
  | must f =>
    obtain ⟨h1, h2⟩ := named_agrees f h
    simp only [Trav.runStep, runStep]
    have he : (Trav.named f l).isEmpty = (named f k).isEmpty := by
      cases ha : Trav.named f l <;> cases hb : named f k <;> simp [ha, hb] at h1 ⊢
    rw [he]
    split
    · exact same_throw v _
    · exact inOrder_agrees h1 h2 v
  | pick visited quiet =>
    simp only [Trav.runStep, runStep]
    rcases find_agrees (fun x => decide (x ∈ visited ∨ x ∈ quiet)) h with
      ⟨h1, h2⟩ | ⟨x, y, h1, h2, h3, h4⟩
    · rw [h1, h2]
      exact same_throw v _
    · rw [h1, h2]
      simp only [h3]
      split
      · exact h4 v
      · exact same_ok v

theorem runSteps_agrees {σ : Type} {l : List (Label × Act σ)} {k : List (Label × Fn σ)}
    (h : AgreesL l k) : ∀ ts : List Step, Agrees (Trav.runSteps l ts) (runSteps k ts)
  | [] => fun v => same_ok v
  | t :: ts => fun v => by
    simp only [Trav.runSteps, runSteps]
    exact same_next (runStep_agrees h t v) fun s => runSteps_agrees h ts { v with data := s }

mutual
theorem visit_agrees {σ : Type} (stack : Bool) (h : Hooks σ) :
    ∀ m : Msg, Agrees (Trav.visit h m) (visit stack h m)
  | .node k loc fs => fun v => by
    have hs := runSteps_agrees (acts_agrees stack h fs) (steps k)
    unfold Trav.visit visit
    by_cases hk : k = .rel
    · simp only [hk, if_true, inRelation, setScope_next]
      subst hk
      refine same_finally (w := { v with scope := some (.node .rel loc fs) }) ?_ fun s => rfl
      refine same_next (same_hook { v with scope := some (.node .rel loc fs) }
        (h.enter (.node .rel loc fs))) fun s => ?_
      refine same_next (hs { v with scope := some (.node .rel loc fs), data := s }) fun s => ?_
      exact same_hook { v with scope := some (.node .rel loc fs), data := s } _
    · simp only [hk, if_false]
      by_cases he : k = .expression
      · subst he
        simp only [if_true, inExpression]
        cases hq : (Msg.node .expression loc fs).fields.get .subquery with
        | none =>
          have : ∀ s, afterFields h (.node .expression loc fs) v.scope s = .ok s := by
            intro s
            simp [afterFields, hq, Msg.kind]
          simp only [this]
          have h1 := hs v
          cases ho : Trav.runSteps (Trav.acts h fs) (steps .expression) v.scope v.data with
          | ok s => rw [ho] at h1; exact h1
          | throw e => rw [ho] at h1; exact h1
          | ub => rw [ho] at h1; exact h1
        | some q =>
          have ha : ∀ s, afterFields h (.node .expression loc fs) v.scope s =
              h.subquery v.scope (subRelation q) s := by
            intro s
            simp [afterFields, hq, Msg.kind]
          simp only [ha]
          have key : ∀ w : Visitor σ, w.scope = v.scope → w.data = v.data →
              Same w ((Trav.runSteps (Trav.acts h fs) (steps .expression) v.scope v.data).bind
                fun s => h.subquery v.scope (subRelation q) s)
              (Run.next (runSteps (acts stack h fs) (steps .expression) w) fun v =>
                hook (h.subquery v.scope (subRelation q)) v) := by
            intro w h1 h2
            rw [← h1, ← h2]
            exact same_next (hs w) fun s =>
              same_hook { w with data := s } (h.subquery w.scope (subRelation q))
          cases stack with
          | false => exact key v rfl rfl
          | true =>
            simp only [if_true, pushOuter_next]
            exact same_finally (key { v with outer := v.scope :: v.outer } rfl rfl) fun s => rfl
      · simp only [he, if_false]
        have : ∀ s, afterFields h (.node k loc fs) v.scope s = .ok s := by
          intro s
          simp [afterFields, he, Msg.kind]
        simp only [this]
        have h1 := hs v
        cases ho : Trav.runSteps (Trav.acts h fs) (steps k) v.scope v.data with
        | ok s => rw [ho] at h1; exact h1
        | throw e => rw [ho] at h1; exact h1
        | ub => rw [ho] at h1; exact h1
theorem acts_agrees {σ : Type} (stack : Bool) (h : Hooks σ) :
    ∀ fs : Fields, AgreesL (Trav.acts h fs) (acts stack h fs)
  | .nil => by simp [Trav.acts, acts, AgreesL]
  | .cons l m r => by
    simp only [Trav.acts, acts, AgreesL, true_and]
    exact ⟨visit_agrees stack h m, acts_agrees stack h r⟩
end

end Verif.Scope
