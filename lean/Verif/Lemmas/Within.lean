import Verif.Spec.Within
import Verif.Lemmas.Placed

/-! # Relations within relations -/

namespace Verif

/-- The same results with other functions, as far as they are needed. -/
theorem Outcome.mapM_more {α β : Type} {g g' : α → Outcome β} : ∀ {l : List α},
    (∀ a ∈ l, g a ≠ .ub → g' a = g a) → Outcome.mapM g l ≠ .ub →
    Outcome.mapM g' l = Outcome.mapM g l
  | [], _, _ => rfl
  | a :: l, h, hn => by
    simp only [Outcome.mapM] at hn ⊢
    have ha : g a ≠ .ub := by
      intro e
      rw [e] at hn
      exact hn rfl
    rw [h a List.mem_cons_self ha]
    cases hg : g a with
    | ub => exact absurd hg ha
    | throw e => rfl
    | ok b =>
      rw [hg] at hn
      simp only [Outcome.bind_ok] at hn ⊢
      have hl : Outcome.mapM g l ≠ .ub := by
        intro e
        rw [e] at hn
        exact hn rfl
      rw [Outcome.mapM_more (fun x hx => h x (List.mem_cons_of_mem _ hx)) hl]

theorem Outcome.bind_more {α β : Type} {o o' : Outcome α} {f f' : α → Outcome β}
    (ho : o ≠ .ub → o' = o) (hf : ∀ a, f a ≠ .ub → f' a = f a) (h : o.bind f ≠ .ub) :
    o'.bind f' = o.bind f := by
  cases o with
  | ub => exact absurd rfl h
  | throw e => rw [ho (by simp)]; rfl
  | ok a => rw [ho (by simp)]; exact hf a h

theorem Outcome.map_more {α β : Type} {o o' : Outcome α} {f : α → β}
    (ho : o ≠ .ub → o' = o) (h : o.map f ≠ .ub) : o'.map f = o.map f := by
  cases o with
  | ub => exact absurd rfl h
  | throw e => rw [ho (by simp)]
  | ok a => rw [ho (by simp)]

theorem Outcome.mapM_ok_all {α β : Type} {g : α → Outcome β} : ∀ {l : List α} {bs : List β},
    Outcome.mapM g l = .ok bs → ∀ a ∈ l, ∃ b, g a = .ok b
  | [], _, _, _, h => nomatch h
  | a :: l, bs, h, x, hx => by
    simp only [Outcome.mapM] at h
    cases hg : g a with
    | ub => rw [hg] at h; simp at h
    | throw e => rw [hg] at h; simp at h
    | ok b =>
      rw [hg] at h
      simp only [Outcome.bind_ok] at h
      cases hl : Outcome.mapM g l with
      | ub => rw [hl] at h; simp at h
      | throw e => rw [hl] at h; simp at h
      | ok cs =>
        rcases List.mem_cons.mp hx with rfl | hx
        · exact ⟨b, hg⟩
        · exact Outcome.mapM_ok_all hl x hx

theorem Outcome.mapM_no_throw {α β : Type} {g : α → Outcome β} : ∀ {l : List α},
    (∀ a ∈ l, ∀ e, g a ≠ .throw e) → ∀ e, Outcome.mapM g l ≠ .throw e
  | [], _, e => by simp [Outcome.mapM]
  | a :: l, h, e => by
    simp only [Outcome.mapM]
    cases hg : g a with
    | ub => simp
    | throw e' => exact absurd hg (h a List.mem_cons_self e')
    | ok b =>
      have ih := Outcome.mapM_no_throw (g := g) (l := l) fun x hx => h x (List.mem_cons_of_mem _ hx)
      cases hl : Outcome.mapM g l with
      | ub => simp
      | throw e' => exact absurd hl (ih e')
      | ok cs => simp

/-- If each ends with room enough then all end with room enough. -/
theorem Outcome.mapM_ends {α β : Type} {g : Nat → α → Outcome β}
    (hm : ∀ f a, g f a ≠ .ub → ∀ k, g (f + k) a = g f a) : ∀ {l : List α},
    (∀ a ∈ l, ∃ f, g f a ≠ .ub) → ∃ f, Outcome.mapM (g f) l ≠ .ub
  | [], _ => ⟨0, by simp [Outcome.mapM]⟩
  | a :: l, h => by
    obtain ⟨f1, h1⟩ := h a List.mem_cons_self
    obtain ⟨f2, h2⟩ := Outcome.mapM_ends hm fun x hx => h x (List.mem_cons_of_mem _ hx)
    refine ⟨f1 + f2, ?_⟩
    simp only [Outcome.mapM]
    rw [hm f1 a h1 f2]
    cases hg : g f1 a with
    | ub => exact absurd hg h1
    | throw e => simp
    | ok b =>
      have : Outcome.mapM (g (f1 + f2)) l = Outcome.mapM (g f2) l :=
        Outcome.mapM_more (fun x _ hx => by rw [Nat.add_comm]; exact hm f2 x hx f1) h2
      rw [this]
      cases hl : Outcome.mapM (g f2) l with
      | ub => exact absurd hl h2
      | throw e => simp
      | ok cs => simp

end Verif

namespace Verif.Pipe

open Verif

theorem inputsOf_defined (k : RelKind) (d : Data) : inputsOf k d ≠ .ub := by
  unfold inputsOf
  split
  · simp
  · split <;> simp
  · simp
  · simp

/-- With more room there is the same result. -/
theorem build_next {t : Table} : ∀ {f : Nat} {n : Str}, build t f n ≠ .ub →
    build t (f + 1) n = build t f n
  | 0, _, h => absurd rfl h
  | f + 1, n, h => by
    rw [build] at h
    rw [build, build]
    cases hk : t.kind n with
    | none => rfl
    | some k =>
      rw [hk] at h
      simp only at h ⊢
      refine Outcome.bind_more (fun _ => rfl) (fun ins hi => ?_) h
      refine Outcome.bind_more
        (fun hm => Outcome.mapM_more (fun a _ ha => build_next ha) hm) (fun a ha => ?_) hi
      by_cases hs : takesSubs k ins.length
      · rw [if_pos hs] at ha ⊢
        rw [if_pos hs]
        exact Outcome.map_more
          (fun hm => Outcome.mapM_more (fun a _ ha => build_next ha) hm) ha
      · rw [if_neg hs, if_neg hs]

theorem build_more {t : Table} {f : Nat} {n : Str} (h : build t f n ≠ .ub) : ∀ k,
    build t (f + k) n = build t f n
  | 0 => rfl
  | k + 1 => by
    have ih := build_more h k
    rw [← Nat.add_assoc, build_next (by rw [ih]; exact h), ih]

/-- What is built is not within itself. -/
theorem build_accessible {t : Table} : ∀ {f : Nat} {n : Str} {r : Rel}, build t f n = .ok r →
    Acc (Uses t) n
  | 0, _, _, h => by simp [build] at h
  | f + 1, n, r, h => by
    constructor
    rintro m ⟨k, ins, hk, hi, hm⟩
    rw [build, hk] at h
    simp only [hi, Outcome.bind_ok] at h
    cases ha : Outcome.mapM (build t f) ins with
    | ub => rw [ha] at h; simp at h
    | throw e => rw [ha] at h; simp at h
    | ok as =>
      rw [ha] at h
      simp only [Outcome.bind_ok] at h
      rcases hm with hm | ⟨hs, hm⟩
      · obtain ⟨b, hb⟩ := Outcome.mapM_ok_all ha m hm
        exact build_accessible hb
      · rw [if_pos hs] at h
        cases hb : Outcome.mapM (build t f) (t.data n).subs with
        | ub => rw [hb] at h; simp at h
        | throw e => rw [hb] at h; simp at h
        | ok bs =>
          obtain ⟨b, hb⟩ := Outcome.mapM_ok_all hb m hm
          exact build_accessible hb

/-- What is not within itself is built, or refused. -/
theorem build_ends {t : Table} {n : Str} (h : Acc (Uses t) n) : ∃ f, build t f n ≠ .ub := by
  induction h with
  | intro n _ ih =>
    cases hk : t.kind n with
    | none => exact ⟨1, by simp [build, hk]⟩
    | some k =>
      cases hi : inputsOf k (t.data n) with
      | ub => exact absurd hi (inputsOf_defined _ _)
      | throw e => exact ⟨1, by simp [build, hk, hi]⟩
      | ok ins =>
        have hmore : ∀ f a, build t f a ≠ .ub → ∀ k, build t (f + k) a = build t f a :=
          fun f a h => build_more h
        obtain ⟨f1, h1⟩ := Outcome.mapM_ends hmore (l := ins)
          fun m hm => ih m ⟨k, ins, hk, hi, .inl hm⟩
        have key : ∀ f2, Outcome.mapM (build t (f1 + f2)) ins = Outcome.mapM (build t f1) ins :=
          fun f2 => Outcome.mapM_more (fun a _ ha => build_more ha f2) h1
        by_cases hs : takesSubs k ins.length = true
        · obtain ⟨f2, h2⟩ := Outcome.mapM_ends hmore (l := (t.data n).subs)
            fun m hm => ih m ⟨k, ins, hk, hi, .inr ⟨hs, hm⟩⟩
          have key2 : Outcome.mapM (build t (f1 + f2)) (t.data n).subs =
              Outcome.mapM (build t f2) (t.data n).subs :=
            Outcome.mapM_more (fun a _ ha => by rw [Nat.add_comm]; exact build_more ha f1) h2
          refine ⟨f1 + f2 + 1, ?_⟩
          rw [build, hk]
          simp only [hi, Outcome.bind_ok]
          rw [key f2, key2]
          cases ha : Outcome.mapM (build t f1) ins with
          | ub => exact absurd ha h1
          | throw e => simp
          | ok as =>
            simp only [Outcome.bind_ok, if_pos hs]
            cases hb : Outcome.mapM (build t f2) (t.data n).subs with
            | ub => exact absurd hb h2
            | throw e => simp
            | ok bs => simp
        · refine ⟨f1 + 1, ?_⟩
          rw [build, hk]
          simp only [hi, Outcome.bind_ok]
          cases ha : Outcome.mapM (build t f1) ins with
          | ub => exact absurd ha h1
          | throw e => simp
          | ok as => simp only [Outcome.bind_ok, if_neg hs]; simp

theorem build_no_throw {t : Table} (hc : Complete t) : ∀ (f : Nat) (n : Str) (e : Exc),
    build t f n ≠ .throw e
  | 0, _, _ => by simp [build]
  | f + 1, n, e => by
    rw [build]
    cases hk : t.kind n with
    | none => simp
    | some k =>
      obtain ⟨ins, hi⟩ := hc n k hk
      simp only [hi, Outcome.bind_ok]
      have h1 := Outcome.mapM_no_throw (g := build t f) (l := ins)
        fun a _ => build_no_throw hc f a
      have h2 := Outcome.mapM_no_throw (g := build t f) (l := (t.data n).subs)
        fun a _ => build_no_throw hc f a
      cases ha : Outcome.mapM (build t f) ins with
      | ub => simp
      | throw e' => exact absurd ha (h1 e')
      | ok as =>
        simp only [Outcome.bind_ok]
        split
        · cases hb : Outcome.mapM (build t f) (t.data n).subs with
          | ub => simp
          | throw e' => exact absurd hb (h2 e')
          | ok bs => simp
        · simp

end Verif.Pipe

namespace Verif

theorem Outcome.mapM_ub {α β : Type} {g : α → Outcome β} : ∀ {l : List α},
    Outcome.mapM g l = .ub → ∃ a ∈ l, g a = .ub
  | [], h => by simp [Outcome.mapM] at h
  | a :: l, h => by
    simp only [Outcome.mapM] at h
    cases hg : g a with
    | ub => exact ⟨a, List.mem_cons_self, hg⟩
    | throw e => rw [hg] at h; simp at h
    | ok b =>
      rw [hg] at h
      simp only [Outcome.bind_ok] at h
      cases hl : Outcome.mapM g l with
      | ub =>
        obtain ⟨x, hx, e⟩ := Outcome.mapM_ub hl
        exact ⟨x, List.mem_cons_of_mem _ hx, e⟩
      | throw e => rw [hl] at h; simp at h
      | ok cs => rw [hl] at h; simp at h

theorem pairwise_repeat {α : Type} {r : α → α → Prop} : ∀ {l : List α},
    l.Pairwise r → ¬ l.Nodup → ∃ a ∈ l, r a a
  | [], _, h => absurd List.nodup_nil h
  | a :: l, hp, h => by
    rw [List.pairwise_cons] at hp
    by_cases ha : a ∈ l
    · exact ⟨a, List.mem_cons_self, hp.1 a ha⟩
    · have : ¬ l.Nodup := fun hl => h (List.nodup_cons.mpr ⟨ha, hl⟩)
      obtain ⟨x, hx, e⟩ := pairwise_repeat hp.2 this
      exact ⟨x, List.mem_cons_of_mem _ hx, e⟩

end Verif

namespace Verif.Pipe

open Verif

/-- The symbols with a relation type are in the list of relations. -/
def InOrder (t : Table) : Prop := ∀ n k, t.kind n = some k → n ∈ t.order

theorem listed_touch {t : Table} (h : InOrder t) (n : Str) : InOrder (touch t n) := by
  intro m k hk
  unfold touch at hk ⊢
  cases hg : t.get n with
  | some e =>
    rw [hg] at hk
    simpa using h m k hk
  | none =>
    rw [hg] at hk
    simp only [Table.define, List.mem_append, List.mem_singleton] at hk ⊢
    by_cases e : m = n
    · exact .inr e
    · refine .inl (h m k ?_)
      simpa [Table.kind, e] using hk

theorem listed_connect {parents : List Ref} {r : Ref} {left : Option Ref} {s s' : State}
    (h : InOrder s.table) (e : connect parents r left s = .ok s') : InOrder s'.table := by
  unfold connect at e
  cases hg : s.table.get r.name with
  | none => rw [hg] at e; simp at e
  | some x =>
    rw [hg] at e
    cases x with
    | other => simp only [Outcome.ok.injEq] at e; rw [← e]; exact h
    | rel k d =>
      simp only at e
      split at e
      · simp only [Outcome.ok.injEq] at e; rw [← e]; exact h
      · cases hr : rightmost s.table parents with
        | ub => rw [hr] at e; simp at e
        | throw x => rw [hr] at e; simp at e
        | ok right =>
          rw [hr] at e
          simp only [Outcome.bind_ok] at e
          split at e
          · simp only [Outcome.ok.injEq] at e; rw [← e]; exact h
          · cases hl : leftOf s.table left with
            | ub => rw [hl] at e; simp at e
            | throw x => rw [hl] at e; simp at e
            | ok l =>
              rw [hl] at e
              simp only [Outcome.bind_ok, Outcome.ok.injEq] at e
              rw [← e]
              intro m k' hk
              refine h m k' ?_
              simp only [Table.kind, Table.set] at hk ⊢
              by_cases em : m = r.name
              · subst em
                simpa [hg] using hk
              · simpa [em] using hk

theorem listed_visit : ∀ {p parents : List Ref} {s s' : State}, InOrder s.table →
    visit parents p s = .ok s' → InOrder s'.table
  | [], _, s, s', h, e => by
    simp only [visit, Outcome.ok.injEq] at e
    rw [← e]
    exact h
  | r :: rest, parents, s, s', h, e => by
    simp only [visit] at e
    cases hv : visit (r :: parents) rest { s with table := touch s.table r.name } with
    | ub => rw [hv] at e; simp at e
    | throw x => rw [hv] at e; simp at e
    | ok s1 =>
      rw [hv] at e
      exact listed_connect (listed_visit (s := { s with table := touch s.table r.name })
        (listed_touch h r.name) hv) e

theorem listed_visitAll : ∀ {ps : List (List Ref)} {s s' : State}, InOrder s.table →
    visitAll ps s = .ok s' → InOrder s'.table
  | [], s, s', h, e => by
    simp only [visitAll, Outcome.ok.injEq] at e
    rw [← e]
    exact h
  | p :: ps, s, s', h, e => by
    simp only [visitAll] at e
    cases hv : visit [] p s with
    | ub => rw [hv] at e; simp at e
    | throw x => rw [hv] at e; simp at e
    | ok s1 =>
      rw [hv] at e
      exact listed_visitAll (listed_visit h hv) e

/-- If the room is used up there is a chain of relations. -/
theorem build_chain {t : Table} : ∀ {f : Nat} {n : Str}, build t f n = .ub →
    ∃ l : List Str, l.length = f ∧ (∀ m ∈ l, ∃ k, t.kind m = some k) ∧
      (∀ m ∈ l, m = n ∨ _root_.Relation.TransGen (Uses t) m n) ∧
      l.Pairwise (fun a b => _root_.Relation.TransGen (Uses t) b a)
  | 0, n, _ => ⟨[], rfl, by simp, by simp, List.Pairwise.nil⟩
  | f + 1, n, h => by
    have key : ∃ k m, t.kind n = some k ∧ Uses t m n ∧ build t f m = .ub := by
      rw [build] at h
      cases hk : t.kind n with
      | none => rw [hk] at h; simp at h
      | some k =>
        rw [hk] at h
        simp only at h
        cases hi : inputsOf k (t.data n) with
        | ub => exact absurd hi (inputsOf_defined _ _)
        | throw e => rw [hi] at h; simp at h
        | ok ins =>
          rw [hi] at h
          simp only [Outcome.bind_ok] at h
          cases ha : Outcome.mapM (build t f) ins with
          | ub =>
            obtain ⟨m, hm, e⟩ := Outcome.mapM_ub ha
            exact ⟨k, m, rfl, ⟨k, ins, hk, hi, .inl hm⟩, e⟩
          | throw e => rw [ha] at h; simp at h
          | ok as =>
            rw [ha] at h
            simp only [Outcome.bind_ok] at h
            by_cases hs : takesSubs k ins.length = true
            · rw [if_pos hs] at h
              cases hb : Outcome.mapM (build t f) (t.data n).subs with
              | ub =>
                obtain ⟨m, hm, e⟩ := Outcome.mapM_ub hb
                exact ⟨k, m, rfl, ⟨k, ins, hk, hi, .inr ⟨hs, hm⟩⟩, e⟩
              | throw e => rw [hb] at h; simp at h
              | ok bs => rw [hb] at h; simp at h
            · rw [if_neg hs] at h; simp at h
    obtain ⟨k, m, hk, hu, hm⟩ := key
    obtain ⟨l, h1, h2, h3, h4⟩ := build_chain hm
    have step : ∀ x ∈ l, _root_.Relation.TransGen (Uses t) x n := by
      intro x hx
      rcases h3 x hx with rfl | hx
      · exact .single hu
      · exact .tail hx hu
    refine ⟨n :: l, by simp [h1], ?_, ?_, List.pairwise_cons.mpr ⟨step, h4⟩⟩
    · intro x hx
      rcases List.mem_cons.mp hx with rfl | hx
      · exact ⟨k, hk⟩
      · exact h2 x hx
    · intro x hx
      rcases List.mem_cons.mp hx with rfl | hx
      · exact .inl rfl
      · exact .inr (step x hx)

theorem part_uses {t : Table} {m n : Str} (h : Part t n)
    (hu : _root_.Relation.TransGen (Uses t) m n) : Part t m := by
  induction hu with
  | single hu => exact .further h hu
  | tail _ hu ih => exact ih (.further h hu)

/-- As much room as there are relations, and one more, is enough. -/
theorem build_room {t : Table} (hl : InOrder t) {n : Str} (hp : Part t n)
    (h : ∀ m, Part t m → ¬ WithinItself t m) : build t (t.order.length + 1) n ≠ .ub := by
  intro e
  obtain ⟨l, h1, h2, h3, h4⟩ := build_chain e
  have hd : ¬ l.Nodup := by
    intro hd
    have := hd.length_le_of_subset (l₂ := t.order) fun m hm => by
      obtain ⟨k, hk⟩ := h2 m hm
      exact hl m k hk
    omega
  obtain ⟨a, ha, hr⟩ := pairwise_repeat h4 hd
  refine h a ?_ hr
  rcases h3 a ha with rfl | hu
  · exact hp
  · exact part_uses hp hu

theorem acc_irrefl {α : Type} {r : α → α → Prop} {a : α} (h0 : Acc r a) :
    ¬ _root_.Relation.TransGen r a a := by
  have key : ∀ {a}, Acc r a → Acc (_root_.Relation.TransGen r) a := by
    intro a h
    induction h with
    | intro x _ ih =>
      constructor
      intro y hy
      cases hy with
      | single hy => exact ih y hy
      | tail h1 h2 => exact (ih _ h2).inv h1
  have irr : ∀ {a}, Acc (_root_.Relation.TransGen r) a → ¬ _root_.Relation.TransGen r a a := by
    intro a h
    induction h with
    | intro x _ ih => exact fun e => ih x e e
  exact irr (key h0)

end Verif.Pipe

namespace Verif.Pipe

open Verif

theorem planRel_next {t : Table} {f : Nat} {n : Str} {o : Outcome Rel}
    (h : planRel t f n = some o) (hn : o ≠ .ub) : planRel t (f + 1) n = some o := by
  unfold planRel at h ⊢
  split at h
  · simp at h
  · split at h
    · simp at h
    · rename_i h1 h2
      rw [if_neg h1, if_neg h2]
      cases hw : (t.data n).news with
      | nil => rw [hw] at h; exact h
      | cons m l =>
        rw [hw] at h
        simp only [Option.some.injEq] at h ⊢
        subst h
        exact build_next hn

theorem planRel_none {t : Table} {f f' : Nat} {n : Str} (h : planRel t f n = none) :
    planRel t f' n = none := by
  unfold planRel at h ⊢
  split at h
  · rename_i h1; rw [if_pos h1]
  · split at h
    · rename_i h1 h2; rw [if_neg h1, if_pos h2]
    · cases hw : (t.data n).news with
      | nil => rw [hw] at h; simp at h
      | cons m l => rw [hw] at h; simp at h

theorem plans_next {t : Table} {f : Nat} : ∀ {l : List Str},
    Outcome.mapM id (l.filterMap (planRel t f)) ≠ .ub →
    Outcome.mapM id (l.filterMap (planRel t (f + 1))) = Outcome.mapM id (l.filterMap (planRel t f))
  | [], _ => rfl
  | n :: l, h => by
    cases hp : planRel t f n with
    | none =>
      have hp' : planRel t (f + 1) n = none := planRel_none hp
      simp only [List.filterMap_cons, hp, hp'] at h ⊢
      exact plans_next h
    | some o =>
      simp only [List.filterMap_cons, hp, Outcome.mapM, id] at h
      have ho : o ≠ .ub := by
        intro e
        rw [e] at h
        exact h rfl
      have hp' := planRel_next hp ho
      simp only [List.filterMap_cons, hp, hp', Outcome.mapM, id]
      cases o with
      | ub => exact absurd rfl ho
      | throw e => rfl
      | ok b =>
        simp only [Outcome.bind_ok] at h ⊢
        rw [plans_next (fun e => by rw [e] at h; exact h rfl)]

theorem binaryPlan_more {t : Table} {f : Nat} (h : binaryPlan t f ≠ .ub) : ∀ k,
    binaryPlan t (f + k) = binaryPlan t f
  | 0 => rfl
  | k + 1 => by
    have ih := binaryPlan_more h k
    rw [← ih, ← Nat.add_assoc]
    exact plans_next (l := t.order) (by
      intro e
      exact h (by rw [← ih]; exact e))

theorem planRel_part {t : Table} {f : Nat} {n : Str} {o : Outcome Rel} (hn : n ∈ t.order)
    (h : planRel t f n = some o) :
    (∃ r, o = .ok r) ∨ ∃ m, Part t m ∧ o = build t f m := by
  unfold planRel at h
  split at h
  · simp at h
  · split at h
    · simp at h
    · rename_i h1 h2
      cases hw : (t.data n).news with
      | nil =>
        rw [hw] at h
        simp only [Option.some.injEq] at h
        exact .inl ⟨_, h.symm⟩
      | cons m l =>
        rw [hw] at h
        simp only [Option.some.injEq] at h
        refine .inr ⟨m, .first hn (by simpa using h1) (by simpa using h2) hw, h.symm⟩

theorem part_planRel {t : Table} (f : Nat) {n m : Str} {l : List Str}
    (h1 : isSubquery t n = false) (h2 : (t.data n).start = none) (h3 : (t.data n).news = m :: l) :
    planRel t f n = some (build t f m) := by
  unfold planRel
  rw [if_neg (by simp [h1]), if_neg (by simp [h2]), h3]

/-- In a table that becomes a plan no relation is within itself. -/
theorem binaryPlan_apart {t : Table} {f : Nat} {rs : List Rel} (h : binaryPlan t f = .ok rs)
    {n : Str} (hp : Part t n) : Acc (Uses t) n := by
  induction hp with
  | @first n m l hn h1 h2 h3 =>
    have hm : build t f m ∈ t.order.filterMap (planRel t f) :=
      List.mem_filterMap.mpr ⟨n, hn, part_planRel f h1 h2 h3⟩
    obtain ⟨b, hb⟩ := Outcome.mapM_ok_all h _ hm
    exact build_accessible hb
  | further _ hu ih => exact ih.inv hu

theorem binaryPlan_room {t : Table} (hl : InOrder t) (h : ∀ m, Part t m → ¬ WithinItself t m) :
    binaryPlan t (t.order.length + 1) ≠ .ub := by
  intro e
  obtain ⟨o, ho, e⟩ := Outcome.mapM_ub e
  simp only [id] at e
  subst e
  obtain ⟨n, hn, hp⟩ := List.mem_filterMap.mp ho
  rcases planRel_part hn hp with ⟨r, hr⟩ | ⟨m, hm, hb⟩
  · simp at hr
  · exact build_room hl hm h hb.symm

theorem binaryPlan_no_throw {t : Table} (hc : Complete t) (f : Nat) (e : Exc) :
    binaryPlan t f ≠ .throw e := by
  refine Outcome.mapM_no_throw ?_ e
  intro o ho e' he
  simp only [id] at he
  subst he
  obtain ⟨n, hn, hp⟩ := List.mem_filterMap.mp ho
  rcases planRel_part hn hp with ⟨r, hr⟩ | ⟨m, hm, hb⟩
  · simp at hr
  · exact build_no_throw hc f m e' hb.symm

end Verif.Pipe

namespace Verif.Whole

open Verif

theorem listed_graphOf (l : List Sec.Symbol) (ts : List Rel.RelTree) :
    Pipe.InOrder (graphOf l ts) := by
  intro n k hk
  simp only [Pipe.Table.kind, graphOf] at hk
  cases hs : Sec.lookup l n with
  | none => rw [hs] at hk; simp at hk
  | some s =>
    rw [hs] at hk
    simp only [Option.map_some] at hk
    have hm : s ∈ l ∧ s.name = n := by
      unfold Sec.lookup at hs
      exact ⟨List.mem_of_find?_eq_some hs, by simpa using List.find?_some hs⟩
    refine List.mem_map.mpr ⟨s, List.mem_filter.mpr ⟨hm.1, ?_⟩, hm.2⟩
    cases hi : s.info <;> rw [hi] at hk <;> simp [entryOf] at hk <;> simp [isRelation]

theorem hasGraph_listed {lib : Literal.Lib} {ds : List Sec.PlanDetail} {t : Pipe.Table}
    (h : HasGraph lib ds t) : Pipe.InOrder t := by
  obtain ⟨st, g, done, -, -, h3, -, -, rfl⟩ := h
  exact Pipe.listed_visitAll (listed_graphOf _ _) h3

/-- What is done with the graph of a text. -/
theorem fromDetails_of_graph {lib : Literal.Lib} {ds : List Sec.PlanDetail} {t : Pipe.Table}
    (h : HasGraph lib ds t) : ∃ F : List Pipe.Rel → Outcome Binary,
      ∀ fuel, fromDetails lib fuel ds = (Pipe.binaryPlan t fuel).bind F := by
  obtain ⟨st, g, done, h1, h2, h3, h4, h5, rfl⟩ := h
  refine ⟨fun rs => (attachL st.symbols done rs).map fun bs =>
    ⟨Ext.binaryUris st.ext.table, Ext.binaryFunctions st.ext.table,
      namedAs ((Sec.rootNamesOf st.symbols).getD []) (Pipe.namedRels g.table) bs⟩, fun fuel => ?_⟩
  unfold fromDetails
  simp only [h1, Outcome.bind_ok, h2, if_true, h3, h4, h5]

theorem fromDetails_graph {lib : Literal.Lib} {ds : List Sec.PlanDetail} {fuel : Nat}
    {b : Binary} (h : fromDetails lib fuel ds = .ok b) :
    ∃ t rs, HasGraph lib ds t ∧ Pipe.binaryPlan t fuel = .ok rs := by
  unfold fromDetails at h
  obtain ⟨st, h1, h⟩ := Rel.bind_ok_iff h
  split at h
  · rename_i h2
    obtain ⟨g, h3, h⟩ := Rel.bind_ok_iff h
    split at h
    · rename_i h4
      obtain ⟨done, h5, h⟩ := Rel.bind_ok_iff h
      obtain ⟨rs, h6, h⟩ := Rel.bind_ok_iff h
      exact ⟨g.table, rs, ⟨st, g, done, h1, h2, h3, h4, h5, rfl⟩, h6⟩
    · simp at h
  · simp at h

/-- Without such a graph the room does not matter. -/
theorem fromDetails_more {lib : Literal.Lib} {ds : List Sec.PlanDetail} {fuel : Nat}
    (h : fromDetails lib fuel ds ≠ .ub) (k : Nat) :
    fromDetails lib (fuel + k) ds = fromDetails lib fuel ds := by
  unfold fromDetails at h ⊢
  refine Outcome.bind_more (fun _ => rfl) (fun st hs => ?_) h
  split at hs
  · rename_i h2
    rw [if_pos h2]
    refine (Outcome.bind_more (fun _ => rfl) (fun g hg => ?_) hs).trans (by rw [if_pos h2])
    split at hg
    · rename_i h4
      rw [if_pos h4]
      refine (Outcome.bind_more (fun _ => rfl) (fun done hd => ?_) hg).trans (by rw [if_pos h4])
      exact Outcome.bind_more (fun hb => Pipe.binaryPlan_more hb k) (fun _ _ => rfl) hd
    · rename_i h4
      rw [if_neg h4, if_neg h4]
  · rename_i h2
    rw [if_neg h2, if_neg h2]

end Verif.Whole
