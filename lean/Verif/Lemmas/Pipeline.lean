import Verif.Spec.Pipeline

/-!
# Reading the pipelines section
-/

namespace Verif.Pipe

open Verif

/-- Plain references. -/
def plain (q : List Str) : List Ref := q.map fun n => ⟨n, n⟩

theorem containsText_plain (ps : List Str) (n : Str) :
    containsText (plain ps) n = true ↔ n ∈ ps := by
  simp [containsText, plain]

theorem head_plain (q : List Str) : (plain q).head? = q.head?.map fun n => ⟨n, n⟩ := by
  cases q <;> rfl

/-- The relations listed in the table are the relations there are. -/
def Listed (t : Table) : Prop := t.order.Nodup ∧ ∀ n, n ∈ t.order ↔ t.isRel n = true

theorem isRel_iff {t : Table} {n : Str} :
    t.isRel n = true ↔ ∃ k d, t.get n = some (.rel k d) := by
  unfold Table.isRel
  split
  · rename_i k d h; simp [h]
  · rename_i h
    simp only [Bool.false_eq_true, false_iff]
    rintro ⟨k, d, he⟩
    exact h k d he

/-- What reading pipelines never changes. -/
structure Steps (s s' : State) : Prop where
  kinds : ∀ n k d, s.table.get n = some (.rel k d) → ∃ d', s'.table.get n = some (.rel k d') ∧
    d'.subs = d.subs ∧ (d.cont.isSome = true → d'.cont.isSome = true)
  others : ∀ n, s'.table.get n = some .other ↔ s.table.get n = some .other
  new : ∀ n, s.table.get n = none → s'.table.get n = none ∨
    ∃ d', s'.table.get n = some (.rel (some .unknown) d') ∧ d'.subs = []
  listed : Listed s.table → Listed s'.table
  errs : ∃ es, s'.errors = s.errors ++ es

theorem Steps.refl (s : State) : Steps s s :=
  ⟨fun _ _ d h => ⟨d, h, rfl, id⟩, fun _ => Iff.rfl, fun _ h => .inl h, id, [], by simp⟩

theorem Steps.trans {a b c : State} (h : Steps a b) (h' : Steps b c) : Steps a c := by
  refine ⟨?_, fun n => (h'.others n).trans (h.others n), ?_, fun l => h'.listed (h.listed l), ?_⟩
  · intro n k d hd
    obtain ⟨d1, e1, s1, c1⟩ := h.kinds n k d hd
    obtain ⟨d2, e2, s2, c2⟩ := h'.kinds n k d1 e1
    exact ⟨d2, e2, s2.trans s1, fun x => c2 (c1 x)⟩
  · intro n hn
    rcases h.new n hn with e | ⟨d1, e1, s1⟩
    · exact h'.new n e
    · obtain ⟨d2, e2, s2, -⟩ := h'.kinds n _ d1 e1
      exact .inr ⟨d2, e2, s2.trans s1⟩
  · obtain ⟨x, hx⟩ := h.errs
    obtain ⟨y, hy⟩ := h'.errs
    exact ⟨x ++ y, by rw [hy, hx, List.append_assoc]⟩

theorem Steps.isRel {s s' : State} (h : Steps s s') {n : Str} (hn : s.table.isRel n = true) :
    s'.table.isRel n = true := by
  obtain ⟨k, d, e⟩ := isRel_iff.mp hn
  obtain ⟨d', e', -⟩ := h.kinds n k d e
  exact isRel_iff.mpr ⟨k, d', e'⟩

/-! ## The steps -/

theorem get_touch (t : Table) (n m : Str) : (touch t n).get m =
    if m = n then some ((t.get n).getD (.rel (some .unknown) Data.empty)) else t.get m := by
  unfold touch
  split
  · rename_i h
    simp [Table.define, h]
  · rename_i e h
    by_cases hm : m = n
    · subst hm; simp [h]
    · simp [hm]

theorem data_touch (t : Table) (n m : Str) : (touch t n).data m = t.data m := by
  unfold Table.data
  rw [get_touch]
  by_cases hm : m = n
  · subst hm
    cases h : t.get m with
    | none => simp
    | some e => simp
  · simp [hm]

theorem isRel_touch {t : Table} {n : Str} (h : ¬ IsOther t n) : (touch t n).isRel n = true := by
  rw [isRel_iff, get_touch]
  simp only [if_true]
  cases he : t.get n with
  | none => exact ⟨_, _, rfl⟩
  | some e =>
    cases e with
    | rel k d => exact ⟨k, d, rfl⟩
    | other => exact absurd he h

theorem steps_touch (s : State) (n : Str) : Steps s { s with table := touch s.table n } := by
  refine ⟨?_, ?_, ?_, ?_, [], by simp⟩
  · intro m k d h
    refine ⟨d, ?_, rfl, id⟩
    show (touch s.table n).get m = _
    rw [get_touch]
    by_cases hm : m = n
    · subst hm; simp [h]
    · simp [hm, h]
  · intro m
    show (touch s.table n).get m = _ ↔ _
    rw [get_touch]
    by_cases hm : m = n
    · subst hm
      cases h : s.table.get m with
      | none => simp
      | some e => simp
    · simp [hm]
  · intro m h
    show (touch s.table n).get m = _ ∨ _
    by_cases hm : m = n
    · right
      subst hm
      refine ⟨Data.empty, ?_, rfl⟩
      show (touch s.table m).get m = _
      rw [get_touch]; simp [h]
    · left
      rw [get_touch]; simp [hm, h]
  · rintro ⟨h1, h2⟩
    show Listed (touch s.table n)
    unfold touch
    split
    · rename_i h
      have hno : n ∉ s.table.order := by
        rw [h2, isRel_iff]
        rintro ⟨k, d, e⟩
        rw [h] at e; simp at e
      refine ⟨?_, fun m => ?_⟩
      · simp only [Table.define]
        rw [List.nodup_append]
        refine ⟨h1, by simp, ?_⟩
        intro a ha b hb
        simp only [List.mem_singleton] at hb
        subst hb
        exact fun e => hno (e ▸ ha)
      · simp only [Table.define, List.mem_append, List.mem_singleton, isRel_iff]
        by_cases hm : m = n
        · subst hm; simp [h]
        · simp only [hm, or_false, if_false]
          rw [h2, isRel_iff]
    · exact ⟨h1, h2⟩

theorem steps_error (s : State) (e : Err) : Steps s { s with errors := s.errors ++ [e] } :=
  ⟨fun _ _ d h => ⟨d, h, rfl, id⟩, fun _ => Iff.rfl, fun _ h => .inl h, id, [e], rfl⟩

theorem link_subs (d : Data) (a b : Option Str) : (link d a b).subs = d.subs := by
  cases a <;> cases b <;> rfl

theorem steps_set (s : State) (n : Str) (k : Option RelKind) (d : Data) (a b : Option Str)
    (h : s.table.get n = some (.rel k d)) (hc : d.cont.isSome = false) :
    Steps s { s with table := s.table.set n k (link d a b) } := by
  refine ⟨?_, ?_, ?_, ?_, [], by simp⟩
  · intro m k' d' h'
    by_cases hm : m = n
    · subst hm
      rw [h] at h'
      simp only [Option.some.injEq, Entry.rel.injEq] at h'
      obtain ⟨rfl, rfl⟩ := h'
      exact ⟨link d a b, by simp [Table.set], link_subs _ _ _, by simp [hc]⟩
    · exact ⟨d', by simp [Table.set, hm, h'], rfl, id⟩
  · intro m
    by_cases hm : m = n
    · subst hm; simp [Table.set, h]
    · simp [Table.set, hm]
  · intro m h'
    by_cases hm : m = n
    · subst hm; rw [h] at h'; simp at h'
    · left; simp [Table.set, hm, h']
  · rintro ⟨h1, h2⟩
    refine ⟨h1, fun m => ?_⟩
    show m ∈ s.table.order ↔ _
    rw [h2, isRel_iff, isRel_iff]
    by_cases hm : m = n
    · subst hm; simp [Table.set, h]
    · simp [Table.set, hm]

theorem data_set (t : Table) (n m : Str) (k : Option RelKind) (d : Data) :
    (t.set n k d).data m = if m = n then d else t.data m := by
  unfold Table.data
  by_cases hm : m = n
  · simp [Table.set, hm]
  · simp [Table.set, hm]

/-! ## A whole pipeline -/

/-- What a pipeline does to the data of the relations, if it is accepted. -/
def after (parents : List Str) : List Str → (Str → Data) → Str → Data
  | [], d => d
  | r :: rest, d => fun n =>
    if n = r then
      link (d r) (parents.head?.map fun q => ((d q).start).getD q) rest.head?
    else after (r :: parents) rest d n

theorem after_not_mem : ∀ (q parents : List Str) (d : Str → Data) (n : Str), n ∉ q →
    after parents q d n = d n
  | [], _, _, _, _ => rfl
  | r :: rest, parents, d, n, h => by
    simp only [List.mem_cons, not_or] at h
    simp only [after, h.1, if_false]
    exact after_not_mem rest _ d n h.2

/-- What is asked of a pipeline. -/
def Fine (parents q : List Str) (d : Str → Data) : Prop :=
  q.Nodup ∧ (∀ n ∈ q, n ∉ parents) ∧ ∀ n ∈ q, (d n).cont = none

theorem visit_plain : ∀ (q parents : List Str) (s : State),
    (∀ n ∈ q, ¬ IsOther s.table n) → (∀ n ∈ parents, s.table.isRel n = true) →
    ∃ s', visit (plain parents) (plain q) s = .ok s' ∧ Steps s s' ∧
      (∀ n ∈ q, s'.table.isRel n = true) ∧
      (Fine parents q s.table.data → s'.errors = s.errors ∧
        s'.table.data = after parents q s.table.data) ∧
      (¬ Fine parents q s.table.data → ∃ e es, s'.errors = s.errors ++ e :: es)
  | [], parents, s, _, _ => ⟨s, rfl, Steps.refl s, by simp, fun _ => ⟨rfl, rfl⟩,
      fun h => absurd ⟨List.nodup_nil, by simp, by simp⟩ h⟩
  | r :: rest, parents, s, ho, hp => by
    have ht := steps_touch s r
    have hrr : (touch s.table r).isRel r = true := isRel_touch (ho r (by simp))
    obtain ⟨s1, e1, st1, hr1, hf1, hn1⟩ := visit_plain rest (r :: parents)
      { s with table := touch s.table r }
      (fun n hn hc => ho n (by simp [hn]) ((ht.others n).mp hc))
      (fun n hn => by
        rcases List.mem_cons.mp hn with rfl | hn
        · exact hrr
        · exact ht.isRel (hp n hn))
    have hdt : (touch s.table r).data = s.table.data := funext (data_touch s.table r)
    simp only [hdt] at hf1 hn1
    have st : Steps s s1 := ht.trans st1
    have hr : s1.table.isRel r = true := st1.isRel hrr
    obtain ⟨k, d, hd⟩ := isRel_iff.mp hr
    have hdata : s1.table.data r = d := by simp [Table.data, hd]
    have hdk : (s.table.data r).cont.isSome = true → d.cont.isSome = true := by
      intro hc
      obtain ⟨k0, d0, h0⟩ := isRel_iff.mp hrr
      obtain ⟨d', h1, -, h3⟩ := st1.kinds r k0 d0 h0
      rw [hd] at h1
      simp only [Option.some.injEq, Entry.rel.injEq] at h1
      rw [h1.2]
      apply h3
      have : s.table.data r = d0 := by rw [← hdt]; simp [Table.data, h0]
      rwa [this] at hc
    have herr : ∀ e, (∃ es, s1.errors = s.errors ++ es) →
        ∃ e' es, s1.errors ++ [e] = s.errors ++ e' :: es := by
      rintro e ⟨es, h⟩
      rw [h, List.append_assoc]
      cases es with
      | nil => exact ⟨e, [], rfl⟩
      | cons x es => exact ⟨x, es ++ [e], rfl⟩
    have hvisit : visit (plain parents) (plain (r :: rest)) s =
        connect (plain parents) ⟨r, r⟩ (plain rest).head? s1 := by
      show Outcome.bind (visit (⟨r, r⟩ :: plain parents) (plain rest)
        { s with table := touch s.table r }) _ = _
      have : (⟨r, r⟩ :: plain parents : List Ref) = plain (r :: parents) := rfl
      rw [this, e1]
      rfl
    have hall : ∀ t : Table, (∀ n, s1.table.isRel n = true → t.isRel n = true) →
        ∀ n ∈ r :: rest, t.isRel n = true := by
      intro t h n hn
      rcases List.mem_cons.mp hn with rfl | hn
      · exact h _ hr
      · exact h _ (hr1 n hn)
    rw [hvisit]
    unfold connect
    simp only [hd]
    by_cases hc : d.cont.isSome = true
    · simp only [hc, if_true]
      refine ⟨_, rfl, st.trans (steps_error s1 _), hall _ fun _ => id, ?_, ?_⟩
      · rintro ⟨hnd, hdis, hcont⟩
        exfalso
        obtain ⟨-, hda⟩ := hf1 ⟨(List.nodup_cons.mp hnd).2, fun n hn hm => by
          rcases List.mem_cons.mp hm with rfl | hm
          · exact (List.nodup_cons.mp hnd).1 hn
          · exact hdis n (by simp [hn]) hm, fun n hn => hcont n (by simp [hn])⟩
        have := hcont r (by simp)
        rw [hda, after_not_mem _ _ _ _ (List.nodup_cons.mp hnd).1] at hdata
        rw [← hdata, this] at hc
        simp at hc
      · intro _
        exact herr _ st.errs
    · have hc' : d.cont.isSome = false := by simpa using hc
      simp only [hc', Bool.false_eq_true, if_false]
      have hright : rightmost s1.table (plain parents) =
          .ok (parents.head?.map fun q => (s1.table.data q).start.getD q) := by
        cases parents with
        | nil => rfl
        | cons p ps =>
          have : s1.table.isRel p = true := st.isRel (hp p (by simp))
          simp [plain, rightmost, this]
      rw [hright]
      simp only [Outcome.bind_ok]
      by_cases hl : r ∈ parents
      · rw [if_pos ((containsText_plain parents r).mpr hl)]
        refine ⟨_, rfl, st.trans (steps_error s1 _), hall _ fun _ => id, ?_, ?_⟩
        · rintro ⟨-, hdis, -⟩
          exact absurd hl (hdis r (by simp))
        · intro _
          exact herr _ st.errs
      · rw [if_neg (fun h => hl ((containsText_plain parents r).mp h))]
        have hleft : leftOf s1.table (plain rest).head? = .ok rest.head? := by
          cases rest with
          | nil => rfl
          | cons p ps =>
            have : s1.table.isRel p = true := hr1 p (by simp)
            simp [plain, leftOf, this]
        rw [hleft]
        simp only [Outcome.bind_ok]
        have stset := steps_set s1 r k d
          (parents.head?.map fun q => (s1.table.data q).start.getD q) rest.head? hd hc'
        refine ⟨_, rfl, st.trans stset, hall _ fun n hn => stset.isRel hn, ?_, ?_⟩
        · rintro ⟨hnd, hdis, hcont⟩
          obtain ⟨he, hda⟩ := hf1 ⟨(List.nodup_cons.mp hnd).2, fun n hn hm => by
            rcases List.mem_cons.mp hm with rfl | hm
            · exact (List.nodup_cons.mp hnd).1 hn
            · exact hdis n (by simp [hn]) hm, fun n hn => hcont n (by simp [hn])⟩
          refine ⟨he, ?_⟩
          funext n
          show (s1.table.set r k _).data n = _
          rw [data_set]
          simp only [after]
          by_cases hnr : n = r
          · subst hnr
            simp only [if_true]
            rw [hda, after_not_mem _ _ _ _ (List.nodup_cons.mp hnd).1] at hdata
            rw [← hdata]
            congr 1
            cases parents with
            | nil => rfl
            | cons p ps =>
              simp only [List.head?_cons, Option.map_some]
              rw [hda, after_not_mem]
              intro hp'
              exact hdis p (by simp [hp']) (by simp)
          · simp only [hnr, if_false]
            rw [hda]
        · intro hnf
          apply hn1
          rintro ⟨a1, a2, a3⟩
          refine hnf ⟨?_, ?_, ?_⟩
          · rw [List.nodup_cons]
            exact ⟨fun hm => a2 r hm (by simp), a1⟩
          · intro n hn
            rcases List.mem_cons.mp hn with rfl | hn
            · exact hl
            · exact fun hm => a2 n hn (by simp [hm])
          · intro n hn
            rcases List.mem_cons.mp hn with rfl | hn
            · cases hcc : (s.table.data n).cont with
              | none => rfl
              | some x => exact absurd (hdk (by simp [hcc])) hc
            · exact a3 n hn

/-! ## The data after a pipeline -/

theorem after_at (n : Str) (b : List Str) (d : Str → Data) : ∀ (a parents : List Str), n ∉ a →
    after parents (a ++ n :: b) d n =
      link (d n) (((a.reverse ++ parents).head?).map fun q => (d q).start.getD q) b.head?
  | [], parents, _ => by simp [after]
  | r :: a, parents, h => by
    simp only [List.mem_cons, not_or] at h
    simp only [List.cons_append, after, h.1, if_false]
    rw [after_at n b d a (r :: parents) h.2]
    simp

/-- A pipeline from left to right. -/
theorem after_split (u v : List Str) (n : Str) (d : Str → Data) (h : n ∉ v) :
    after [] (u ++ n :: v).reverse d n =
      link (d n) (v.head?.map fun q => (d q).start.getD q) u.getLast? := by
  have := after_at n u.reverse d v.reverse [] (by simpa using h)
  simpa using this

theorem nodup_split {p u v u' v' : List Str} {n : Str} (hp : p.Nodup) (h : p = u ++ n :: v)
    (h' : p = u' ++ n :: v') : u = u' ∧ v = v' := by
  have hnu : n ∉ u := by
    subst h
    rw [List.nodup_append] at hp
    exact fun hm => hp.2.2 n hm n (by simp) rfl
  have hnu' : n ∉ u' := by
    rw [h', List.nodup_append] at hp
    exact fun hm => hp.2.2 n hm n (by simp) rfl
  subst h
  have : ∀ (u u' : List Str), n ∉ u → n ∉ u' → u ++ n :: v = u' ++ n :: v' → u = u' ∧ v = v' := by
    intro u
    induction u with
    | nil =>
      intro u' _ h2 e
      cases u' with
      | nil => simpa using e
      | cons x u' =>
        simp only [List.nil_append, List.cons_append, List.cons.injEq] at e
        exact absurd (by simp [e.1]) h2
    | cons y u ih =>
      intro u' h1 h2 e
      cases u' with
      | nil =>
        simp only [List.nil_append, List.cons_append, List.cons.injEq] at e
        exact absurd (by simp [e.1]) h1
      | cons x u' =>
        simp only [List.cons_append, List.cons.injEq] at e
        simp only [List.mem_cons, not_or] at h1 h2
        obtain ⟨e1, e2⟩ := ih u' h1.2 h2.2 e.2
        exact ⟨by rw [e.1, e1], e2⟩
  exact this u u' hnu hnu' h'

theorem nodup_not_right {p u v : List Str} {n : Str} (hp : p.Nodup) (h : p = u ++ n :: v) :
    n ∉ v := by
  subst h
  rw [List.nodup_append] at hp
  exact (List.nodup_cons.mp hp.2.1).1

theorem mem_split {p : List Str} {n : Str} (h : n ∈ p) : ∃ u v, p = u ++ n :: v :=
  List.append_of_mem h

theorem getLast_concat {u : List Str} {l : Str} : u.getLast? = some l ↔ ∃ a, u = a ++ [l] := by
  constructor
  · intro h
    rcases List.eq_nil_or_concat u with rfl | ⟨a, x, rfl⟩
    · simp at h
    · simp at h
      exact ⟨a, by rw [h]; simp⟩
  · rintro ⟨a, rfl⟩
    simp

theorem feeder_some {p : List Str} {x l : Str} : feeder x p = some l ↔ ∃ a, p = a ++ [l, x] := by
  unfold feeder
  constructor
  · intro h
    split at h
    · rename_i y l' r he
      split at h
      · rename_i hy
        simp only [Option.some.injEq] at h
        subst h hy
        refine ⟨r.reverse, ?_⟩
        have := congrArg List.reverse he
        simpa using this
      · simp at h
    · simp at h
  · rintro ⟨a, rfl⟩
    simp

theorem after_news {p : List Str} (hp : p.Nodup) (d : Str → Data) (n : Str) :
    (after [] p.reverse d n).news = (d n).news ++ (feeder n p).toList := by
  by_cases hn : n ∈ p
  · obtain ⟨u, v, rfl⟩ := mem_split hn
    rw [after_split u v n d (nodup_not_right hp rfl)]
    cases v with
    | nil =>
      cases hu : u.getLast? with
      | none =>
        have : u = [] := by simpa using hu
        subst this
        simp [link, feeder]
      | some l =>
        obtain ⟨a, rfl⟩ := getLast_concat.mp hu
        rw [feeder_some.mpr (⟨a, by simp⟩ : ∃ b, a ++ [l] ++ [n] = b ++ [l, n])]
        simp [link]
    | cons r v =>
      have hf : feeder n (u ++ n :: r :: v) = none := by
        cases hc : feeder n (u ++ n :: r :: v) with
        | none => rfl
        | some l =>
          obtain ⟨a, ha⟩ := feeder_some.mp hc
          have := (nodup_split hp rfl (ha.trans (by simp : a ++ [l, n] = (a ++ [l]) ++ n :: []))).2
          simp at this
      rw [hf]
      cases u.getLast? <;> simp [link]
  · rw [after_not_mem _ _ _ _ (by simpa using hn)]
    have hf : feeder n p = none := by
      cases hc : feeder n p with
      | none => rfl
      | some l =>
        obtain ⟨a, ha⟩ := feeder_some.mp hc
        exact absurd (by simp [ha]) hn
    simp [hf]

theorem after_cont {p : List Str} (hp : p.Nodup) (d : Str → Data) (n l : Str) :
    (after [] p.reverse d n).cont = some l ↔
      ((d n).cont = some l ∧ ¬ Inner p n) ∨ ∃ a r b, p = a ++ l :: n :: r :: b := by
  by_cases hn : n ∈ p
  · obtain ⟨u, v, rfl⟩ := mem_split hn
    rw [after_split u v n d (nodup_not_right hp rfl)]
    have hin : Inner (u ++ n :: v) n ↔ u ≠ [] ∧ v ≠ [] := by
      constructor
      · rintro ⟨a, l, r, b, h⟩
        obtain ⟨h1, h2⟩ := nodup_split hp rfl
          (h.trans (by simp : a ++ l :: n :: r :: b = (a ++ [l]) ++ n :: r :: b))
        rw [h1, h2]
        simp
      · rintro ⟨h1, h2⟩
        cases v with
        | nil => exact absurd rfl h2
        | cons r v =>
          cases hl : u.getLast? with
          | none => exact absurd (by simpa using hl) h1
          | some l =>
            obtain ⟨a, rfl⟩ := getLast_concat.mp hl
            exact ⟨a, l, r, v, by simp⟩
    have hx : (∃ a r b, u ++ n :: v = a ++ l :: n :: r :: b) ↔ u.getLast? = some l ∧ v ≠ [] := by
      constructor
      · rintro ⟨a, r, b, h⟩
        obtain ⟨h1, h2⟩ := nodup_split hp rfl
          (h.trans (by simp : a ++ l :: n :: r :: b = (a ++ [l]) ++ n :: r :: b))
        rw [h1, h2]
        simp
      · rintro ⟨h1, h2⟩
        cases v with
        | nil => exact absurd rfl h2
        | cons r v =>
          obtain ⟨a, rfl⟩ := getLast_concat.mp h1
          exact ⟨a, r, v, by simp⟩
    rw [hin, hx]
    cases v with
    | nil =>
      cases hu : u.getLast? <;> simp [link]
    | cons r v =>
      cases hu : u.getLast? with
      | none =>
        have : u = [] := by simpa using hu
        subst this
        simp [link]
      | some l' =>
        have : u ≠ [] := by
          rintro rfl
          simp at hu
        simp [link, this]
  · rw [after_not_mem _ _ _ _ (by simpa using hn)]
    constructor
    · intro h
      refine .inl ⟨h, ?_⟩
      rintro ⟨a, l, r, b, rfl⟩
      simp at hn
    · rintro (⟨h, -⟩ | ⟨a, r, b, rfl⟩)
      · exact h
      · simp at hn

theorem after_cont_none {p : List Str} (hp : p.Nodup) (d : Str → Data) (n : Str) :
    (after [] p.reverse d n).cont = none ↔ (d n).cont = none ∧ ¬ Inner p n := by
  constructor
  · intro h
    have hno : ∀ l, ¬ (after [] p.reverse d n).cont = some l := by rw [h]; simp
    have hin : ¬ Inner p n := by
      rintro ⟨a, l, r, b, e⟩
      exact hno l ((after_cont hp d n l).mpr (.inr ⟨a, r, b, e⟩))
    refine ⟨?_, hin⟩
    cases hc : (d n).cont with
    | none => rfl
    | some l => exact absurd ((after_cont hp d n l).mpr (.inl ⟨hc, hin⟩)) (hno l)
  · rintro ⟨h1, h2⟩
    cases hc : (after [] p.reverse d n).cont with
    | none => rfl
    | some l =>
      rcases (after_cont hp d n l).mp hc with ⟨h, -⟩ | ⟨a, r, b, e⟩
      · rw [h1] at h; simp at h
      · exact absurd ⟨a, l, r, b, e⟩ h2

theorem after_start {p : List Str} (hp : p.Nodup) (d : Str → Data) (n : Str) :
    (after [] p.reverse d n).start.isSome = true ↔
      (d n).start.isSome = true ∨ ∃ r, Feeds p n r := by
  by_cases hn : n ∈ p
  · obtain ⟨u, v, rfl⟩ := mem_split hn
    rw [after_split u v n d (nodup_not_right hp rfl)]
    have hx : (∃ r, Feeds (u ++ n :: v) n r) ↔ v ≠ [] := by
      constructor
      · rintro ⟨r, a, b, h⟩
        rw [(nodup_split hp rfl h).2]
        simp
      · intro h
        cases v with
        | nil => exact absurd rfl h
        | cons r v => exact ⟨r, u, v, rfl⟩
    rw [hx]
    cases v <;> cases u.getLast? <;> simp [link]
  · rw [after_not_mem _ _ _ _ (by simpa using hn)]
    constructor
    · exact .inl
    · rintro (h | ⟨r, a, b, rfl⟩)
      · exact h
      · simp at hn

/-! ## A whole section -/

/-- The data of the relations after pipelines that are all accepted. -/
def afterAll : List (List Str) → (Str → Data) → Str → Data
  | [], d => d
  | p :: ps, d => afterAll ps (after [] p.reverse d)

/-- What is asked of a section, with data to start with. -/
structure FineAll (ps : List (List Str)) (d : Str → Data) : Prop where
  nodup : ∀ p ∈ ps, p.Nodup
  free : ∀ p ∈ ps, ∀ x ∈ p, (d x).cont = none
  apart : ps.Pairwise fun p q => ∀ x, Inner p x → x ∉ q

theorem nodup_reverse (l : List Str) : l.reverse.Nodup ↔ l.Nodup :=
  (List.reverse_perm l).nodup_iff

theorem fine_iff {p : List Str} {d : Str → Data} :
    Fine [] p.reverse d ↔ p.Nodup ∧ ∀ x ∈ p, (d x).cont = none := by
  unfold Fine
  rw [nodup_reverse]
  simp

theorem fineAll_cons {p : List Str} {ps : List (List Str)} {d : Str → Data} :
    FineAll (p :: ps) d ↔ Fine [] p.reverse d ∧ FineAll ps (after [] p.reverse d) := by
  rw [fine_iff]
  constructor
  · rintro ⟨h1, h2, h3⟩
    rw [List.pairwise_cons] at h3
    refine ⟨⟨h1 p (by simp), h2 p (by simp)⟩, fun q hq => h1 q (by simp [hq]), ?_, h3.2⟩
    intro q hq x hx
    rw [after_cont_none (h1 p (by simp))]
    exact ⟨h2 q (by simp [hq]) x hx, fun hi => h3.1 q hq x hi hx⟩
  · rintro ⟨⟨h1, h2⟩, h3, h4, h5⟩
    refine ⟨?_, ?_, List.pairwise_cons.mpr ⟨?_, h5⟩⟩
    · intro q hq
      rcases List.mem_cons.mp hq with rfl | hq
      · exact h1
      · exact h3 q hq
    · intro q hq x hx
      rcases List.mem_cons.mp hq with rfl | hq
      · exact h2 x hx
      · exact ((after_cont_none h1 d x).mp (h4 q hq x hx)).1
    · intro q hq x hi hx
      exact ((after_cont_none h1 d x).mp (h4 q hq x hx)).2 hi

theorem visitAll_plain : ∀ (ps : List (List Str)) (s : State),
    (∀ p ∈ ps, ∀ n ∈ p, ¬ IsOther s.table n) →
    ∃ s', visitAll (ps.map refs) s = .ok s' ∧ Steps s s' ∧
      (∀ p ∈ ps, ∀ n ∈ p, s'.table.isRel n = true) ∧
      (FineAll ps s.table.data → s'.errors = s.errors ∧
        s'.table.data = afterAll ps s.table.data) ∧
      (¬ FineAll ps s.table.data → ∃ e es, s'.errors = s.errors ++ e :: es)
  | [], s, _ => ⟨s, rfl, Steps.refl s, by simp, fun _ => ⟨rfl, rfl⟩,
      fun h => absurd ⟨by simp, by simp, by simp⟩ h⟩
  | p :: ps, s, ho => by
    obtain ⟨s1, e1, st1, hr1, hf1, hn1⟩ := visit_plain p.reverse [] s
      (fun n hn => ho p (by simp) n (by simpa using hn)) (by simp)
    obtain ⟨s2, e2, st2, hr2, hf2, hn2⟩ := visitAll_plain ps s1
      (fun q hq n hn hc => ho q (by simp [hq]) n hn ((st1.others n).mp hc))
    refine ⟨s2, ?_, st1.trans st2, ?_, ?_, ?_⟩
    · show Outcome.bind (visit [] (refs p) s) _ = _
      have : visit [] (refs p) s = .ok s1 := e1
      rw [this]
      exact e2
    · intro q hq n hn
      rcases List.mem_cons.mp hq with rfl | hq
      · exact st2.isRel (hr1 n (by simpa using hn))
      · exact hr2 q hq n hn
    · intro h
      obtain ⟨h1, h2⟩ := fineAll_cons.mp h
      obtain ⟨a1, a2⟩ := hf1 h1
      rw [← a2] at h2
      obtain ⟨b1, b2⟩ := hf2 h2
      refine ⟨b1.trans a1, ?_⟩
      rw [b2, a2]
      rfl
    · intro h
      by_cases hf : Fine [] p.reverse s.table.data
      · obtain ⟨a1, a2⟩ := hf1 hf
        rw [← a1]
        apply hn2
        intro h2
        rw [a2] at h2
        exact h (fineAll_cons.mpr ⟨hf, h2⟩)
      · obtain ⟨e, es, he⟩ := hn1 hf
        obtain ⟨es', he'⟩ := st2.errs
        exact ⟨e, es ++ es', by rw [he', he]; simp⟩

theorem afterAll_news : ∀ (ps : List (List Str)) (d : Str → Data) (n : Str),
    (∀ p ∈ ps, p.Nodup) → (afterAll ps d n).news = (d n).news ++ ps.filterMap (feeder n)
  | [], d, n, _ => by simp [afterAll]
  | p :: ps, d, n, h => by
    rw [afterAll, afterAll_news ps _ n (fun q hq => h q (by simp [hq])),
      after_news (h p (by simp))]
    rw [List.filterMap_cons]
    cases feeder n p <;> simp

theorem afterAll_start : ∀ (ps : List (List Str)) (d : Str → Data) (n : Str),
    (∀ p ∈ ps, p.Nodup) → ((afterAll ps d n).start.isSome = true ↔
      (d n).start.isSome = true ∨ ∃ p ∈ ps, ∃ r, Feeds p n r)
  | [], d, n, _ => by simp [afterAll]
  | p :: ps, d, n, h => by
    rw [afterAll, afterAll_start ps _ n (fun q hq => h q (by simp [hq])),
      after_start (h p (by simp))]
    simp only [List.mem_cons, exists_eq_or_imp, or_assoc]

theorem after_start_same {p : List Str} (hp : p.Nodup) (d : Str → Data) (n : Str)
    (h : ∀ r, ¬ Feeds p n r) : (after [] p.reverse d n).start = (d n).start := by
  by_cases hn : n ∈ p
  · obtain ⟨u, v, rfl⟩ := mem_split hn
    rw [after_split u v n d (nodup_not_right hp rfl)]
    cases v with
    | nil => cases u.getLast? <;> simp [link]
    | cons r v => exact absurd ⟨u, v, rfl⟩ (h r)
  · rw [after_not_mem _ _ _ _ (by simpa using hn)]

theorem afterAll_start_same : ∀ (ps : List (List Str)) (d : Str → Data) (n : Str),
    (∀ p ∈ ps, p.Nodup) → (∀ p ∈ ps, ∀ r, ¬ Feeds p n r) → (afterAll ps d n).start = (d n).start
  | [], _, _, _, _ => rfl
  | p :: ps, d, n, h, hf => by
    rw [afterAll, afterAll_start_same ps _ n (fun q hq => h q (by simp [hq]))
      (fun q hq => hf q (by simp [hq])), after_start_same (h p (by simp)) d n (hf p (by simp))]

theorem afterAll_append : ∀ (ps qs : List (List Str)) (d : Str → Data),
    afterAll (ps ++ qs) d = afterAll qs (afterAll ps d)
  | [], _, _ => rfl
  | p :: ps, qs, d => by simp only [List.cons_append, afterAll, afterAll_append ps]

/-- Where a relation starts that stands in front of another in one pipeline only. -/
theorem afterAll_start_at {ps qs : List (List Str)} {a b : List Str} {n m : Str} {d : Str → Data}
    (hp : ∀ p ∈ ps ++ (a ++ n :: m :: b) :: qs, p.Nodup) (hn : ∀ p ∈ qs, ∀ r, ¬ Feeds p n r)
    (hm : ∀ p ∈ ps, ∀ r, ¬ Feeds p m r) (hd : (d m).start = none) :
    (afterAll (ps ++ (a ++ n :: m :: b) :: qs) d n).start = some m := by
  have hnd := hp (a ++ n :: m :: b) (by simp)
  rw [afterAll_append, afterAll, afterAll_start_same qs _ n (fun p h => hp p (by simp [h])) hn,
    after_split a (m :: b) n _ (nodup_not_right hnd rfl)]
  have : (afterAll ps d m).start = none := by
    rw [afterAll_start_same ps d m (fun p h => hp p (by simp [h])) hm, hd]
  cases a.getLast? <;> simp [link, this]

theorem afterAll_cont : ∀ (ps : List (List Str)) (d : Str → Data) (n l : Str),
    FineAll ps d → ((afterAll ps d n).cont = some l ↔
      (d n).cont = some l ∨ ∃ p ∈ ps, ∃ a r b, p = a ++ l :: n :: r :: b)
  | [], d, n, l, _ => by simp [afterAll]
  | p :: ps, d, n, l, h => by
    obtain ⟨h1, h2⟩ := fineAll_cons.mp h
    rw [afterAll, afterAll_cont ps _ n l h2, after_cont (h.nodup p (by simp))]
    simp only [List.mem_cons, exists_eq_or_imp]
    constructor
    · rintro ((⟨a, -⟩ | a) | a)
      · exact .inl a
      · exact .inr (.inl a)
      · exact .inr (.inr a)
    · rintro (a | a | a)
      · refine .inl (.inl ⟨a, fun hi => ?_⟩)
        obtain ⟨u, l', r, b, e⟩ := hi
        have := h.free p (by simp) n (by simp [e])
        rw [a] at this; simp at this
      · exact .inl (.inr a)
      · exact .inr a

end Verif.Pipe
