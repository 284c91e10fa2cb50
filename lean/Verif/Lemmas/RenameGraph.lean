import Verif.Model.Pipeline

/-! # The graph of a text with other names -/

namespace Verif.Pipe

open Verif

def Data.ren (ρ : Str → Str) (d : Data) : Data :=
  ⟨d.start.map ρ, d.cont.map ρ, d.news.map ρ, d.subs.map ρ⟩

def Entry.ren (ρ : Str → Str) : Entry → Entry
  | .rel k d => .rel k (d.ren ρ)
  | .other => .other

def Ref.ren (ρ : Str → Str) (r : Ref) : Ref := ⟨ρ r.name, ρ r.text⟩

def Err.ren (ρ : Str → Str) : Err → Err
  | .used n => .used (ρ n)
  | .loop n => .loop (ρ n)

/-- The table says of the other names what the first says of the names. -/
structure Turned (ρ : Str → Str) (t t' : Table) : Prop where
  order : t'.order = t.order.map ρ
  get : ∀ n, t'.get (ρ n) = (t.get n).map (Entry.ren ρ)

variable {ρ : Str → Str} {t t' : Table}

theorem beq_ren (hρ : ∀ {a b}, ρ a = ρ b → a = b) (a b : Str) : (ρ a == ρ b) = (a == b) := by
  by_cases e : a = b
  · rw [e, beq_self_eq_true, beq_self_eq_true]
  · rw [beq_eq_false_iff_ne.mpr e, beq_eq_false_iff_ne.mpr fun x => e (hρ x)]

theorem Turned.isRel (h : Turned ρ t t') (n : Str) : t'.isRel (ρ n) = t.isRel n := by
  unfold Table.isRel
  rw [h.get]
  cases t.get n with
  | none => rfl
  | some e => cases e <;> rfl

theorem Turned.data (h : Turned ρ t t') (n : Str) : t'.data (ρ n) = (t.data n).ren ρ := by
  unfold Table.data
  rw [h.get]
  cases t.get n with
  | none => rfl
  | some e => cases e <;> rfl

theorem Turned.kind (h : Turned ρ t t') (n : Str) : t'.kind (ρ n) = t.kind n := by
  unfold Table.kind
  rw [h.get]
  cases t.get n with
  | none => rfl
  | some e => cases e <;> rfl

theorem Turned.set (hρ : ∀ {a b}, ρ a = ρ b → a = b) (h : Turned ρ t t') (n : Str)
    (k : Option RelKind) (d : Data) : Turned ρ (t.set n k d) (t'.set (ρ n) k (d.ren ρ)) := by
  constructor
  · exact h.order
  · intro m
    unfold Table.set
    simp only
    by_cases e : m = n
    · rw [if_pos e, if_pos (congrArg ρ e)]
      rfl
    · rw [if_neg e, if_neg fun x => e (hρ x), h.get]

theorem Turned.touch (hρ : ∀ {a b}, ρ a = ρ b → a = b) (h : Turned ρ t t') (n : Str) :
    Turned ρ (touch t n) (touch t' (ρ n)) := by
  have hg := h.get n
  unfold Pipe.touch
  rw [hg]
  cases hn : t.get n with
  | some e => exact h
  | none =>
    rw [hn] at hg
    constructor
    · simp [Table.define, h.order]
    · intro m
      simp only [Table.define, Option.map_none, hg, hn]
      by_cases e : m = n
      · rw [if_pos e, if_pos (congrArg ρ e)]
        rfl
      · rw [if_neg e, if_neg fun x => e (hρ x), h.get]

theorem Turned.rightmost (h : Turned ρ t t') : ∀ ps : List Ref,
    rightmost t' (ps.map (Ref.ren ρ)) = (rightmost t ps).map (Option.map ρ)
  | [] => rfl
  | p :: ps => by
    simp only [List.map_cons, Pipe.rightmost]
    rw [show (Ref.ren ρ p).name = ρ p.name from rfl, h.isRel, h.data]
    split
    · simp only [Data.ren, Outcome.map]
      cases (t.data p.name).start <;> rfl
    · rfl

theorem Turned.leftOf (h : Turned ρ t t') : ∀ l : Option Ref,
    leftOf t' (l.map (Ref.ren ρ)) = (leftOf t l).map (Option.map ρ)
  | none => rfl
  | some l => by
    simp only [Option.map_some, Pipe.leftOf]
    rw [show (Ref.ren ρ l).name = ρ l.name from rfl, h.isRel]
    split <;> rfl

theorem link_ren (d : Data) (r l : Option Str) :
    link (d.ren ρ) (r.map ρ) (l.map ρ) = (link d r l).ren ρ := by
  cases r <;> cases l <;> simp [link, Data.ren]

theorem containsText_ren (hρ : ∀ {a b}, ρ a = ρ b → a = b) (ps : List Ref) (n : Str) :
    containsText (ps.map (Ref.ren ρ)) (ρ n) = containsText ps n := by
  unfold containsText
  rw [List.any_map]
  congr 1
  funext p
  exact beq_ren hρ _ _

structure Like (ρ : Str → Str) (s s' : State) : Prop where
  table : Turned ρ s.table s'.table
  errors : s'.errors = s.errors.map (Err.ren ρ)

/-- The same outcome, with other names. -/
def Likes (ρ : Str → Str) : Outcome State → Outcome State → Prop
  | .ok s, .ok s' => Like ρ s s'
  | .throw e, .throw e' => e = e'
  | .ub, .ub => True
  | _, _ => False

theorem Likes.bind {o o' : Outcome State} {f f' : State → Outcome State} (h : Likes ρ o o')
    (hf : ∀ s s', Like ρ s s' → Likes ρ (f s) (f' s')) : Likes ρ (o.bind f) (o'.bind f') := by
  cases o <;> cases o' <;> simp only [Likes] at h
  · exact hf _ _ h
  · exact h
  · exact trivial

theorem connect_ren (hρ : ∀ {a b}, ρ a = ρ b → a = b) {ps : List Ref} {r : Ref} {left : Option Ref}
    {s s' : State} (h : Like ρ s s') :
    Likes ρ (connect ps r left s)
      (connect (ps.map (Ref.ren ρ)) (r.ren ρ) (left.map (Ref.ren ρ)) s') := by
  unfold connect
  rw [show (Ref.ren ρ r).name = ρ r.name from rfl, h.table.get]
  cases hr : s.table.get r.name with
  | none => exact trivial
  | some e =>
    cases e with
    | other => exact h
    | rel k d =>
      simp only [Option.map_some, Entry.ren]
      rw [show (Data.ren ρ d).cont.isSome = d.cont.isSome by simp [Data.ren]]
      split
      · exact ⟨h.table, by simp [h.errors, Err.ren]⟩
      · rw [h.table.rightmost, containsText_ren hρ, h.table.leftOf]
        cases rightmost s.table ps with
        | throw e => rfl
        | ub => exact trivial
        | ok right =>
          simp only [Outcome.map, Outcome.bind_ok]
          split
          · exact ⟨h.table, by simp [h.errors, Err.ren]⟩
          · cases leftOf s.table left with
            | throw e => rfl
            | ub => exact trivial
            | ok l =>
              simp only [Outcome.bind_ok]
              rw [link_ren]
              exact ⟨h.table.set hρ _ _ _, h.errors⟩

theorem visit_ren (hρ : ∀ {a b}, ρ a = ρ b → a = b) : ∀ {rs ps : List Ref} {s s' : State},
    Like ρ s s' → Likes ρ (visit ps rs s) (visit (ps.map (Ref.ren ρ)) (rs.map (Ref.ren ρ)) s')
  | [], _, _, _, h => h
  | r :: rs, ps, s, s', h => by
    simp only [List.map_cons]
    unfold visit
    refine Likes.bind (visit_ren hρ (ps := r :: ps) ⟨h.table.touch hρ r.name, h.errors⟩) fun a b hab => ?_
    have := connect_ren hρ (ps := ps) (r := r) (left := rs.head?) hab
    rw [List.head?_map]
    exact this

theorem visitAll_ren (hρ : ∀ {a b}, ρ a = ρ b → a = b) : ∀ {ps : List (List Ref)} {s s' : State},
    Like ρ s s' → Likes ρ (visitAll ps s) (visitAll (ps.map (·.map (Ref.ren ρ))) s')
  | [], _, _, h => h
  | p :: ps, s, s', h => by
    simp only [List.map_cons]
    unfold visitAll
    exact (visit_ren hρ (ps := []) h).bind fun a b hab => visitAll_ren hρ hab

/-! ## The binary plan -/

mutual
def Rel.ren (ρ : Str → Str) : Rel → Rel
  | .node k n ins subs => .node k (ρ n) (Rel.renL ρ ins) (Rel.renL ρ subs)
def Rel.renL (ρ : Str → Str) : List Rel → List Rel
  | [] => []
  | r :: rs => Rel.ren ρ r :: Rel.renL ρ rs
end

theorem Rel.renL_eq : ∀ rs : List Rel, Rel.renL ρ rs = rs.map (Rel.ren ρ)
  | [] => by simp [Rel.renL]
  | r :: rs => by simp [Rel.renL, Rel.renL_eq rs]

theorem nextSingle_ren (d : Data) : nextSingle (d.ren ρ) = (nextSingle d).map ρ := by
  obtain ⟨s, c, n, u⟩ := d
  unfold nextSingle Data.ren
  cases c with
  | some c => rfl
  | none =>
    cases n with
    | nil => rfl
    | cons a n => cases n <;> rfl

theorem inputsOf_ren (k : RelKind) (d : Data) :
    inputsOf k (d.ren ρ) = (inputsOf k d).map (·.map ρ) := by
  unfold inputsOf
  cases shape k with
  | none => rfl
  | single => simp only [nextSingle_ren]; cases nextSingle d <;> rfl
  | binary => simp only [Data.ren, List.length_map, Outcome.map]; split <;> rfl
  | many => rfl

theorem mapM_ren {f f' : Str → Outcome Rel} (h : ∀ n, f' (ρ n) = (f n).map (Rel.ren ρ)) :
    ∀ ns : List Str, Outcome.mapM f' (ns.map ρ) = (Outcome.mapM f ns).map (·.map (Rel.ren ρ))
  | [] => rfl
  | n :: ns => by
    simp only [List.map_cons, Outcome.mapM_cons, h, mapM_ren h ns]
    cases f n with
    | throw e => rfl
    | ub => rfl
    | ok r => cases Outcome.mapM f ns <;> rfl

theorem Turned.build (h : Turned ρ t t') : ∀ (f : Nat) (n : Str),
    build t' f (ρ n) = (build t f n).map (Rel.ren ρ)
  | 0, _ => rfl
  | f + 1, n => by
    unfold Pipe.build
    rw [h.kind, h.data]
    cases t.kind n with
    | none => simp [Outcome.map, Rel.ren, Rel.renL]
    | some k =>
      simp only [inputsOf_ren]
      cases inputsOf k (t.data n) with
      | throw e => rfl
      | ub => rfl
      | ok ins =>
        simp only [Outcome.map, Outcome.bind_ok, mapM_ren (h.build f), List.length_map]
        cases Outcome.mapM (Pipe.build t f) ins with
        | throw e => rfl
        | ub => rfl
        | ok a =>
          simp only [Outcome.bind_ok]
          split
          · rw [show (Data.ren ρ (t.data n)).subs = (t.data n).subs.map ρ from rfl,
              mapM_ren (h.build f)]
            cases Outcome.mapM (Pipe.build t f) (t.data n).subs with
            | throw e => rfl
            | ub => rfl
            | ok b => simp [Outcome.map, Rel.ren, Rel.renL_eq]
          · simp [Rel.ren, Rel.renL, Rel.renL_eq]

theorem contains_ren (hρ : ∀ {a b}, ρ a = ρ b → a = b) (l : List Str) (n : Str) :
    (l.map ρ).contains (ρ n) = l.contains n := by
  induction l with
  | nil => rfl
  | cons m l ih =>
    rw [List.map_cons, List.contains_cons, List.contains_cons, ih, beq_ren hρ]

theorem Turned.isSubquery (hρ : ∀ {a b}, ρ a = ρ b → a = b) (h : Turned ρ t t') (n : Str) :
    isSubquery t' (ρ n) = isSubquery t n := by
  unfold Pipe.isSubquery
  rw [h.order, List.any_map]
  congr 1
  funext m
  simp only [Function.comp, h.data]
  exact contains_ren hρ _ _

theorem Turned.planRel (hρ : ∀ {a b}, ρ a = ρ b → a = b) (h : Turned ρ t t') (fuel : Nat) (n : Str) :
    planRel t' fuel (ρ n) = (planRel t fuel n).map (Outcome.map (Rel.ren ρ)) := by
  unfold Pipe.planRel
  rw [h.isSubquery hρ, h.data, h.kind,
    show (Data.ren ρ (t.data n)).start.isSome = (t.data n).start.isSome by simp [Data.ren]]
  split
  · rfl
  · split
    · rfl
    · simp only [Data.ren]
      cases (t.data n).news with
      | nil => simp [Outcome.map, Rel.ren, Rel.renL]
      | cons m l => simp [h.build]

theorem Turned.binaryPlan (hρ : ∀ {a b}, ρ a = ρ b → a = b) (h : Turned ρ t t') (fuel : Nat) :
    binaryPlan t' fuel = (binaryPlan t fuel).map (Rel.renL ρ) := by
  unfold Pipe.binaryPlan
  rw [h.order]
  generalize t.order = l
  induction l with
  | nil => rfl
  | cons n l ih =>
    simp only [List.map_cons, List.filterMap_cons, h.planRel hρ]
    cases Pipe.planRel t fuel n with
    | none => exact ih
    | some o =>
      simp only [Option.map_some, Outcome.mapM_cons, ih]
      cases o with
      | throw e => rfl
      | ub => rfl
      | ok r =>
        simp only [id, Outcome.map, Outcome.bind_ok]
        cases Outcome.mapM id (l.filterMap (Pipe.planRel t fuel)) with
        | throw e => rfl
        | ub => rfl
        | ok rs => simp [Rel.renL]

theorem Turned.namedRels (hρ : ∀ {a b}, ρ a = ρ b → a = b) (h : Turned ρ t t') :
    namedRels t' = namedRels t := by
  unfold Pipe.namedRels
  rw [h.order, List.filterMap_map]
  congr 1
  funext n
  simp only [Function.comp, hasNames, h.isSubquery hρ, h.data]
  simp [Data.ren]

end Verif.Pipe
