import Verif.Spec.SymbolTable
import Verif.Lemmas.Strings

/-! Helper lemmas on locations and the symbol table. -/

namespace Verif

namespace Location

theorem eq_iff (a b : Location) : a.eq b = true ↔ a = b := by
  cases a <;> cases b <;> simp [eq]

theorem less_irrefl (a : Location) : less a a = false := by cases a <;> simp [less]

theorem less_trans {a b c : Location} (h1 : less a b = true) (h2 : less b c = true) :
    less a c = true := by
  cases a <;> cases b <;> cases c <;> simp_all [less] <;> omega

theorem less_total (a b : Location) : less a b = true ∨ a = b ∨ less b a = true := by
  cases a <;> cases b <;> simp [less] <;> omega

theorem equiv_iff (a b : Location) : (!less a b && !less b a) = true ↔ a = b := by
  constructor
  · intro h
    simp only [Bool.and_eq_true, Bool.not_eq_true'] at h
    rcases less_total a b with h1 | h1 | h1
    · rw [h1] at h; simp at h
    · exact h1
    · rw [h1] at h; simp at h
  · rintro rfl; simp [less_irrefl]

end Location

namespace Sym

variable {β : Type}

/-! ### Maps -/

theorem mapFind_insert {α : Type} (m : List (Str × α)) (k : Str) (v : α) (n : Str) :
    mapFind (mapInsert m k v) n =
      if n = k then some ((mapFind m k).getD v) else mapFind m n := by
  unfold mapInsert
  cases h : mapFind m k with
  | some w =>
    simp only [Option.isSome_some, if_true, Option.getD_some]
    split
    · rename_i e; rw [e, h]
    · rfl
  | none =>
    simp only [Option.isSome_none, Bool.false_eq_true, if_false, Option.getD_none]
    unfold mapFind at h ⊢
    rw [List.find?_append]
    split
    · rename_i e
      subst e
      rw [Option.map_eq_none_iff] at h
      rw [h]; simp
    · rename_i e
      have hkn : (k == n) = false := by simpa using fun h => e h.symm
      have : List.find? (fun e => e.1 == n) [(k, v)] = none := by
        simp [hkn]
      rw [this]
      cases List.find? (fun e => e.1 == n) m <;> rfl

theorem mapFind_set {α : Type} (m : List (Str × α)) (k : Str) (v : α) (n : Str)
    (h : (mapFind m k).isSome) :
    mapFind (mapSet m k v) n = if n = k then some v else mapFind m n := by
  unfold mapFind mapSet at *
  induction m with
  | nil => simp at h
  | cons e es ih =>
    simp only [List.map_cons, List.find?_cons]
    by_cases he : e.1 = k
    · subst he
      simp only [beq_self_eq_true, if_true]
      by_cases hn : n = e.1
      · subst hn; simp
      · have : (e.1 == n) = false := by simpa using fun h => hn h.symm
        simp only [this, if_neg hn]
        clear h ih
        congr 1
        induction es with
        | nil => rfl
        | cons x xs ih =>
          rw [List.map_cons, List.find?_cons, List.find?_cons, ih]
          by_cases hx : x.1 = e.1
          · have hx2 : (x.1 == n) = false := by rw [hx]; exact this
            have hx3 : (x.1 == e.1) = true := by simpa using hx
            simp only [hx3, if_true, this, hx2]
          · have hx3 : (x.1 == e.1) = false := by simpa using hx
            simp only [hx3, Bool.false_eq_true, if_false]
    · have hek : (e.1 == k) = false := by simpa using he
      simp only [hek, Bool.false_eq_true, if_false]
      simp only [List.find?_cons, hek] at h
      by_cases hn : n = e.1
      · subst hn
        simp [he]
      · have : (e.1 == n) = false := by simpa using fun h => hn h.symm
        simp only [this]
        exact ih h

/-! ### The multimap -/

/-- The order kept by the multimap. -/
def Sorted (m : List (Location × Nat)) : Prop :=
  m.Pairwise fun a b => Location.less b.1 a.1 = false

theorem mem_multiInsert {m : List (Location × Nat)} {k : Location} {v : Nat} {e : Location × Nat}
    (h : e ∈ multiInsert m k v) : e = (k, v) ∨ e ∈ m := by
  induction m with
  | nil => simpa [multiInsert] using h
  | cons x xs ih =>
    unfold multiInsert at h
    split at h
    · simpa using h
    · rcases List.mem_cons.mp h with h | h
      · exact Or.inr (by simp [h])
      · rcases ih h with h | h
        · exact Or.inl h
        · exact Or.inr (by simp [h])

theorem sorted_multiInsert {m : List (Location × Nat)} (hs : Sorted m) (k : Location) (v : Nat) :
    Sorted (multiInsert m k v) := by
  induction m with
  | nil => simp [multiInsert, Sorted]
  | cons x xs ih =>
    unfold Sorted at hs ih ⊢
    rw [List.pairwise_cons] at hs
    unfold multiInsert
    split
    · rename_i h
      rw [List.pairwise_cons]
      refine ⟨?_, List.pairwise_cons.mpr hs⟩
      intro e he
      have hxk : Location.less x.1 k = false := by
        rw [← Bool.not_eq_true]; intro h2
        have := Location.less_trans h h2
        rw [Location.less_irrefl] at this; cases this
      rcases List.mem_cons.mp he with rfl | he
      · exact hxk
      · rw [← Bool.not_eq_true]; intro h2
        have h3 := Location.less_trans h2 h
        rw [hs.1 e he] at h3; cases h3
    · rename_i h
      rw [List.pairwise_cons]
      refine ⟨?_, ih hs.2⟩
      intro e he
      rcases mem_multiInsert he with rfl | he
      · simpa using h
      · exact hs.1 e he

theorem multiRange_insert {m : List (Location × Nat)} (hs : Sorted m) (k : Location) (v : Nat)
    (l : Location) :
    multiRange (multiInsert m k v) l = multiRange m l ++ (if l = k then [v] else []) := by
  unfold multiRange
  have hp : (fun e : Location × Nat => !Location.less e.1 l && !Location.less l e.1) =
      fun e => decide (e.1 = l) := by
    funext e
    rw [Bool.eq_iff_iff, Location.equiv_iff]; simp
  rw [hp]
  induction m with
  | nil => by_cases h : l = k <;> simp [multiInsert, h, eq_comm]
  | cons x xs ih =>
    unfold Sorted at hs
    rw [List.pairwise_cons] at hs
    unfold multiInsert
    split
    · rename_i h
      by_cases hl : l = k
      · subst hl
        have hnone : List.filter (fun e => decide (e.1 = l)) (x :: xs) = [] := by
          rw [List.filter_eq_nil_iff]
          intro e he
          simp only [decide_eq_true_iff]
          rintro rfl
          rcases List.mem_cons.mp he with rfl | he
          · rw [Location.less_irrefl] at h; cases h
          · have := hs.1 e he
            rw [h] at this; cases this
        simp only [List.filter_cons, decide_true, if_true, List.map_cons]
        rw [List.filter_cons] at hnone
        rw [hnone]; rfl
      · have : ¬ (k = l) := fun e => hl e.symm
        rw [List.filter_cons]
        simp [this, hl]
    · have := ih hs.2
      simp only [List.filter_cons]
      split <;> simp_all

/-! ### `first`, `last`, `every` -/

theorem first_append_left {κ α : Type} [DecidableEq κ] (l r : List (κ × α)) (k : κ) (v : α)
    (h : first l k = some v) : first (l ++ r) k = some v := by
  unfold first at h ⊢
  rw [List.find?_append]
  cases hf : List.find? (fun e => e.1 == k) l with
  | none => rw [hf] at h; cases h
  | some x => rw [hf] at h; exact h

theorem first_append {κ α : Type} [DecidableEq κ] (l : List (κ × α)) (k : κ) (v : α) (n : κ) :
    first (l ++ [(k, v)]) n = if n = k then some ((first l k).getD v) else first l n := by
  unfold first
  rw [List.find?_append]
  by_cases h : n = k
  · subst h
    rw [if_pos rfl]
    cases List.find? (fun e => e.1 == n) l <;> simp
  · have : (k == n) = false := by simpa using fun e => h e.symm
    rw [if_neg h]
    cases List.find? (fun e => e.1 == n) l <;> simp [this]

theorem last_append {κ α : Type} [DecidableEq κ] (l : List (κ × α)) (k : κ) (v : α) (n : κ) :
    last (l ++ [(k, v)]) n = if n = k then some v else last l n := by
  unfold last first
  rw [List.reverse_append]
  simp only [List.reverse_cons, List.reverse_nil, List.nil_append, List.singleton_append,
    List.find?_cons]
  by_cases h : n = k
  · subst h; simp
  · have : (k == n) = false := by simpa using fun e => h e.symm
    simp [this, h]

theorem every_append {κ α : Type} [DecidableEq κ] (l : List (κ × α)) (k : κ) (v : α) (n : κ) :
    every (l ++ [(k, v)]) n = every l n ++ (if n = k then [v] else []) := by
  unfold every
  rw [List.filter_append, List.map_append]
  congr 1
  by_cases h : n = k
  · subst h; simp
  · have : (k == n) = false := by simpa using fun e => h e.symm
    simp [this, h]

/-! ### Finding a symbol -/

theorem equals_iff (s : Symbol β) (k : Key) : s.equals k = true ↔ s.key = k := by
  cases k
  simp [Symbol.equals, Symbol.key, Location.eq_iff, and_assoc]

theorem find_index {t : Table β} {g : Log β}
    (h : t.symbols.map (fun s => (s.key, s.payload)) = g.defs) (k : Key) :
    (∀ i, g.index? k = some i → t.findSymbolIndex k = i ∧ i < t.symbols.length) ∧
    (g.index? k = none → t.findSymbolIndex k = t.symbols.length) := by
  unfold Log.index? Table.findSymbolIndex
  rw [← h]
  generalize t.symbols = l
  have key : List.findIdx? (fun d : Key × β => d.1 == k) (l.map fun s => (s.key, s.payload)) =
      List.findIdx? (fun s => s.equals k) l := by
    rw [List.findIdx?_map]
    congr 1
    funext s
    rw [Bool.eq_iff_iff]
    simp [equals_iff]
  rw [key]
  constructor
  · intro i hi
    have := List.findIdx?_eq_some_iff_findIdx_eq.mp hi
    exact ⟨this.2, this.1⟩
  · intro hi
    rw [List.findIdx?_eq_none_iff] at hi
    rw [List.findIdx_eq_length]
    exact hi

theorem update_ok {t : Table β} {i : Nat} (h : i < t.symbols.length) (f : Symbol β → Symbol β) :
    t.update i f = .ok { t with symbols := t.symbols.modify i f } := by
  unfold Table.update; rw [if_pos h]

/-- Changes that keep the key and payload of the symbols keep the definitions. -/
theorem modify_defs (l : List (Symbol β)) (i : Nat) (f : Symbol β → Symbol β)
    (hf : ∀ s, ((f s).key, (f s).payload) = (s.key, s.payload)) :
    (l.modify i f).map (fun s => (s.key, s.payload)) = l.map fun s => (s.key, s.payload) := by
  induction l generalizing i with
  | nil => simp
  | cons s l ih => cases i <;> simp_all

theorem getElem?_modify' (l : List (Symbol β)) (i j : Nat) (f : Symbol β → Symbol β) (s : Symbol β)
    (h : (l.modify i f)[j]? = some s) :
    ∃ s0, l[j]? = some s0 ∧ s = if j = i then f s0 else s0 := by
  rw [List.getElem?_modify] at h
  cases hl : l[j]? with
  | none => rw [hl] at h; simp at h
  | some s0 =>
    rw [hl] at h
    refine ⟨s0, rfl, ?_⟩
    by_cases e : i = j
    · subst e; simpa using h.symm
    · have e' : ¬ j = i := fun h => e h.symm
      rw [if_neg e']
      simpa [e] using h.symm

theorem getElem?_concat (l : List (Symbol β)) (x s : Symbol β) (j : Nat)
    (h : (l ++ [x])[j]? = some s) : l[j]? = some s ∨ (j = l.length ∧ s = x) := by
  rw [List.getElem?_append] at h
  split at h
  · exact Or.inl h
  · right
    have : j - l.length = 0 := by
      cases hj : j - l.length with
      | zero => rfl
      | succ n => rw [hj] at h; simp at h
    rw [this] at h
    refine ⟨by omega, by simpa using h.symm⟩

end Sym
end Verif
