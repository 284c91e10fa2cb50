import Verif.Lemmas.WholeAgain

/-! # The tree that is read gets the names it had -/

namespace Verif.Whole

open Verif Verif.TyPb Verif.Literal Verif.Expr Verif.Schema

variable {ρ : Nat → Nat}

/-- The counters will hand out the same names. -/
def Alike (u u' : Counters) : Prop :=
  ∃ q q', Counted u q ∧ Counted u' q' ∧ ∀ b, q.count b = q'.count b

theorem Alike.name {u u' : Counters} (h : Alike u u') (b : Str) :
    (u.getUniqueName b).2 = (u'.getUniqueName b).2 := by
  obtain ⟨q, q', h1, h2, h3⟩ := h
  rw [h1.name, h2.name, h3]

theorem Alike.next {u u' : Counters} (h : Alike u u') (b : Str) :
    Alike (u.getUniqueName b).1 (u'.getUniqueName b).1 := by
  obtain ⟨q, q', h1, h2, h3⟩ := h
  refine ⟨_, _, h1.next b, h2.next b, fun c => ?_⟩
  rw [List.count_append, List.count_append, h3]

theorem alike_opt {u u' : Counters} (h : Alike u u') : ∀ o : Option Str,
    (takeOpt u o).2 = (takeOpt u' o).2 ∧ Alike (takeOpt u o).1 (takeOpt u' o).1
  | none => ⟨rfl, h⟩
  | some b => ⟨by simp only [takeOpt, h.name], h.next b⟩

theorem alike_all : ∀ (l : List Str) {u u' : Counters}, Alike u u' →
    (takeAll u l).2 = (takeAll u' l).2 ∧ Alike (takeAll u l).1 (takeAll u' l).1
  | [], _, _, h => ⟨rfl, h⟩
  | b :: l, u, u', h => by
    obtain ⟨h1, h2⟩ := alike_all l (h.next b)
    exact ⟨by simp only [takeAll, h.name, h1], h2⟩

theorem reference_renumber (e : PbExpr) : reference (renumber ρ e) = reference e := by
  rw [reference_said, reference_said, fieldOf_renumber]

theorem alike_items : ∀ (es : List PbExpr) {u u' : Counters}, Alike u u' →
    (takeItems u es).2 = (takeItems u' (es.map (renumber ρ))).2 ∧
      Alike (takeItems u es).1 (takeItems u' (es.map (renumber ρ))).1
  | [], _, _, h => ⟨rfl, h⟩
  | e :: es, u, u', h => by
    rw [List.map_cons, takeItems, takeItems, reference_renumber]
    cases reference e with
    | some i =>
      obtain ⟨h1, h2⟩ := alike_items es h
      exact ⟨by simp only [h1], h2⟩
    | none =>
      obtain ⟨h1, h2⟩ := alike_items es (h.next intermediate)
      exact ⟨by simp only [h.name, h1], h2⟩

theorem expressionsOf_renumber (b : Rel.Body) :
    expressionsOf (renumberBody ρ b) = (expressionsOf b).map (renumber ρ) := by
  cases b <;> rfl

theorem measuresOf_renumber (b : Rel.Body) :
    measuresOf (renumberBody ρ b) = (measuresOf b).map (renumberMeasure ρ) := by
  cases b <;> rfl

theorem kindOf_renumber (b : Rel.Body) : (renumberBody ρ b).kind = b.kind := by
  cases b <;> rfl

theorem alike_node {u u' : Counters} (h : Alike u u') (n : Names) (f : List Col) (o : Own) :
    (nameNode u o).2 = (nameNode u' (o.again ρ n f)).2 ∧
      Alike (nameNode u o).1 (nameNode u' (o.again ρ n f)).1 := by
  have e1 : (o.again ρ n f).baseSchema = o.baseSchema := by
    simp only [Own.baseSchema, Own.again, isRead_renumber]
  have e2 : (o.again ρ n f).readSource = o.readSource := by
    simp only [Own.readSource, Own.again, isRead_renumber]
  have e3 : expressionsOf (o.again ρ n f).body = (expressionsOf o.body).map (renumber ρ) :=
    expressionsOf_renumber _
  have e4 : ((measuresOf (o.again ρ n f).body).map fun _ => "measurename".toList) =
      (measuresOf o.body).map fun _ => "measurename".toList := by
    simp only [Own.again, measuresOf_renumber, List.map_map, Function.comp_def]
  have e5 : (o.again ρ n f).body.kind = o.body.kind := kindOf_renumber _
  unfold nameNode
  simp only [e1, e2, e3, e4, e5]
  obtain ⟨a1, a2⟩ := alike_opt h (o.baseSchema.map fun _ => "schema".toList)
  obtain ⟨b1, b2⟩ := alike_opt a2 (o.readSource.map sourceBase)
  obtain ⟨c1, c2⟩ := alike_items (ρ := ρ) (expressionsOf o.body) b2
  obtain ⟨d1, d2⟩ := alike_all ((measuresOf o.body).map fun _ => "measurename".toList) c2
  exact ⟨by rw [a1, b1, c1, d1, d2.name], d2.next _⟩

mutual
theorem nameTree_again : ∀ (r : BRel) {u u' : Counters}, Alike u u' →
    (nameTree u' (erase (again ρ (nameTree u r).2))).2 = again ρ (nameTree u r).2 ∧
      Alike (nameTree u r).1 (nameTree u' (erase (again ρ (nameTree u r).2))).1
  | .node o kids, u, u', h => by
    obtain ⟨h1, h2⟩ := nameTrees_again kids h
    rw [nameTree]
    simp only
    rw [again, erase, nameTree]
    simp only
    rw [h1]
    obtain ⟨h3, h4⟩ := alike_node (ρ := ρ) h2 { (nameNode (nameTrees u kids).1 o).2 with
      queries := (queriesIn o.body (nameTrees u kids).2).map (·.names.rel) }
      (inCols o (nameTrees u kids).2) o
    refine ⟨?_, h4⟩
    rw [← h3]
    congr 2
    simp only [Own.again]
    rw [queriesIn_renumber, againL_map, queriesIn_map, List.map_map]
    apply List.map_congr_left
    intro x _
    simp only [Function.comp, again_names]
theorem nameTrees_again : ∀ (rs : List BRel) {u u' : Counters}, Alike u u' →
    (nameTrees u' (eraseL (againL ρ (nameTrees u rs).2))).2 = againL ρ (nameTrees u rs).2 ∧
      Alike (nameTrees u rs).1 (nameTrees u' (eraseL (againL ρ (nameTrees u rs).2))).1
  | [], _, _, h => ⟨rfl, h⟩
  | r :: rs, u, u', h => by
    obtain ⟨h1, h2⟩ := nameTree_again r h
    obtain ⟨h3, h4⟩ := nameTrees_again rs h2
    rw [nameTrees]
    simp only
    rw [againL, eraseL, nameTrees]
    simp only
    rw [h1, h3]
    exact ⟨rfl, h4⟩
end

end Verif.Whole
