import Verif.Spec.Declared
import Verif.Lemmas.WholeAgainText
import Verif.Lemmas.WholeAgainNames

/-! # Another order of the declarations of a binary plan -/

namespace Verif.Whole

open Verif Verif.Expr

/-! ## Functions -/

/-- The same functions, with the same one for each number. -/
structure Paired (l l' : List Ext.FunSym) : Prop where
  perm : l.Perm l'
  find : ∀ a : Nat, l.find? (fun f => f.anchor = a) = l'.find? fun f => f.anchor = a

theorem Paired.refl (l : List Ext.FunSym) : Paired l l := ⟨.refl _, fun _ => rfl⟩

theorem Paired.snoc {l l' : List Ext.FunSym} (h : Paired l l') (f : Ext.FunSym) :
    Paired (l ++ [f]) (l' ++ [f]) :=
  ⟨h.perm.append_right _, fun a => by rw [List.find?_append, List.find?_append, h.find]⟩

theorem Paired.two {l l' : List Ext.FunSym} (h : Paired l l') {f g : Ext.FunSym}
    (hn : f.anchor ≠ g.anchor) : Paired (l ++ [f] ++ [g]) (l' ++ [g] ++ [f]) := by
  refine ⟨?_, fun a => ?_⟩
  · rw [List.append_assoc, List.append_assoc]
    exact h.perm.append (List.Perm.swap _ _ _)
  · simp only [List.append_assoc, List.find?_append, h.find a, List.singleton_append, List.find?_cons,
      List.find?_nil]
    congr 1
    by_cases h1 : f.anchor = a <;> by_cases h2 : g.anchor = a <;> simp [h1, h2]
    exact (hn (h1.trans h2.symm)).elim

theorem paired_same : ∀ (fs : List Ext.PbFunction) {u u' : Counters} {l l' : List Ext.FunSym},
    Alike u u' → Paired l l' →
    Alike (fs.foldl Ext.addFunction (u, l)).1 (fs.foldl Ext.addFunction (u', l')).1 ∧
      Paired (fs.foldl Ext.addFunction (u, l)).2 (fs.foldl Ext.addFunction (u', l')).2
  | [], _, _, _, _, h, h' => ⟨h, h'⟩
  | f :: fs, u, u', l, l', h, h' => by
    have e := h.name (Ext.shortName f.name)
    rw [List.foldl_cons, List.foldl_cons]
    refine paired_same fs (h.next (Ext.shortName f.name)) ?_
    simp only [e]
    exact h'.snoc _

theorem name_apart {u : Counters} {q : List Str} (h : Counted u q) {a b : Str} (hn : a ≠ b) :
    ((u.getUniqueName a).1.getUniqueName b).2 = (u.getUniqueName b).2 := by
  rw [(h.next a).name, h.name, List.count_append,
    List.count_eq_zero.mpr (show b ∉ [a] by simpa using Ne.symm hn), Nat.add_zero]

theorem Alike.counted {u u' : Counters} (h : Alike u u') : Alike u u := by
  obtain ⟨q, -, h1, -, -⟩ := h
  exact ⟨q, q, h1, h1, fun _ => rfl⟩

theorem Alike.symm {u u' : Counters} (h : Alike u u') : Alike u' u := by
  obtain ⟨q, q', h1, h2, h3⟩ := h
  exact ⟨q', q, h2, h1, fun b => (h3 b).symm⟩

theorem uniqueText_count {b : Str} {m n : Nat} (h : Sym.uniqueText b m = Sym.uniqueText b n) : m = n := by
  unfold Sym.uniqueText at h
  by_cases hm : m = 0 <;> by_cases hn : n = 0 <;> simp only [hm, hn, if_true, if_false] at h ⊢
  · have h := congrArg List.length h
    have := natText_ne_nil (n + 1)
    cases hx : natText (n + 1) with
    | nil => exact absurd hx this
    | cons c l => simp [hx] at h
  · have h := congrArg List.length h
    have := natText_ne_nil (m + 1)
    cases hx : natText (m + 1) with
    | nil => exact absurd hx this
    | cons c l => simp [hx] at h
  · have := natText_inj (List.append_cancel_left h)
    omega

theorem Alike.trans {u v w : Counters} (h : Alike u v) (h' : Alike v w)
    : Alike u w := by
  obtain ⟨q, q1, h1, h2, h3⟩ := h
  obtain ⟨q2, q', h4, h5, h6⟩ := h'
  refine ⟨q, q', h1, h5, fun b => ?_⟩
  have e := h2.name b
  rw [h4.name b] at e
  rw [h3, ← h6]
  exact (uniqueText_count e).symm

theorem paired_shuffled {fs fs' : List Ext.PbFunction} (hm : Shuffled fs fs') :
    ∀ {u u' : Counters} {l l' : List Ext.FunSym}, Alike u u' → Paired l l' →
    Alike (fs.foldl Ext.addFunction (u, l)).1 (fs'.foldl Ext.addFunction (u', l')).1 ∧
      Paired (fs.foldl Ext.addFunction (u, l)).2 (fs'.foldl Ext.addFunction (u', l')).2 := by
  induction hm with
  | nil => exact fun h h' => ⟨h, h'⟩
  | cons f _ ih =>
    intro u u' l l' h h'
    have e := h.name (Ext.shortName f.name)
    rw [List.foldl_cons, List.foldl_cons]
    refine ih (h.next (Ext.shortName f.name)) ?_
    simp only [e]
    exact h'.snoc _
  | swap f g fs hs ha =>
    intro u u' l l' h h'
    simp only [List.foldl_cons]
    obtain ⟨q, q', h1, h2, h3⟩ := h
    refine paired_same fs ⟨_, _, (h1.next _).next _, (h2.next _).next _, fun b => ?_⟩ ?_
    · simp only [List.count_append, h3]
      omega
    · have e1 := name_apart h1 hs
      have e2 := name_apart h2 (Ne.symm hs)
      have e3 : ∀ b, (u.getUniqueName b).2 = (u'.getUniqueName b).2 := fun b => by
        rw [h1.name, h2.name, h3]
      simp only [Ext.addFunction, e1, e2, e3]
      exact h'.two ha
  | trans _ _ ih1 ih2 =>
    intro u u' l l' h h'
    obtain ⟨a1, a2⟩ := ih1 h.counted (Paired.refl l)
    obtain ⟨b1, b2⟩ := ih2 h h'
    exact ⟨a1.trans b1, a2.perm.trans b2.perm, fun a => (a2.find a).trans (b2.find a)⟩

/-! ## Names -/

theorem alike_sameItems : ∀ (es : List PbExpr) {u u' : Counters}, Alike u u' →
    (takeItems u es).2 = (takeItems u' es).2 ∧ Alike (takeItems u es).1 (takeItems u' es).1
  | [], _, _, h => ⟨rfl, h⟩
  | e :: es, u, u', h => by
    rw [takeItems, takeItems]
    cases reference e with
    | some i =>
      obtain ⟨h1, h2⟩ := alike_sameItems es h
      exact ⟨by simp only [h1], h2⟩
    | none =>
      obtain ⟨h1, h2⟩ := alike_sameItems es (h.next intermediate)
      exact ⟨by simp only [h.name, h1], h2⟩

theorem alike_sameNode {u u' : Counters} (h : Alike u u') (o : Own) :
    (nameNode u o).2 = (nameNode u' o).2 ∧ Alike (nameNode u o).1 (nameNode u' o).1 := by
  unfold nameNode
  obtain ⟨a1, a2⟩ := alike_opt h (o.baseSchema.map fun _ => "schema".toList)
  obtain ⟨b1, b2⟩ := alike_opt a2 (o.readSource.map sourceBase)
  obtain ⟨c1, c2⟩ := alike_sameItems (expressionsOf o.body) b2
  obtain ⟨d1, d2⟩ := alike_all ((measuresOf o.body).map fun _ => "measurename".toList) c2
  exact ⟨by simp only [a1, b1, c1, d1, d2.name], d2.next _⟩

mutual
theorem alike_tree : ∀ (r : BRel) {u u' : Counters}, Alike u u' →
    (nameTree u r).2 = (nameTree u' r).2 ∧ Alike (nameTree u r).1 (nameTree u' r).1
  | .node o kids, u, u', h => by
    obtain ⟨h1, h2⟩ := alike_trees kids h
    obtain ⟨h3, h4⟩ := alike_sameNode h2 o
    rw [nameTree, nameTree]
    exact ⟨by simp only [h1, h3], h4⟩
theorem alike_trees : ∀ (rs : List BRel) {u u' : Counters}, Alike u u' →
    (nameTrees u rs).2 = (nameTrees u' rs).2 ∧ Alike (nameTrees u rs).1 (nameTrees u' rs).1
  | [], _, _, h => ⟨rfl, h⟩
  | r :: rs, u, u', h => by
    obtain ⟨h1, h2⟩ := alike_tree r h
    obtain ⟨h3, h4⟩ := alike_trees rs h2
    rw [nameTrees, nameTrees]
    exact ⟨by simp only [h1, h3], h4⟩
end

/-! ## The text -/

theorem treeText_functions {lib : Literal.Lib} {sort : Ext.Sorter} {t t' : Ext.Table}
    (h : ∀ a, functionName t a = functionName t' a) (hb : Ext.blocks sort t = Ext.blocks sort t')
    (fuel : Nat) (names : List Str) (root : Str) (r : NRel) :
    treeText sort fuel ⟨lib, t⟩ names root r = treeText sort fuel ⟨lib, t'⟩ names root r := by
  have hn : nodeText ⟨lib, t⟩ = nodeText ⟨lib, t'⟩ := by
    funext outer x
    unfold nodeText printContext
    simp only [funext h]
  unfold treeText
  rw [hn]
  simp only [hb]

end Verif.Whole
