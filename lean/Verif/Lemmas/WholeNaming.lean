import Verif.Lemmas.WholeAttach
import Verif.Prop.SymbolTable

/-! # The names the converter makes up -/

namespace Verif.Whole

open Verif Verif.TyPb Verif.Expr Verif.Schema

/-- The counters after these requests. -/
def Counted (u : Counters) (q : List Str) : Prop := ∃ g, Sym.Inv u g ∧ g.requests = q

theorem counted_empty : Counted Sym.Table.empty [] := ⟨_, Sym.inv_empty, rfl⟩

theorem Counted.name {u : Counters} {q : List Str} (h : Counted u q) (b : Str) :
    (u.getUniqueName b).2 = Sym.uniqueText b (q.count b) := by
  obtain ⟨g, h, rfl⟩ := h
  exact h.shows.unique b

theorem Counted.next {u : Counters} {q : List Str} (h : Counted u q) (b : Str) :
    Counted (u.getUniqueName b).1 (q ++ [b]) := by
  obtain ⟨g, h, rfl⟩ := h
  exact ⟨_, Sym.inv_unique h b, rfl⟩

theorem issued_append : ∀ (a b q : List Str),
    Sym.issued q (a ++ b) = Sym.issued q a ++ Sym.issued (q ++ a) b
  | [], b, q => by simp [Sym.issued]
  | x :: a, b, q => by
    rw [List.cons_append, Sym.issued, Sym.issued, issued_append a b]
    simp

/-- These names are handed out in the relations of a plan, one after the other. -/
def Made (u u' : Counters) (l : List Str) : Prop :=
  ∀ q, Counted u q → ∃ bs, (∀ b ∈ bs, b ∈ bases.tail) ∧ l = Sym.issued q bs ∧ Counted u' (q ++ bs)

theorem Made.nil (u : Counters) : Made u u [] := fun q h => ⟨[], by simp, rfl, by simpa using h⟩

theorem Made.one (u : Counters) {b : Str} (hb : b ∈ bases.tail) :
    Made u (u.getUniqueName b).1 [(u.getUniqueName b).2] := fun q h =>
  ⟨[b], by simpa using hb, by rw [h.name]; rfl, h.next b⟩

theorem Made.append {u v w : Counters} {a b : List Str} (h1 : Made u v a) (h2 : Made v w b) :
    Made u w (a ++ b) := by
  intro q hq
  obtain ⟨x, x1, x2, x3⟩ := h1 q hq
  obtain ⟨y, y1, y2, y3⟩ := h2 _ x3
  refine ⟨x ++ y, ?_, ?_, by rw [← List.append_assoc]; exact y3⟩
  · intro z hz
    rcases List.mem_append.mp hz with hz | hz
    · exact x1 z hz
    · exact y1 z hz
  · rw [issued_append, x2, y2]

/-! ## One relation -/

theorem made_opt (u : Counters) : ∀ (o : Option Str), (∀ b, o = some b → b ∈ bases.tail) →
    Made u (takeOpt u o).1 (takeOpt u o).2.toList
  | none, _ => Made.nil u
  | some b, h => Made.one u (h b rfl)

theorem made_all : ∀ (l : List Str) (u : Counters), (∀ b ∈ l, b ∈ bases.tail) →
    Made u (takeAll u l).1 (takeAll u l).2
  | [], u, _ => Made.nil u
  | b :: l, u, h => (Made.one u (h b (by simp))).append (made_all l _ fun x hx => h x (by simp [hx]))

theorem takeAll_length : ∀ (l : List Str) (u : Counters), (takeAll u l).2.length = l.length
  | [], _ => rfl
  | b :: l, u => by simp [takeAll, takeAll_length l]

theorem itemLabels_cons (x : Str) (c : List Str) : ∀ (es : List PbExpr) (k : Nat),
    itemLabels (x :: c) (k + 1) es = itemLabels c k es
  | [], _ => rfl
  | e :: es, k => by
    rw [itemLabels, itemLabels, itemLabels_cons x c es (k + 1), List.getElem?_cons_succ]

theorem made_items : ∀ (es : List PbExpr) (u : Counters),
    Made u (takeItems u es).1 (itemLabels (takeItems u es).2 0 es)
  | [], u => Made.nil u
  | e :: es, u => by
    rw [itemLabels, takeItems, reference_said]
    cases Rel.fieldOf e with
    | some i =>
      simp only [List.nil_append]
      rw [itemLabels_cons]
      exact made_items es u
    | none =>
      simp only [List.getElem?_cons_zero, Option.getD_some]
      rw [itemLabels_cons]
      exact (Made.one u (by decide)).append (made_items es _)

theorem made_kind {lib : Literal.Lib} {fn : Known} {ks : List Bool} {emit : List Int}
    {b : Rel.Body} (h : BodyFits lib fn ks emit b) : Rel.kindText b.kind ∈ bases.tail := by
  have key : ∀ k : Enum.RelType, k ≠ .set → Rel.kindText k ∈ bases.tail := by
    intro k hk
    cases k <;> first | exact absurd rfl hk | decide
  refine key _ ?_
  cases b <;> first | exact False.elim h | (simp only [Rel.Body.kind]; decide)

theorem made_node {lib : Literal.Lib} {fn : Known} {ks : List Bool} {o : Own}
    (u : Counters) (hb : BodyFits lib fn ks o.emit o.body) (ht : TablesFit o) :
    Made u (nameNode u o).1 (ownLabels (nameNode u o).2 o) := by
  unfold ownLabels nameNode
  refine (made_opt u _ ?_).append ((made_opt _ _ ?_).append ((made_items _ _).append
    ((made_all _ _ ?_).append (Made.one _ (made_kind hb)))))
  · intro b h
    obtain ⟨_, -, rfl⟩ := Option.map_eq_some_iff.mp h
    decide
  · intro b h
    obtain ⟨t, e, rfl⟩ := Option.map_eq_some_iff.mp h
    unfold Own.readSource at e
    unfold TablesFit at ht
    split at e
    · next hr =>
      rw [if_pos hr] at ht
      obtain ⟨-, t', e', h'⟩ := ht
      rw [e] at e'
      injection e' with e'
      subst e'
      cases h' with
      | named _ _ _ => exact (by decide : "named".toList ∈ bases.tail)
      | files _ _ => exact (by decide : "local".toList ∈ bases.tail)
    · simp at e
  · intro b h
    obtain ⟨_, -, rfl⟩ := List.mem_map.mp h
    decide

theorem wellNamed_node (u : Counters) {o : Own} (ht : TablesFit o) (qs : List Str) :
    WellNamed { (nameNode u o).2 with queries := qs } o qs where
  reads := by
    intro hr
    unfold TablesFit at ht
    rw [if_pos hr] at ht
    obtain ⟨⟨t, e, -⟩, t', e', -⟩ := ht
    unfold nameNode Own.baseSchema Own.readSource
    simp only [hr, if_true, e, e', Option.map_some]
    exact ⟨⟨_, rfl⟩, _, rfl⟩
  others := by
    intro hr
    unfold nameNode Own.baseSchema Own.readSource
    simp only [hr, Bool.false_eq_true, if_false, Option.map_none]
    exact ⟨rfl, rfl⟩
  measures := by
    unfold nameNode
    simp only
    rw [takeAll_length, List.length_map]
  queries := rfl

/-! ## The tree -/

mutual
theorem made_tree {lib : Literal.Lib} {fn : Known} : ∀ (r : BRel) (u : Counters),
    TreeLoose lib fn r → Made u (nameTree u r).1 (labels (nameTree u r).2) ∧
      erase (nameTree u r).2 = r ∧ AllNamed (nameTree u r).2
  | .node o ins, u, h => by
    rw [TreeLoose] at h
    obtain ⟨h1, h2, -, -, h5⟩ := h
    obtain ⟨a, b, c⟩ := made_trees ins u h5
    rw [nameTree, labels, erase]
    exact ⟨a.append (made_node _ h1 h2), by rw [b], wellNamed_node _ h2 _, c⟩
theorem made_trees {lib : Literal.Lib} {fn : Known} : ∀ (rs : List BRel) (u : Counters),
    TreesLoose lib fn rs → Made u (nameTrees u rs).1 (labelsL (nameTrees u rs).2) ∧
      eraseL (nameTrees u rs).2 = rs ∧ AllNamedL (nameTrees u rs).2
  | [], u, _ => ⟨Made.nil u, rfl, trivial⟩
  | r :: rs, u, h => by
    obtain ⟨a, b, c⟩ := made_tree r u h.1
    obtain ⟨d, e, f⟩ := made_trees rs (nameTree u r).1 h.2
    rw [nameTrees, labelsL, eraseL]
    exact ⟨a.append d, by rw [b, e], c, f⟩
end

/-! ## The plan -/

theorem counted_functions (fs : List Ext.PbFunction) :
    ∀ (u : Counters) (l : List Ext.FunSym) (q : List Str), Counted u q →
      Counted (fs.foldl Ext.addFunction (u, l)).1 (q ++ fs.map fun f => Ext.shortName f.name) := by
  induction fs with
  | nil => intro u l q h; simpa using h
  | cons f fs ih =>
    intro u l q h
    have := ih _ (l ++ [⟨(u.getUniqueName (Ext.shortName f.name)).2, f.name, some f.uriRef,
      f.anchor⟩]) _ (h.next (Ext.shortName f.name))
    rw [List.append_assoc] at this
    exact this

theorem functions_named (fs : List Ext.PbFunction) :
    ∀ (u : Counters) (l : List Ext.FunSym) (q : List Str), Counted u q →
      (∀ f ∈ fs, ∃ g ∈ (fs.foldl Ext.addFunction (u, l)).2, ∃ n,
        g.symbol = Sym.uniqueText (Ext.shortName f.name) n) ∧
      ∀ g ∈ l, g ∈ (fs.foldl Ext.addFunction (u, l)).2 := by
  induction fs with
  | nil => intro u l q h; simp
  | cons f fs ih =>
    intro u l q h
    obtain ⟨h1, h2⟩ := ih _ (l ++ [⟨(u.getUniqueName (Ext.shortName f.name)).2, f.name,
      some f.uriRef, f.anchor⟩]) _ (h.next (Ext.shortName f.name))
    refine ⟨?_, fun g hg => h2 g (by simp [hg])⟩
    intro f' hf
    rcases List.mem_cons.mp hf with rfl | hf
    · exact ⟨⟨_, _, _, _⟩, h2 _ (List.mem_append_right _ (List.mem_singleton.mpr rfl)), _, h.name _⟩
    · exact h1 f' hf

/-- The requests before the tree. -/
def firstRequests (p : Input) : List Str :=
  (p.functions.map fun f => Ext.shortName f.name) ++ [Sec.rootNamesName]

theorem counted_start (p : Input) : Counted (startCounters p) (firstRequests p) := by
  have := counted_functions p.functions Sym.Table.empty [] [] counted_empty
  rw [List.nil_append] at this
  exact this.next Sec.rootNamesName

theorem no_root_function {p : Input} (h : ∀ f ∈ p.table.funs, ¬ MadeUp f.symbol) :
    Sec.rootName ∉ firstRequests p := by
  intro hm
  rcases List.mem_append.mp hm with hm | hm
  · obtain ⟨f, hf, e⟩ := List.mem_map.mp hm
    obtain ⟨g, hg, n, hn⟩ := (functions_named p.functions Sym.Table.empty [] []
      counted_empty).1 f hf
    refine h g hg ?_
    rw [hn, e]
    exact uniqueText_madeUp (by decide) n
  · rw [List.mem_singleton] at hm
    exact absurd hm (by decide)

theorem bases_last : ∀ b ∈ bases, ∀ c, b.getLast? = some c → isDigit c = false := by
  have h : (bases.all fun b => b.getLast?.all fun c => !isDigit c) = true := by decide +kernel
  rw [List.all_eq_true] at h
  intro b hb c hc
  have := h b hb
  rw [hc] at this
  simpa using this

theorem issued_mem : ∀ (bs e : List Str) (x : Str), x ∈ Sym.issued e bs →
    ∃ b ∈ bs, ∃ n, e.count b ≤ n ∧ x = Sym.uniqueText b n
  | [], e, x, hx => by simp [Sym.issued] at hx
  | b :: bs, e, x, hx => by
    simp only [Sym.issued, List.mem_cons] at hx
    rcases hx with rfl | hx
    · exact ⟨b, by simp, _, Nat.le_refl _, rfl⟩
    · obtain ⟨b', hb', n, hn, rfl⟩ := issued_mem bs _ x hx
      refine ⟨b', by simp [hb'], n, ?_, rfl⟩
      rw [List.count_append] at hn
      omega

theorem issued_nodup : ∀ (bs e : List Str), (∀ b ∈ bs, b ∈ bases) → (Sym.issued e bs).Nodup
  | [], e, _ => by simp [Sym.issued]
  | b :: bs, e, h => by
    simp only [Sym.issued, List.nodup_cons]
    refine ⟨?_, issued_nodup bs _ fun x hx => h x (by simp [hx])⟩
    intro hm
    obtain ⟨b', hb', n, hn, e'⟩ := issued_mem _ _ _ hm
    obtain ⟨rfl, rfl⟩ := Sym.uniqueText_inj (bases_last b (h b (by simp)))
      (bases_last b' (h b' (by simp [hb']))) e'
    rw [List.count_append] at hn
    simp at hn
    omega

/-- The tree of the plan gets names that differ from each other, and the plan relation is called
`root`. -/
theorem named_plan {lib : Literal.Lib} {fn : Known} {p : Input} (ht : TreeLoose lib fn p.rel)
    (hf : ∀ f ∈ p.table.funs, ¬ MadeUp f.symbol) :
    ((nameTree (startCounters p) p.rel).1.getUniqueName Sec.rootName).2 = Sec.rootName ∧
      Labelled (Sec.rootName :: labels (nameTree (startCounters p) p.rel).2) ∧
      erase (nameTree (startCounters p) p.rel).2 = p.rel ∧
      AllNamed (nameTree (startCounters p) p.rel).2 := by
  obtain ⟨h1, h2, h3⟩ := made_tree p.rel (startCounters p) ht
  obtain ⟨bs, b1, b2, b3⟩ := h1 _ (counted_start p)
  have hroot : Sec.rootName ∉ bs := fun hm => absurd (b1 _ hm) (by decide)
  have hall : ∀ b ∈ bs, b ∈ bases := fun b hb => List.mem_of_mem_tail (b1 b hb)
  refine ⟨?_, ⟨?_, ?_⟩, h2, h3⟩
  · rw [b3.name, List.count_eq_zero.mpr]
    · rfl
    · rw [List.mem_append, not_or]
      exact ⟨no_root_function hf, hroot⟩
  · rw [b2, List.nodup_cons]
    refine ⟨?_, issued_nodup _ _ hall⟩
    intro hm
    obtain ⟨b, hb, n, -, e⟩ := issued_mem _ _ _ hm
    have := Sym.uniqueText_inj (m := 0) (bases_last Sec.rootName (by decide))
      (bases_last b (hall b hb)) e
    exact hroot (this.1 ▸ hb)
  · intro l hl
    rcases List.mem_cons.mp hl with rfl | hl
    · exact rootName_made
    · rw [b2] at hl
      obtain ⟨b, hb, n, -, rfl⟩ := issued_mem _ _ _ hl
      exact uniqueText_madeUp (hall b hb) n

end Verif.Whole
