import Verif.Lemmas.WholeAgainOrder

/-! # C65: from binary to text and back, again and again -/

namespace Verif.Whole

open Verif Verif.TyPb Verif.Expr Verif.Schema

variable {lib : Literal.Lib} {sort : Ext.Sorter} {fuel : Nat} {p : Input}

/-- Going through text once, with all that is known of it. -/
theorem trip_of (hl : lib.Numerals) (hs : Ext.Rearranges sort) (h : Expressible lib p)
    (hf : (owns p.rel).length ≤ fuel) :
    ∃ bs r, Ext.blocks sort p.table = .ok bs ∧ FunsFit p.table bs ∧ erase r = p.rel ∧
      r = (nameTree (startCounters p) p.rel).2 ∧ (subs r).length ≤ fuel ∧
      Fine ⟨lib, p.table⟩ bs p.names r ∧
      (∀ b ∈ bs, ∀ u, b.uri = some u → ∃ x ∈ p.uris, x.uri = u) ∧
      Trip lib sort fuel p (Sec.textOf (planOf ⟨lib, p.table⟩ bs p.names r))
        (onward bs p.names (erase (again (newNumber p.table bs) r))) ∧
      Same (newNumber p.table bs) p.rel (erase (again (newNumber p.table bs) r)) := by
  obtain ⟨bs, hb, hfit, hok, hu⟩ := blocks_of hs h.functions
  have hfine := fine_of hl h hfit hok hu
  obtain ⟨h1, -, h3, -⟩ := named_plan h.tree.loose fun f hf => (h.names.functions f hf).1
  have hlen : (subs (nameTree (startCounters p) p.rel).2).length ≤ fuel := by
    have : (owns p.rel).length = (subs (nameTree (startCounters p) p.rel).2).length := by
      rw [← h3, owns_subs, List.length_map, h3]
    omega
  obtain ⟨b, h4, h5, h6⟩ := hfine.fromText hlen
  subst h6
  refine ⟨bs, _, hb, hfit, h3, rfl, hlen, hfine, hu, ⟨?_, h4⟩, ?_⟩
  · unfold toText
    simp only
    rw [h1]
    exact hfine.text hb hlen
  · rw [h3] at h5
    exact h5

/-- **C65, nothing breaks.**  What is made of a plan that text can express is a plan that text can
express, and it says the same. -/
theorem trip_onward (lib : Literal.Lib) (hl : lib.Numerals) (sort : Ext.Sorter)
    (hs : Ext.Rearranges sort) (p : Input) (h : Expressible lib p) (fuel : Nat)
    (hf : (owns p.rel).length ≤ fuel) :
    ∃ text q, Trip lib sort fuel p text q ∧ SamePlan p q.binary ∧ Expressible lib q := by
  obtain ⟨bs, r, hb, hfit, he, -, -, hfine, hu, ht, hsame⟩ := trip_of hl hs h hf
  refine ⟨_, _, ht, ⟨_, _, sameFunctions hfit rfl rfl, rfl, hsame⟩, ?_⟩
  exact onward_expressible h hfit hu (uris_nodup (blocks_uris (Ext.binary_placed _ _) hb)) he
    hfine.good

theorem samePlan_onward {bs : List Ext.Block} {r : NRel} {c : Input} (hfit : FunsFit p.table bs)
    (he : erase r = p.rel) {gn : Known} (hg : ∀ x ∈ subs r, Good lib gn x)
    (h : SamePlan (onward bs p.names (erase (again (newNumber p.table bs) r))) c.binary) :
    SamePlan p c.binary := by
  obtain ⟨ρ, r', h1, h2, h3⟩ := h
  have h0 := sameFunctions (b := ⟨_, _, []⟩) hfit rfl rfl
  refine ⟨fun a => ρ (newNumber p.table bs a), r', ⟨?_, ?_, h1.once⟩, h2, ?_⟩
  · intro f hf
    obtain ⟨g, hg1, hg2, hg3, hg4⟩ := h0.kept f hf
    obtain ⟨k, hk1, hk2, hk3, hk4⟩ := h1.kept g hg1
    refine ⟨k, hk1, by rw [hk2, hg2], by rw [hk3, hg3], ?_⟩
    rw [hk4]
    exact hg4
  · rw [h1.count]
    exact h0.count
  · rw [← he]
    exact same_trans r r' hg h3

theorem owns_onward {bs : List Ext.Block} {r : NRel} (he : erase r = p.rel) (ρ : Nat → Nat) :
    (owns (onward bs p.names (erase (again ρ r))).rel).length = (owns p.rel).length := by
  show (owns (erase (again ρ r))).length = _
  rw [← he, owns_subs, owns_subs, subs_again, List.length_map, List.length_map, List.length_map]

/-- **C65, any number of times** (`_partial`: for the plans that are `Expressible`).  A plan that
text can express can be sent through text any number of times, and what comes out says the same as
the plan one began with. -/
theorem again_and_again_partial (lib : Literal.Lib) (hl : lib.Numerals) (sort : Ext.Sorter)
    (hs : Ext.Rearranges sort) (n : Nat) : ∀ (p : Input), Expressible lib p → ∀ (fuel : Nat),
    (owns p.rel).length ≤ fuel →
    ∃ q, Trips lib sort fuel (n + 1) p q ∧ SamePlan p q.binary ∧ Expressible lib q := by
  induction n with
  | zero =>
    intro p h fuel hf
    obtain ⟨text, q, h1, h2, h3⟩ := trip_onward lib hl sort hs p h fuel hf
    exact ⟨q, .more h1 (.none q), h2, h3⟩
  | succ n ih =>
    intro p h fuel hf
    obtain ⟨bs, r, hb, hfit, he, -, -, hfine, hu, ht, -⟩ := trip_of hl hs h hf
    have hx := onward_expressible h hfit hu (uris_nodup (blocks_uris (Ext.binary_placed _ _) hb)) he
      hfine.good
    obtain ⟨q, h1, h2, h3⟩ := ih _ hx fuel (by rw [owns_onward he]; exact hf)
    exact ⟨q, .more ht h1, samePlan_onward hfit he hfine.good h2, h3⟩

/-- If the functions get the symbols they have in the text, the text is the same the next time,
and so is the plan. -/
theorem fixed_of (hl : lib.Numerals) (hs : Ext.Sorts sort) (h : Expressible lib p)
    (hf : (owns p.rel).length ≤ fuel)
    (hk : ∀ bs, Ext.blocks sort p.table = .ok bs → FunsFit p.table bs → Kept bs) :
    ∃ text q, Trip lib sort fuel p text q ∧ Trip lib sort fuel q text q := by
  obtain ⟨bs, r, hb, hfit, he, hr, hlen, hfine, hu, ht, -⟩ := trip_of hl hs.same h hf
  have hk := hk bs hb hfit
  have hx := onward_expressible h hfit hu (uris_nodup (blocks_uris (Ext.binary_placed _ _) hb)) he
    hfine.good
  refine ⟨_, _, ht, ?_⟩
  obtain ⟨bs2, r2, hb2, hfit2, he2, hr2, hlen2, -, -, ht2, -⟩ := trip_of (fuel := fuel) hl hs.same hx
    (by rw [owns_onward he]; exact hf)
  -- the same blocks
  have hbs : bs2 = bs := by
    have := onward_blocks (names := p.names) (rel := erase (again (newNumber p.table bs) r)) hs
      h.functions hb hfit hk
    rw [hb2] at this
    injection this
  subst hbs
  -- the same names
  have hrr : r2 = again (newNumber p.table bs2) r := by
    rw [hr2]
    have := (nameTree_again (ρ := newNumber p.table bs2) p.rel
      (onward_alike (names := p.names) (rel := erase (again (newNumber p.table bs2) r)) hfit)).1
    rw [← hr] at this
    exact this
  subst hrr
  have hρ := newNumber_again (p := p) hk hfit2
  have hplan := planOf_again (s := ⟨lib, p.table⟩) (names := p.names) hfine.good hρ
  have htext : Sec.textOf (planOf ⟨lib, (onward bs2 p.names
      (erase (again (newNumber p.table bs2) r))).table⟩ bs2 p.names
        (again (newNumber p.table bs2) r)) = Sec.textOf (planOf ⟨lib, p.table⟩ bs2 p.names r) := by
    rw [hplan]
  refine ⟨ht2.1.trans (by rw [← htext]; rfl), ?_⟩
  exact ht.2

/-- **C65, without overloads** (`_partial`: for the plans that are `Expressible`).  If no two
functions have the same name in front of their types, the text of the plan that is made of a text
is that text, and the plan that is made of it is that plan. -/
theorem text_fixed_partial (lib : Literal.Lib) (hl : lib.Numerals) (sort : Ext.Sorter)
    (hs : Ext.Sorts sort) (p : Input) (h : Expressible lib p) (hn : NoOverloads p) (fuel : Nat)
    (hf : (owns p.rel).length ≤ fuel) :
    ∃ text q, Trip lib sort fuel p text q ∧ Trip lib sort fuel q text q :=
  fixed_of hl hs h hf fun _ _ hfit => kept_noOverloads hn hfit

/-- **C65, with few overloads** (`_partial`: for the plans that are `Expressible`).  If at most
nine functions have the same name in front of their types, the text and the plan stay as they are
from the second time on. -/
theorem text_settles_partial (lib : Literal.Lib) (hl : lib.Numerals) (sort : Ext.Sorter)
    (hs : Ext.Sorts sort) (p : Input) (h : Expressible lib p) (hn : FewOverloads p) (fuel : Nat)
    (hf : (owns p.rel).length ≤ fuel) :
    ∃ text q text' q', Trip lib sort fuel p text q ∧ Trip lib sort fuel q text' q' ∧
      Trip lib sort fuel q' text' q' := by
  obtain ⟨bs, r, hb, hfit, he, -, -, hfine, hu, ht, -⟩ := trip_of hl hs.same h hf
  have hx := onward_expressible h hfit hu (uris_nodup (blocks_uris (Ext.binary_placed _ _) hb)) he
    hfine.good
  have hk : ∀ bs2, Ext.blocks sort (onward bs p.names
      (erase (again (newNumber p.table bs) r))).table = .ok bs2 → FunsFit (onward bs p.names
      (erase (again (newNumber p.table bs) r))).table bs2 → Kept bs2 := by
    intro bs2 hb2 hfit2
    refine kept_few (blocks_sorted hs (Ext.binary_placed _ _) hb)
      (blocks_sorted hs (Ext.binary_placed _ _) hb2) ?_ hfit2
    intro b
    have := (onward_shorts (names := p.names)
      (rel := erase (again (newNumber p.table bs) r)) hfit).count_eq b
    unfold shorts at this
    rw [this]
    exact hn b
  obtain ⟨text', q', h1, h2⟩ := fixed_of hl hs hx (by rw [owns_onward he]; exact hf) hk
  exact ⟨_, _, text', q', ht, h1, h2⟩

/-- A plan has one text, and one plan is made of it. -/
theorem Trip.same {lib : Literal.Lib} {sort : Ext.Sorter} {fuel : Nat} {p q q' : Input}
    {text text' : Str} (h : Trip lib sort fuel p text q) (h' : Trip lib sort fuel p text' q') :
    text' = text ∧ q' = q := by
  obtain ⟨h1, h2⟩ := h
  obtain ⟨h1', h2'⟩ := h'
  rw [h1] at h1'
  injection h1' with e
  subst e
  rw [h2] at h2'
  injection h2' with e
  injection e with e
  refine ⟨rfl, ?_⟩
  obtain ⟨a, b, c, d⟩ := q
  obtain ⟨a', b', c', d'⟩ := q'
  simp only [Input.binary, Binary.mk.injEq, List.cons.injEq, Prod.mk.injEq, and_true] at e
  obtain ⟨rfl, rfl, rfl, rfl⟩ := e
  rfl

theorem Trips.same {lib : Literal.Lib} {sort : Ext.Sorter} {fuel : Nat} {n : Nat} {p q : Input}
    (h : Trips lib sort fuel n p q) : ∀ {q' : Input}, Trips lib sort fuel n p q' → q' = q := by
  induction h with
  | none p =>
    intro q' h'
    cases h'
    rfl
  | more h1 _ ih =>
    intro q' h'
    cases h' with
    | more h1' h2' =>
      have := (Trip.same h1 h1').2
      subst this
      exact ih h2'

/-! ### Non-vacuity -/

/-- A `std::sort` for the examples: insertion sort. -/
def insertPair (a : Str × Str) : List (Str × Str) → List (Str × Str)
  | [] => [a]
  | b :: l => if Ext.pairLess b a then b :: insertPair a l else a :: b :: l

def insertSort (l : List (Str × Str)) : List (Str × Str) := l.foldr insertPair []

theorem insertPair_perm (a : Str × Str) (l : List (Str × Str)) : (insertPair a l).Perm (a :: l) := by
  induction l with
  | nil => exact .refl _
  | cons b l ih =>
    unfold insertPair
    split
    · exact (List.Perm.cons b ih).trans (List.Perm.swap a b l)
    · exact .refl _

/-- `a` is not less than `b`, and `b` is not less than `c`. -/
theorem pairLess_false_trans {a b c : Str × Str} (h1 : Ext.pairLess b a = false)
    (h2 : Ext.pairLess c b = false) : Ext.pairLess c a = false := by
  unfold Ext.pairLess at *
  simp only [Bool.or_eq_false_iff, Bool.and_eq_false_iff, Bool.not_eq_false'] at *
  have tr := fun x y z h h' => Ext.strLess_trans x y z h h'
  have tot := Ext.strLess_total
  have weak : ∀ x y z : Str, Ext.strLess y x = false → Ext.strLess z y = false →
      Ext.strLess z x = false := by
    intro x y z h h'
    rw [← Bool.not_eq_true]
    intro hc
    cases hy : Ext.strLess x y with
    | true => rw [tr z x y hc hy] at h'; cases h'
    | false =>
      have := tot x y hy h
      subst this
      rw [hc] at h'; cases h'
  refine ⟨weak _ _ _ h1.1 h2.1, ?_⟩
  cases hy : Ext.strLess a.1 c.1 with
  | true => exact .inl rfl
  | false =>
    refine .inr ?_
    have hac := tot a.1 c.1 hy (weak _ _ _ h1.1 h2.1)
    have hab : Ext.strLess a.1 b.1 = false := by
      rw [hac]; exact h2.1
    have hbc : Ext.strLess b.1 c.1 = false := by
      rw [← hac]; exact h1.1
    have k1 := h1.2.resolve_left (by rw [hab]; simp)
    have k2 := h2.2.resolve_left (by rw [hbc]; simp)
    exact weak _ _ _ k1 k2

theorem pairLess_asymm {a b : Str × Str} (h : Ext.pairLess b a = true) :
    Ext.pairLess a b = false := by
  rw [← Bool.not_eq_true]
  intro hc
  unfold Ext.pairLess at *
  simp only [Bool.or_eq_true, Bool.and_eq_true, Bool.not_eq_true'] at *
  have irr : ∀ x y : Str, Ext.strLess x y = true → Ext.strLess y x = true → False := by
    intro x y h h'
    have := Ext.strLess_trans _ _ _ h h'
    rw [Ext.strLess_irrefl] at this
    cases this
  rcases h with h | ⟨h, h'⟩ <;> rcases hc with hc | ⟨hc, hc'⟩
  · exact irr _ _ h hc
  · rw [h] at hc; cases hc
  · rw [hc] at h; cases h
  · exact irr _ _ h' hc'

theorem insertPair_sorted (a : Str × Str) (l : List (Str × Str))
    (h : l.Pairwise fun a b => Ext.pairLess b a = false) :
    (insertPair a l).Pairwise fun a b => Ext.pairLess b a = false := by
  induction l with
  | nil => simp [insertPair]
  | cons b l ih =>
    rw [List.pairwise_cons] at h
    unfold insertPair
    split
    · rename_i hb
      rw [List.pairwise_cons]
      refine ⟨fun x hx => ?_, ih h.2⟩
      rcases List.mem_cons.mp ((insertPair_perm a l).mem_iff.mp hx) with rfl | hx
      · exact pairLess_asymm hb
      · exact h.1 x hx
    · rename_i hb
      rw [Bool.not_eq_true] at hb
      rw [List.pairwise_cons]
      refine ⟨fun x hx => ?_, List.pairwise_cons.mpr h⟩
      rcases List.mem_cons.mp hx with rfl | hx
      · exact hb
      · exact pairLess_false_trans hb (h.1 x hx)

theorem insertSort_sorts : Ext.Sorts insertSort where
  same := by
    intro l
    induction l with
    | nil => exact .refl _
    | cons a l ih => exact (insertPair_perm a _).trans (ih.cons a)
  sorted := by
    intro l
    induction l with
    | nil => exact .nil
    | cons a l ih => exact insertPair_sorted a _ ih

/-- Non-vacuity of `again_and_again_partial`. -/
example (n : Nat) : ∃ q, Trips sampleLib insertSort 8 (n + 1) sampleInput q ∧
    SamePlan sampleInput q.binary ∧ Expressible sampleLib q :=
  again_and_again_partial sampleLib sampleLib_numerals insertSort insertSort_sorts.same n sampleInput
    sampleInput_expressible 8 (by decide)

/-- Non-vacuity of `text_fixed_partial`. -/
example : ∃ text q, Trip sampleLib insertSort 8 sampleInput text q ∧
    Trip sampleLib insertSort 8 q text q :=
  text_fixed_partial sampleLib sampleLib_numerals insertSort insertSort_sorts sampleInput
    sampleInput_expressible (by unfold NoOverloads; decide +kernel) 8 (by decide)

end Verif.Whole
