import Verif.Lemmas.WholeData

/-! # The made up names keep the columns of a plan apart -/

namespace Verif.Whole

open Verif Verif.Expr Verif.Schema

variable {lib : Literal.Lib} {fn : Known}

/-! ## Labels -/

/-- The names of the expressions of a project that are no references. -/
def itemLabels (computed : List Str) (k : Nat) : List PbExpr → List Str
  | [] => []
  | e :: es =>
    (match Rel.fieldOf e with
      | some _ => []
      | none => [(computed[k]?).getD []]) ++ itemLabels computed (k + 1) es

/-- All names made up for a relation. -/
def ownLabels (n : Names) (o : Own) : List Str :=
  n.schema.toList ++ (n.source.toList ++ (itemLabels n.computed 0 (expressionsOf o.body) ++
    (n.measures ++ [n.rel])))

mutual
/-- All names made up for a tree. -/
def labels : NRel → List Str
  | .node n o ins => labelsL ins ++ ownLabels n o
def labelsL : List NRel → List Str
  | [] => []
  | r :: rs => labels r ++ labelsL rs
end

/-- The relation has the names it needs; `qs` are those of its subqueries. -/
structure WellNamed (n : Names) (o : Own) (qs : List Str) : Prop where
  reads : isRead o.body = true → (∃ s, n.schema = some s) ∧ ∃ s, n.source = some s
  others : isRead o.body = false → n.schema = none ∧ n.source = none
  measures : n.measures.length = (measuresOf o.body).length
  queries : n.queries = qs

mutual
def AllNamed : NRel → Prop
  | .node n o kids => WellNamed n o ((queriesIn o.body kids).map (·.names.rel)) ∧ AllNamedL kids
def AllNamedL : List NRel → Prop
  | [] => True
  | r :: rs => AllNamed r ∧ AllNamedL rs
end

mutual
/-- No column is called like something made up. -/
def ColumnsOwn : NRel → Prop
  | .node _ o ins => (∀ c ∈ o.columns, ¬ MadeUp c) ∧ ColumnsOwnL ins
def ColumnsOwnL : List NRel → Prop
  | [] => True
  | r :: rs => ColumnsOwn r ∧ ColumnsOwnL rs
end

/-! ## Columns that differ -/

/-- The columns have different texts. -/
def Apart (l : List Col) : Prop :=
  ∀ (i j : Nat) (x y : Col), l[i]? = some x → l[j]? = some y → x.text = y.text → i = j

theorem Apart.nodup {l : List Col} (h : Apart l) : (l.map Col.text).Nodup := by
  rw [List.nodup_iff_pairwise_ne, List.pairwise_iff_getElem]
  intro i j hi hj hij he
  simp only [List.length_map] at hi hj
  simp only [List.getElem_map] at he
  have := h i j l[i] l[j] (List.getElem?_eq_getElem hi) (List.getElem?_eq_getElem hj) he
  omega

theorem Apart.of_nodup {l : List Col} (h : (l.map Col.text).Nodup) : Apart l := by
  intro i j x y hi hj he
  obtain ⟨hl, -⟩ := List.getElem?_eq_some_iff.mp hi
  refine (List.getElem?_inj (by simpa using hl) h).mp ?_
  rw [List.getElem?_map, List.getElem?_map, hi, hj, Option.map_some, Option.map_some, he]

theorem Apart.sublist {l l' : List Col} (h : Apart l) (hs : l'.Sublist l) : Apart l' :=
  .of_nodup (List.Sublist.nodup (hs.map _) h.nodup)

theorem Apart.append {a b : List Col} (ha : Apart a) (hb : Apart b)
    (h : ∀ x ∈ a, ∀ y ∈ b, x.text ≠ y.text) : Apart (a ++ b) := by
  intro i j x y hi hj he
  rw [List.getElem?_append] at hi hj
  split at hi <;> split at hj
  · exact ha i j x y hi hj he
  · exact absurd he (h x (List.mem_of_getElem? hi) y (List.mem_of_getElem? hj))
  · exact absurd he.symm (h y (List.mem_of_getElem? hj) x (List.mem_of_getElem? hi))
  · have := hb _ _ x y hi hj he
    omega

/-- The columns are as they should be and their labels are among these. -/
def Within (ls : List Str) (l : List Col) : Prop := ∀ c ∈ l, c.Ok ∧ c.label ∈ ls

theorem Within.mono {ls ls' : List Str} {l : List Col} (h : Within ls l) (hs : ∀ x ∈ ls, x ∈ ls') :
    Within ls' l := fun c hc => ⟨(h c hc).1, hs _ (h c hc).2⟩

theorem Within.sublist {ls : List Str} {l l' : List Col} (h : Within ls l) (hs : l'.Sublist l) :
    Within ls l' := fun c hc => h c (hs.subset hc)

theorem Within.append {ls : List Str} {a b : List Col} (ha : Within ls a) (hb : Within ls b) :
    Within ls (a ++ b) := by
  intro c hc
  rcases List.mem_append.mp hc with h | h
  · exact ha c h
  · exact hb c h

theorem Within.apart {ls ls' : List Str} {a b : List Col} (ha : Within ls a) (hb : Within ls' b)
    (hd : ∀ x ∈ ls, x ∉ ls') : ∀ x ∈ a, ∀ y ∈ b, x.text ≠ y.text := by
  intro x hx y hy he
  have := ((ha x hx).1.label_eq (hb y hy).1 he).1
  exact hd _ (ha x hx).2 (this ▸ (hb y hy).2)

theorem pick_mem {α : Type} {l : List α} {is : List Int} {x : α} (h : x ∈ pick l is) : x ∈ l := by
  unfold pick at h
  rw [List.mem_filterMap] at h
  obtain ⟨i, -, hi⟩ := h
  exact List.mem_of_getElem? hi

/-- Everything that is picked is there, so the numbers stay. -/
theorem pick_getElem? {α : Type} {l : List α} {is : List Int} (h : ∀ i ∈ is, i.toNat < l.length)
    (k : Nat) : (pick l is)[k]? = (is[k]?).bind fun i => l[i.toNat]? := by
  unfold pick
  induction is generalizing k with
  | nil => rfl
  | cons i is ih =>
    rw [List.filterMap_cons, List.getElem?_eq_getElem (h i (by simp))]
    cases k with
    | zero => simp [List.getElem?_eq_getElem (h i (by simp))]
    | succ k =>
      simp only [List.getElem?_cons_succ]
      exact ih (fun j hj => h j (by simp [hj])) k

theorem colAt_mem {f : List Col} {i : Int} (h0 : 0 ≤ i) (h : i < f.length) : colAt f i ∈ f :=
  List.mem_of_getElem? (colAt_some h0 h)

/-! ## Columns of projects -/

theorem projectCols_getElem? (n : Names) (f : List Col) : ∀ (es : List PbExpr) (k j : Nat),
    (projectCols n f k es)[j]? = (es[j]?).map fun e =>
      match Rel.fieldOf e with
      | some i => colAt f i
      | none => .computed n.rel (k + j) ((n.computed[k + j]?).getD [])
  | [], k, j => by simp [projectCols]
  | e :: es, k, 0 => by simp [projectCols]; cases Rel.fieldOf e <;> rfl
  | e :: es, k, j + 1 => by
    simp only [projectCols, List.getElem?_cons_succ, projectCols_getElem? n f es (k + 1) j]
    rw [Nat.add_right_comm k 1 j, Nat.add_assoc k j 1]

theorem itemLabels_mem {computed : List Str} : ∀ {es : List PbExpr} {k j : Nat} {e : PbExpr},
    es[j]? = some e → Rel.fieldOf e = none →
    (computed[k + j]?).getD [] ∈ itemLabels computed k es
  | [], k, j, e, h, _ => by simp at h
  | a :: es, k, 0, e, h, hn => by
    simp only [List.getElem?_cons_zero, Option.some.injEq] at h
    subst h
    simp [itemLabels, hn]
  | a :: es, k, j + 1, e, h, hn => by
    simp only [List.getElem?_cons_succ] at h
    have := itemLabels_mem (computed := computed) (k := k + 1) h hn
    rw [Nat.add_right_comm k 1 j, Nat.add_assoc k j 1] at this
    simp [itemLabels, this]

theorem itemLabels_inj {computed : List Str} : ∀ {es : List PbExpr} {k i j : Nat} {a b : PbExpr},
    (itemLabels computed k es).Nodup → es[i]? = some a → es[j]? = some b →
    Rel.fieldOf a = none → Rel.fieldOf b = none →
    (computed[k + i]?).getD [] = (computed[k + j]?).getD [] → i = j
  | [], k, i, j, a, b, _, h, _, _, _, _ => by simp at h
  | e :: es, k, 0, 0, a, b, _, _, _, _, _, _ => rfl
  | e :: es, k, 0, j + 1, a, b, hn, ha, hb, na, nb, h => by
    exfalso
    simp only [List.getElem?_cons_zero, Option.some.injEq, List.getElem?_cons_succ] at ha hb
    subst ha
    have := itemLabels_mem (computed := computed) (k := k + 1) hb nb
    rw [Nat.add_right_comm k 1 j, Nat.add_assoc k j 1, ← h] at this
    simp [itemLabels, na] at hn
    exact hn.1 this
  | e :: es, k, i + 1, 0, a, b, hn, ha, hb, na, nb, h => by
    exfalso
    simp only [List.getElem?_cons_zero, Option.some.injEq, List.getElem?_cons_succ] at ha hb
    subst hb
    have := itemLabels_mem (computed := computed) (k := k + 1) ha na
    rw [Nat.add_right_comm k 1 i, Nat.add_assoc k i 1, h] at this
    simp [itemLabels, nb] at hn
    exact hn.1 this
  | e :: es, k, i + 1, j + 1, a, b, hn, ha, hb, na, nb, h => by
    simp only [List.getElem?_cons_succ] at ha hb
    have hn' : (itemLabels computed (k + 1) es).Nodup := by
      rw [itemLabels] at hn
      exact (List.nodup_append.mp hn).2.1
    have := itemLabels_inj (k := k + 1) hn' ha hb na nb
      (by rw [Nat.add_right_comm k 1 i, Nat.add_right_comm k 1 j]; exact h)
    omega

/-- What holds for the columns of the inputs and the names of a relation. -/
structure Ready (f : List Col) (n : Names) (o : Own) : Prop where
  within : ∃ ls, Within ls f ∧ (ls ++ ownLabels n o).Nodup
  apart : Apart f
  made : ∀ l ∈ ownLabels n o, MadeUp l
  measures : n.measures.length = (measuresOf o.body).length

/-- A number that is not a reference in a project. -/
def Canonical (w : Nat) (es : List PbExpr) (i : Int) : Prop :=
  0 ≤ i ∧ (i < w ∨ ∃ e, es[(i - w).toNat]? = some e ∧ Rel.fieldOf e = none)

section project

variable {f : List Col} {n : Names} {es : List PbExpr} {emit : List Int} {s : Option Sec.NamedStruct}
  {t : Option Sec.Source}

theorem Ready.ok {o : Own} (hr : Ready f n o) : ∀ c ∈ f, c.Ok := by
  obtain ⟨ls, h, -⟩ := hr.within
  exact fun c hc => (h c hc).1

theorem Ready.project_within (hr : Ready f n ⟨.project es, emit, s, t⟩)
    (hi : ∀ e ∈ es, ∀ i, Rel.fieldOf e = some i → 0 ≤ i ∧ i < f.length) {ls : List Str}
    (hw : Within ls f) :
    Within (ls ++ ownLabels n ⟨.project es, emit, s, t⟩) (projectCols n f 0 es) := by
  intro c hc
  obtain ⟨j, hj⟩ := List.getElem?_of_mem hc
  rw [projectCols_getElem?] at hj
  cases he : es[j]? with
  | none => simp [he] at hj
  | some e =>
    rw [he] at hj
    simp only [Option.map_some, Option.some.injEq] at hj
    cases hf : Rel.fieldOf e with
    | some i =>
      rw [hf] at hj
      simp only at hj
      obtain ⟨h0, h1⟩ := hi e (List.mem_of_getElem? he) i hf
      have := hw _ (colAt_mem h0 h1)
      rw [hj] at this
      exact ⟨this.1, List.mem_append_left _ this.2⟩
    | none =>
      rw [hf] at hj
      simp only at hj
      have hm := itemLabels_mem (computed := n.computed) (k := 0) he hf
      have hm' : (n.computed[0 + j]?).getD [] ∈ ownLabels n ⟨.project es, emit, s, t⟩ := by
        simp only [ownLabels, expressionsOf, List.mem_append]
        exact .inr (.inr (.inl hm))
      subst hj
      exact ⟨hr.made _ hm', List.mem_append_right _ hm'⟩

theorem stands_canonical (hi : ∀ e ∈ es, ∀ i, Rel.fieldOf e = some i → 0 ≤ i ∧ i < f.length)
    {i : Int} (h : InWidth (f.length + es.length) i) :
    Canonical f.length es (stands f.length es i) ∧
      (f ++ projectCols n f 0 es)[(stands f.length es i).toNat]? =
        (f ++ projectCols n f 0 es)[i.toNat]? := by
  obtain ⟨h0, h1⟩ := h
  unfold stands
  by_cases hlt : i < f.length
  · rw [if_pos hlt]
    exact ⟨⟨h0, .inl hlt⟩, rfl⟩
  · rw [if_neg hlt]
    have hb : (i - f.length).toNat < es.length := by omega
    have he : es[(i - f.length).toNat]? = some es[(i - f.length).toNat] :=
      List.getElem?_eq_getElem hb
    have hr : (f ++ projectCols n f 0 es)[i.toNat]? = (projectCols n f 0 es)[(i - f.length).toNat]? := by
      rw [List.getElem?_append_right (by omega)]
      congr 1
      omega
    rw [hr, projectCols_getElem?]
    rw [he]
    simp only [Option.map_some]
    cases hf : Rel.fieldOf es[(i - f.length).toNat] with
    | none =>
      simp only [Option.getD_none]
      refine ⟨⟨h0, .inr ⟨_, he, hf⟩⟩, ?_⟩
      rw [hr, projectCols_getElem?, he]
      simp only [Option.map_some, hf]
    | some j =>
      simp only [Option.getD_some]
      obtain ⟨hj0, hj1⟩ := hi _ (List.mem_of_getElem? he) j hf
      refine ⟨⟨hj0, .inl hj1⟩, ?_⟩
      rw [List.getElem?_append_left (by omega), colAt_some hj0 hj1]

theorem stands_of_canonical {w : Nat} {i : Int} (h : Canonical w es i) : stands w es i = i := by
  unfold stands
  rcases h with ⟨h0, h | ⟨e, he, hf⟩⟩
  · rw [if_pos h]
  · split
    · rfl
    · rw [he]
      simp [hf]

theorem ownLabels_items {b : Rel.Body} (hb : expressionsOf b = es) :
    ∀ l ∈ itemLabels n.computed 0 es, l ∈ ownLabels n ⟨b, emit, s, t⟩ := by
  intro l hl
  simp only [ownLabels, hb, List.mem_append]
  exact .inr (.inr (.inl hl))

/-- Numbers that are no references are for different columns. -/
theorem canonical_inj (hr : Ready f n ⟨.project es, emit, s, t⟩)
    {i j : Int} {x y : Col}
    (ci : Canonical f.length es i) (cj : Canonical f.length es j)
    (hx : (f ++ projectCols n f 0 es)[i.toNat]? = some x)
    (hy : (f ++ projectCols n f 0 es)[j.toNat]? = some y) (e : x.text = y.text) : i = j := by
  obtain ⟨ls, hw, hn⟩ := hr.within
  have side : ∀ {i : Int} {x : Col}, 0 ≤ i → ¬ i < f.length →
      (∃ e, es[(i - f.length).toNat]? = some e ∧ Rel.fieldOf e = none) →
      (f ++ projectCols n f 0 es)[i.toNat]? = some x →
      x.text = (n.computed[0 + (i - f.length).toNat]?).getD [] ∧
        x.Ok ∧ x.label = (n.computed[0 + (i - f.length).toNat]?).getD [] := by
    rintro i x h0 hlt ⟨e, he, hf⟩ hx
    rw [List.getElem?_append_right (by omega),
      show i.toNat - f.length = (i - f.length).toNat by omega, projectCols_getElem?, he] at hx
    simp only [Option.map_some, hf, Option.some.injEq] at hx
    subst hx
    exact ⟨rfl, hr.made _ (ownLabels_items rfl _ (itemLabels_mem he hf)), rfl⟩
  have mixed : ∀ {i j : Int} {x y : Col}, 0 ≤ i → i < f.length → 0 ≤ j → ¬ j < f.length →
      (∃ e, es[(j - f.length).toNat]? = some e ∧ Rel.fieldOf e = none) →
      (f ++ projectCols n f 0 es)[i.toNat]? = some x →
      (f ++ projectCols n f 0 es)[j.toNat]? = some y → x.text ≠ y.text := by
    intro i j x y h0 h1 hj0 hj1 hc hx hy he
    obtain ⟨-, ok, hl⟩ := side hj0 hj1 hc hy
    obtain ⟨e, he', hf⟩ := hc
    rw [List.getElem?_append_left (by omega)] at hx
    have hwx := hw x (List.mem_of_getElem? hx)
    have hlab := (hwx.1.label_eq ok he).1
    have hm : y.label ∈ ownLabels n ⟨.project es, emit, s, t⟩ := by
      rw [hl]
      exact ownLabels_items rfl _ (itemLabels_mem he' hf)
    exact (List.nodup_append.mp hn).2.2 _ hwx.2 _ hm hlab
  by_cases hi : i < f.length <;> by_cases hj : j < f.length
  · have h0 := ci.1
    have h1 := cj.1
    rw [List.getElem?_append_left (by omega)] at hx hy
    have := hr.apart _ _ x y hx hy e
    omega
  · exact absurd e (mixed ci.1 hi cj.1 hj (cj.2.resolve_left hj) hx hy)
  · exact absurd e.symm (mixed cj.1 hj ci.1 hi (ci.2.resolve_left hi) hy hx)
  · have h1 := side ci.1 hi (ci.2.resolve_left hi) hx
    have h2 := side cj.1 hj (cj.2.resolve_left hj) hy
    obtain ⟨a, ha, fa⟩ := ci.2.resolve_left hi
    obtain ⟨b, hb, fb⟩ := cj.2.resolve_left hj
    have hnd : (itemLabels n.computed 0 es).Nodup := by
      have := (List.nodup_append.mp hn).2.1
      simp only [ownLabels, expressionsOf] at this
      exact (List.nodup_append.mp (List.nodup_append.mp
        (List.nodup_append.mp this).2.1).2.1).1
    have := itemLabels_inj hnd ha hb fa fb (by rw [← h1.1, ← h2.1, e])
    have := ci.1
    have := cj.1
    omega

/-- A number with the same text stands for the same column. -/
theorem stands_eq (hr : Ready f n ⟨.project es, emit, s, t⟩)
    (hi : ∀ e ∈ es, ∀ i, Rel.fieldOf e = some i → 0 ≤ i ∧ i < f.length) {i j : Int} {x y : Col}
    (wi : InWidth (f.length + es.length) i) (wj : InWidth (f.length + es.length) j)
    (hx : (f ++ projectCols n f 0 es)[i.toNat]? = some x)
    (hy : (f ++ projectCols n f 0 es)[j.toNat]? = some y) (e : x.text = y.text) :
    stands f.length es i = stands f.length es j := by
  obtain ⟨c1, e1⟩ := stands_canonical (n := n) hi wi
  obtain ⟨c2, e2⟩ := stands_canonical (n := n) hi wj
  exact canonical_inj hr c1 c2 (e1.trans hx) (e2.trans hy) e

theorem project_apart (hr : Ready f n ⟨.project es, emit, s, t⟩)
    (hb : BodyFits lib fn (f.map Col.isColumn) emit (.project es)) :
    Apart (outCols n ⟨.project es, emit, s, t⟩ f) := by
  have hi := project_refs hb
  have hlen : (f.map Col.isColumn).length = f.length := by simp
  rw [hlen] at hi
  simp only [outCols, newCols]
  split
  · rename_i he
    intro i j x y hx hy hxy
    have hc : ∀ (k : Nat) (z : Col), (f ++ projectCols n f 0 es)[k]? = some z → Canonical f.length es k := by
      intro k z hz
      refine ⟨by omega, ?_⟩
      by_cases hk : (k : Int) < f.length
      · exact .inl hk
      · right
        obtain ⟨hl, -⟩ := List.getElem?_eq_some_iff.mp hz
        rw [List.length_append, projectCols_length] at hl
        have hb' : ((k : Int) - f.length).toNat < es.length := by omega
        exact ⟨_, List.getElem?_eq_getElem hb', hb.2.1 he _ (List.getElem_mem hb')⟩
    have := canonical_inj hr (hc i x hx) (hc j y hy) (by simpa using hx) (by simpa using hy) hxy
    omega
  · intro i j x y hx hy hxy
    have hw : ∀ k ∈ emit, InWidth (f.length + es.length) k := by
      intro k hk
      have := hb.2.2.1 k hk
      rwa [hlen] at this
    have hlt : ∀ k ∈ emit, k.toNat < (f ++ projectCols n f 0 es).length := by
      intro k hk
      have := hw k hk
      rw [List.length_append, projectCols_length]
      obtain ⟨h0, h1⟩ := this
      omega
    rw [pick_getElem? hlt] at hx hy
    cases ha : emit[i]? with
    | none => simp [ha] at hx
    | some a =>
      cases hb' : emit[j]? with
      | none => simp [hb'] at hy
      | some b =>
        rw [ha] at hx
        rw [hb'] at hy
        simp only [Option.bind_some] at hx hy
        have hs := stands_eq hr hi (hw a (List.mem_of_getElem? ha)) (hw b (List.mem_of_getElem? hb'))
          hx hy hxy
        have hnd := hb.2.2.2
        rw [hlen] at hnd
        have h1 : (emit.map (stands f.length es))[i]? = some (stands f.length es a) := by
          rw [List.getElem?_map, ha]; rfl
        have h2 : (emit.map (stands f.length es))[j]? = some (stands f.length es a) := by
          rw [List.getElem?_map, hb', hs]; rfl
        obtain ⟨h3, -⟩ := List.getElem?_eq_some_iff.mp h1
        exact (List.getElem?_inj h3 hnd).mp (h1.trans h2.symm)

end project

/-! ## Columns of aggregates -/

section aggregate

variable {f : List Col} {n : Names} {g : List PbExpr} {ms : List Rel.PbMeasure} {emit : List Int}
  {s : Option Sec.NamedStruct} {t : Option Sec.Source}

theorem measureCols_within (hr : Ready f n ⟨.aggregate [g] ms, emit, s, t⟩) :
    Within (ownLabels n ⟨.aggregate [g] ms, emit, s, t⟩) (measureCols n ms.length) := by
  intro c hc
  simp only [measureCols, List.mem_map, List.mem_range] at hc
  obtain ⟨k, hk, rfl⟩ := hc
  have hk' : k < n.measures.length := by rw [hr.measures]; exact hk
  have hm : (n.measures[k]?).getD [] ∈ ownLabels n ⟨.aggregate [g] ms, emit, s, t⟩ := by
    rw [List.getElem?_eq_getElem hk']
    simp only [Option.getD_some, ownLabels, List.mem_append]
    exact .inr (.inr (.inr (.inl (List.getElem_mem hk'))))
  exact ⟨hr.made _ hm, hm⟩

theorem measureCols_apart (hr : Ready f n ⟨.aggregate [g] ms, emit, s, t⟩) :
    Apart (measureCols n ms.length) := by
  obtain ⟨ls, -, hn⟩ := hr.within
  have hnd : n.measures.Nodup := by
    have := (List.nodup_append.mp hn).2.1
    simp only [ownLabels] at this
    exact (List.nodup_append.mp (List.nodup_append.mp (List.nodup_append.mp
        (List.nodup_append.mp this).2.1).2.1).2.1).1
  intro i j x y hx hy hxy
  have hm : n.measures.length = ms.length := hr.measures
  simp only [measureCols, List.getElem?_map] at hx hy
  by_cases hi : i < ms.length
  · by_cases hj : j < ms.length
    · simp only [List.getElem?_range hi, Option.map_some, Option.some.injEq] at hx
      simp only [List.getElem?_range hj, Option.map_some, Option.some.injEq] at hy
      subst hx
      subst hy
      simp only [Col.text] at hxy
      have hi' : i < n.measures.length := by omega
      have hj' : j < n.measures.length := by omega
      refine (List.getElem?_inj hi' hnd).mp ?_
      rw [List.getElem?_eq_getElem hi', List.getElem?_eq_getElem hj'] at *
      simpa using hxy
    · simp [List.getElem?_eq_none (show (List.range ms.length).length ≤ j by simp; omega)] at hy
  · simp [List.getElem?_eq_none (show (List.range ms.length).length ≤ i by simp; omega)] at hx

theorem groupCols_within {ls : List Str} (hw : Within ls f)
    (hi : ∀ i ∈ grouped g, 0 ≤ i ∧ i < f.length) : Within ls ((grouped g).map (colAt f)) := by
  intro c hc
  obtain ⟨i, him, rfl⟩ := List.mem_map.mp hc
  obtain ⟨h0, h1⟩ := hi i him
  exact hw _ (colAt_mem h0 h1)

theorem groupCols_apart (ha : Apart f) {l : List Int} (hi : ∀ i ∈ l, 0 ≤ i ∧ i < f.length)
    (hn : l.Nodup) : Apart (l.map (colAt f)) := by
  intro i j x y hx hy hxy
  rw [List.getElem?_map] at hx hy
  cases hi' : l[i]? with
  | none => simp [hi'] at hx
  | some a =>
    cases hj' : l[j]? with
    | none => simp [hj'] at hy
    | some b =>
      simp only [hi', hj', Option.map_some, Option.some.injEq] at hx hy
      obtain ⟨a0, a1⟩ := hi a (List.mem_of_getElem? hi')
      obtain ⟨b0, b1⟩ := hi b (List.mem_of_getElem? hj')
      have := ha _ _ x y (hx ▸ colAt_some a0 a1) (hy ▸ colAt_some b0 b1) hxy
      have hab : a = b := by omega
      obtain ⟨h3, -⟩ := List.getElem?_eq_some_iff.mp hi'
      exact (List.getElem?_inj h3 hn).mp (by rw [hi', hj', hab])

theorem aggregate_new_apart (hr : Ready f n ⟨.aggregate [g] ms, emit, s, t⟩)
    (hi : ∀ i ∈ grouped g, 0 ≤ i ∧ i < f.length) (hg : (grouped g).Nodup) :
    Apart (newCols n f (.aggregate [g] ms)) := by
  simp only [newCols, List.flatten_cons, List.flatten_nil, List.append_nil]
  obtain ⟨ls, hw, hn⟩ := hr.within
  refine (groupCols_apart hr.apart hi hg).append (measureCols_apart hr) ?_
  exact (groupCols_within hw hi).apart (measureCols_within hr)
    fun x hx hx' => (List.nodup_append.mp hn).2.2 x hx x hx' rfl

theorem pick_apart {l : List Col} (ha : Apart l) {is : List Int} (hn : is.Nodup)
    (h0 : ∀ i ∈ is, 0 ≤ i ∧ i.toNat < l.length) : Apart (pick l is) := by
  intro i j x y hx hy hxy
  rw [pick_getElem? fun k hk => (h0 k hk).2] at hx hy
  cases hi' : is[i]? with
  | none => simp [hi'] at hx
  | some a =>
    cases hj' : is[j]? with
    | none => simp [hj'] at hy
    | some b =>
      simp only [hi', hj', Option.bind_some] at hx hy
      have := ha _ _ x y hx hy hxy
      have a0 := (h0 a (List.mem_of_getElem? hi')).1
      have b0 := (h0 b (List.mem_of_getElem? hj')).1
      have hab : a = b := by omega
      obtain ⟨h3, -⟩ := List.getElem?_eq_some_iff.mp hi'
      exact (List.getElem?_inj h3 hn).mp (by rw [hi', hj', hab])

theorem aggregate_emit (hb : BodyFits lib fn (f.map Col.isColumn) emit (.aggregate [g] ms)) :
    ∀ i ∈ emit, 0 ≤ i ∧ ∃ c, (newCols n f (.aggregate [g] ms))[i.toNat]? = some c ∧
      c.isColumn = false := by
  intro i h
  have := hb.2.2.2.2.2 i h
  refine ⟨this.1, ?_⟩
  have hk := this.2
  rw [← newCols_kinds n, List.getElem?_map, Option.map_eq_some_iff] at hk
  exact hk

end aggregate

/-! ## Columns of trees -/

theorem tableCols_within {n : Names} {o : Own} {sn : Str} (hs : n.schema = some sn)
    (hm : ∀ l ∈ ownLabels n o, MadeUp l) (hc : ∀ c ∈ o.columns, ¬ MadeUp c)
    (hf : ∀ c ∈ o.columns, Ext.IsName c ∧ ¬ "_enum".toList <:+ c) :
    Within (ownLabels n o) (tableCols n o) := by
  intro c h
  simp only [tableCols, List.mem_map] at h
  obtain ⟨⟨x, k⟩, hx, rfl⟩ := h
  have hx' : x ∈ o.columns := (List.mem_zipIdx' hx).2 ▸ List.getElem_mem _
  have hl : sn ∈ ownLabels n o := by simp [ownLabels, hs]
  simp only [hs, Option.getD_some]
  exact ⟨⟨hm _ hl, (hf x hx').1, hc x hx', (hf x hx').2⟩, hl⟩

theorem tableCols_apart {n : Names} {o : Own} (hn : o.columns.Nodup)
    (hs : '.' ∉ (n.schema.getD [])) : Apart (tableCols n o) := by
  intro i j x y hx hy hxy
  simp only [tableCols, List.getElem?_map, List.getElem?_zipIdx, Option.map_map] at hx hy
  cases hi : o.columns[i]? with
  | none => simp [hi] at hx
  | some a =>
    cases hj : o.columns[j]? with
    | none => simp [hj] at hy
    | some b =>
      simp only [hi, hj, Option.map_some, Option.some.injEq, Function.comp] at hx hy
      subst hx
      subst hy
      have := (split_dot hs hs hxy).2
      obtain ⟨h3, -⟩ := List.getElem?_eq_some_iff.mp hi
      exact (List.getElem?_inj h3 hn).mp (by rw [hi, hj, this])

theorem outCols_within {f : List Col} {n : Names} {o : Own} (hr : Ready f n o)
    (hb : BodyFits lib fn (f.map Col.isColumn) o.emit o.body) (ht : TablesFit o)
    {qs : List Str} (hw : WellNamed n o qs) (hc : ∀ c ∈ o.columns, ¬ MadeUp c) {ls : List Str} (h : Within ls f) :
    Within (ls ++ ownLabels n o) (outCols n o f) ∧ Apart (outCols n o f) := by
  have hf : Within (ls ++ ownLabels n o) f := h.mono fun x hx => List.mem_append_left _ hx
  have hlen : (f.map Col.isColumn).length = f.length := by simp
  obtain ⟨body, emit, schema, source⟩ := o
  cases body with
  | read a b c d e =>
    obtain ⟨⟨sn, hs⟩, -⟩ := hw.reads rfl
    simp only [TablesFit, isRead, if_true] at ht
    obtain ⟨⟨st, rfl, hst⟩, -⟩ := ht
    have hcols : Own.columns ⟨.read a b c d e, emit, some st, source⟩ = st.names := rfl
    simp only [outCols]
    refine ⟨(tableCols_within hs hr.made hc fun c hc' => ⟨hst.names c (hcols ▸ hc'),
      hst.notEnum c (hcols ▸ hc')⟩).mono fun x hx => List.mem_append_right _ hx, ?_⟩
    refine tableCols_apart (hcols ▸ hst.once) ?_
    rw [hs]
    exact madeUp_no_dot (hr.made sn (by simp [ownLabels, hs]))
  | project es =>
    have hi := project_refs hb
    rw [hlen] at hi
    refine ⟨?_, project_apart hr hb⟩
    have := hf.append (hr.project_within hi h)
    simp only [outCols, newCols]
    split
    · exact this
    · exact fun c hc => this c (pick_mem hc)
  | aggregate gs ms =>
    have hg : ∃ g, gs = [g] := by
      simp only [BodyFits] at hb
      split at hb <;> simp_all
    obtain ⟨g, rfl⟩ := hg
    have hi := aggregate_refs hb
    rw [hlen] at hi
    have hwn : Within (ls ++ ownLabels n ⟨.aggregate [g] ms, emit, schema, source⟩)
        (newCols n f (.aggregate [g] ms)) := by
      simp only [newCols, List.flatten_cons, List.flatten_nil, List.append_nil]
      exact (groupCols_within hf hi).append ((measureCols_within hr).mono
        fun x hx => List.mem_append_right _ hx)
    have han := aggregate_new_apart hr hi hb.2.1
    simp only [outCols]
    split
    · exact ⟨hwn, han⟩
    · refine ⟨fun c hc => hwn c (pick_mem hc), pick_apart han hb.2.2.2.2.1 fun i him => ?_⟩
      obtain ⟨h0, c, h1, -⟩ := aggregate_emit (n := n) hb i him
      obtain ⟨h2, -⟩ := List.getElem?_eq_some_iff.mp h1
      exact ⟨h0, h2⟩
  | _ => exact ⟨hf, hr.apart⟩

/-- What is given for a tree with names. -/
structure Labelled (r : List Str) : Prop where
  once : r.Nodup
  made : ∀ l ∈ r, MadeUp l

theorem flatten_sublist {α : Type} {l l' : List (List α)} (h : l.Sublist l') :
    l.flatten.Sublist l'.flatten := by
  induction h with
  | slnil => exact List.Sublist.refl _
  | cons a _ ih =>
    rw [List.flatten_cons]
    exact ih.trans (List.sublist_append_right _ _)
  | cons_cons a _ ih =>
    rw [List.flatten_cons, List.flatten_cons]
    exact (List.Sublist.refl _).append ih

theorem inCols_sublist (o : Own) (kids : List NRel) :
    (inCols o kids).Sublist (colsL kids).flatten :=
  flatten_sublist (sublist_inputsIn o.body (colsL kids))

mutual
theorem cols_within : ∀ r, TreeLoose lib fn (erase r) → AllNamed r → ColumnsOwn r →
    Labelled (labels r) → Within (labels r) (cols r) ∧ Apart (cols r)
  | .node n o ins, h, hn, hc, hl => by
    have hr := ready_node n o ins h hn hc hl
    rw [erase, TreeLoose] at h
    obtain ⟨hb, ht, -, -, hi⟩ := h
    rw [← inCols_kinds] at hb
    rw [labels] at hl ⊢
    have hl' : Labelled (labelsL ins) :=
      ⟨(List.nodup_append.mp hl.once).1, fun l h => hl.made l (List.mem_append_left _ h)⟩
    have := colsL_within ins hi hn.2 hc.2 hl'
    rw [cols]
    exact outCols_within hr hb ht hn.1 hc.1 (this.1.sublist (inCols_sublist o ins))
theorem ready_node : ∀ n o ins, TreeLoose lib fn (erase (.node n o ins)) →
    AllNamed (.node n o ins) → ColumnsOwn (.node n o ins) →
    Labelled (labels (.node n o ins)) → Ready (inCols o ins) n o
  | n, o, ins, h, hn, hc, hl => by
    rw [erase, TreeLoose] at h
    obtain ⟨-, -, -, -, hi⟩ := h
    rw [labels] at hl
    have hl' : Labelled (labelsL ins) :=
      ⟨(List.nodup_append.mp hl.once).1, fun l h => hl.made l (List.mem_append_left _ h)⟩
    have := colsL_within ins hi hn.2 hc.2 hl'
    exact ⟨⟨_, this.1.sublist (inCols_sublist o ins), hl.once⟩,
      this.2.sublist (inCols_sublist o ins), fun l h => hl.made l (List.mem_append_right _ h),
      hn.1.measures⟩
theorem colsL_within : ∀ rs, TreesLoose lib fn (eraseL rs) → AllNamedL rs → ColumnsOwnL rs →
    Labelled (labelsL rs) → Within (labelsL rs) (colsL rs).flatten ∧ Apart (colsL rs).flatten
  | [], _, _, _, _ => ⟨by intro c hc; simp [colsL] at hc, by intro i j x y hx; simp [colsL] at hx⟩
  | r :: rs, h, hn, hc, hl => by
    rw [eraseL, TreesLoose] at h
    rw [labelsL] at hl ⊢
    have hd := List.nodup_append.mp hl.once
    have h1 := cols_within r h.1 hn.1 hc.1
      ⟨hd.1, fun l h => hl.made l (List.mem_append_left _ h)⟩
    have h2 := colsL_within rs h.2 hn.2 hc.2
      ⟨hd.2.1, fun l h => hl.made l (List.mem_append_right _ h)⟩
    rw [colsL, List.flatten_cons]
    refine ⟨(h1.1.mono fun x hx => List.mem_append_left _ hx).append
      (h2.1.mono fun x hx => List.mem_append_right _ hx), h1.2.append h2.2 ?_⟩
    exact h1.1.apart h2.1 fun x hx hx' => hd.2.2 x hx x hx' rfl
end

end Verif.Whole
