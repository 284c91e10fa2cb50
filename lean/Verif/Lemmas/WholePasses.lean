import Verif.Lemmas.WholeGraph
import Verif.Lemmas.WholeBlind

/-! # Both passes over the relations of a text -/

namespace Verif.Whole

open Verif Verif.TyPb Verif.Expr Verif.Schema

variable {s : Setting} {bs : List Ext.Block} {names : List Str} {r : NRel}

/-- The fields of the relation, as the reader has them. -/
def fieldsOf (x : NRel) : RelData := readFields x.names x.own x.inCols

theorem fieldsOf_plain {y : NRel} (h : plain y.own.body = true) :
    fieldsOf y = ⟨false, y.inCols.map Col.read, [], []⟩ := by
  unfold fieldsOf readFields
  revert h
  cases y.own.body <;> simp [plain]

theorem inCols_inputs (x : NRel) : x.inCols = x.inputs.flatMap cols := inCols_flatMap _ _

theorem inCols_read {lib : Literal.Lib} {fn : Known} {x : NRel} (h : Good lib fn x)
    (hr : isRead x.own.body = true) : x.inCols = [] := by
  have ha := h.arity
  have : arity x.own.body = 0 := by
    revert hr
    cases x.own.body <;> simp [isRead, arity]
  rw [this, List.length_eq_zero_iff] at ha
  rw [inCols_inputs, ha]
  rfl

theorem cols_node (x : NRel) : cols x = outCols x.names x.own x.inCols := by
  cases x with
  | node n o ins => rw [cols]; rfl

/-- The fields of inputs that have been read. -/
theorem inputFields_read {lib : Literal.Lib} {fn : Known} : ∀ ins : List NRel,
    (∀ x ∈ ins, Good lib fn x) → inputFields (ins.map fieldsOf) = (ins.flatMap cols).map Col.read
  | [], _ => rfl
  | x :: ins, h => by
    have g := h x (by simp)
    rw [List.map_cons, inputFields_cons, inputFields_read ins fun y hy => h y (by simp [hy]),
      fieldsOf, exposed_read g.body (inCols_read g), List.flatMap_cons, List.map_append, cols_node]

/-- The place of a relation for the reader. -/
def placeOf (r x : NRel) (g : Pipe.Table) (fresh : Nat → Str) (outer : List RelData) : Place :=
  ⟨fresh, Pipe.isSubquery g x.names.rel, upOf r x, outer⟩

/-- A relation after the first pass. -/
structure First (s : Setting) (bs : List Ext.Block) (names : List Str) (r : NRel) (g : Pipe.Table)
    (x : NRel) (d : Done) : Prop where
  data : Pipe.isSubquery g x.names.rel = false ∨ plain x.own.body = true → d.data = fieldsOf x
  next : ∃ fresh, ∀ up outer, Placed r x up → Outers up outer → ∃ b,
    Rel.readPass false (relOf (env1 s bs names r g) (placeOf r x g fresh outer) x).1 x.own.body.kind
      (treeOf s bs r x).details d.names = .ok (b, []) ∧
    (Pipe.isSubquery g x.names.rel = false ∨ plain x.own.body = true → b.data = fieldsOf x) ∧
    (⟨b.body, b.emit⟩ : Rel.PbRel) = newRel (env1 s bs names r g) x.names x.filled x.inCols

/-- A relation after the second pass. -/
structure Second (s : Setting) (bs : List Ext.Block) (names : List Str) (r : NRel) (g : Pipe.Table)
    (x : NRel) (d : Done) : Prop where
  data : Pipe.isSubquery g x.names.rel = false ∨ plain x.own.body = true → d.data = fieldsOf x
  rel : d.rel = newRel (env1 s bs names r g) x.names x.filled x.inCols

theorem newRel_kind (e : Env) (n : Names) (o : Own) (f : List Col) :
    (newRel e n o f).body.kind = o.body.kind := by
  rw [newRel, kind_renumber, kind_withNames]

theorem filled_kind (x : NRel) : x.filled.body.kind = x.own.body.kind := by
  rw [NRel.filled, Own.fill, fillBody_def, kind_relabel]

theorem plain_flat {x : NRel} (h : plain x.own.body = true) : Rel.Flat x.own.body := by
  revert h
  cases x.own.body <;> simp [plain, Rel.Flat, Rel.Body.kind]

/-- The passes over one relation. -/
theorem Fine.passes (h : Fine s bs names r) {x : NRel} (hx : x ∈ subs r) (g : Pipe.Table)
    (fresh : Nat → Str) : ∃ a, (∀ outer, Rel.readPass true
        (relOf (Whole.env1 s bs names r g) (placeOf r x g fresh outer) x).1 x.own.body.kind
        (treeOf s bs r x).details [] = .ok (a, [])) ∧
      First s bs names r g x ⟨a.data, a.names, ⟨a.body, a.emit⟩⟩ := by
  have gd := h.good x hx
  have key : ∀ up outer, Placed r x up → Outers up outer → ∃ a b, Rel.readPass true
        (relOf (Whole.env1 s bs names r g) (placeOf r x g fresh outer) x).1 x.own.body.kind
        (treeOf s bs r x).details [] = .ok (a, []) ∧
      Rel.readPass false (relOf (Whole.env1 s bs names r g) (placeOf r x g fresh outer) x).1
        x.own.body.kind (treeOf s bs r x).details a.names = .ok (b, []) ∧
      (Pipe.isSubquery g x.names.rel = false ∨ plain x.own.body = true →
        a.data = fieldsOf x ∧ b.data = fieldsOf x) ∧
      (⟨b.body, b.emit⟩ : Rel.PbRel) =
        newRel (Whole.env1 s bs names r g) x.names x.filled x.inCols := by
    intro up outer hpl ho
    obtain ⟨l, hl⟩ := h.line hpl (p := placeOf r x g fresh outer) rfl ho
    obtain ⟨a, b, h1, h2, h3, h4, h5⟩ := hl.passes
    have hk : (relOf (Whole.env1 s bs names r g) (placeOf r x g fresh outer) x).2.body.kind =
        x.own.body.kind := (newRel_kind _ _ _ _).trans (filled_kind x)
    rw [hk] at h1 h2
    refine ⟨a, b, h1, h2, fun hq => ?_, ?_⟩
    · have hd := h5 (hq.imp id fun hp => by
        have := plain_flat hp
        unfold Rel.Flat at this ⊢
        rw [hk]
        exact this) rfl (dataKnown_new (h.bodyFilled hx))
      have he : Rel.readData (relOf (Whole.env1 s bs names r g) (placeOf r x g fresh outer) x).1
          (relOf (Whole.env1 s bs names r g) (placeOf r x g fresh outer) x).2 = fieldsOf x :=
        (readData_new gd.readyFilled (h.bodyFilled hx) ((h.tablesKnown1 hx).fill _)
          gd.boundFilled).trans (readFields_fill _ _ _ _)
      rw [he] at hd
      exact hd
    · rw [h3, h4]
      rfl
  obtain ⟨up0, hp0⟩ := placed_subs hx
  obtain ⟨a, b0, h1, h2, h3, h4⟩ := key up0 _ hp0 (h.outers0 hp0)
  have hw : ∀ outer, Rel.readPass true
      (relOf (Whole.env1 s bs names r g) (placeOf r x g fresh outer) x).1 x.own.body.kind
      (treeOf s bs r x).details [] = .ok (a, []) := by
    intro outer
    rw [← h1, ← Rel.readPass_within outer (relOf (Whole.env1 s bs names r g)
      (placeOf r x g fresh (place0 r x).outer) x).1]
    rfl
  refine ⟨a, hw, fun hq => (h3 hq).1, fresh, fun up outer hpl ho => ?_⟩
  obtain ⟨a', b, e1, e2, e3, e4⟩ := key up outer hpl ho
  rw [hw outer] at e1
  injection e1 with e1
  injection e1 with e1
  subst e1
  exact ⟨b, e2, fun hq => (e3 hq).2, e4⟩

/-- The context of the reader is the one of the relation as far as the reader looks at it. -/
theorem Fine.readerContext (h : Fine s bs names r) {fuel : Nat} {g : Pipe.State}
    (hg : Graph r fuel g) {x : NRel} (hx : x ∈ subs r) {done : Relations}
    (hd : ∀ i ∈ x.inputs, done.fields i.names.rel = fieldsOf i) (hi : ∀ i ∈ x.inputs, i ∈ subs r)
    (fresh : List Str) :
    Whole.readerContext s.lib (table s bs names r) g.table done fresh x.names.rel =
      Rel.blind (relOf (Whole.env1 s bs names r g.table)
        (placeOf r x g.table (fun k => (fresh[k]?).getD [])
          ((Whole.outersOf g.table (g.table.order.length + 1) x.names.rel).map done.fields)) x).1 := by
  have e : inputsOf g.table done x.names.rel = x.inCols.map Col.read := by
    unfold inputsOf
    rw [hg.inputs x hx, List.map_map, inCols_inputs,
      ← inputFields_read x.inputs fun i hi' => h.good i (hi i hi')]
    congr 1
    exact List.map_congr_left hd
  unfold Whole.readerContext
  rw [e]
  rfl

theorem find_cons (n : Str) (d : Done) (l : Relations) (m : Str) :
    Relations.find ((n, d) :: l) m = if n = m then some d else l.find m := by
  unfold Relations.find
  rw [List.find?_cons]
  by_cases h : n = m <;> simp [h]

theorem fields_of {l : Relations} {n : Str} {d : Done} (h : l.find n = some d) :
    l.fields n = d.data := by
  unfold Relations.fields
  rw [h]
  rfl

/-- The first pass. -/
theorem Fine.first (h : Fine s bs names r) {fuel : Nat} {g : Pipe.State} (hg : Graph r fuel g) :
    ∀ (l seen : List NRel) (u : Counters) (done : Relations), Closed seen l →
    (∀ x ∈ seen ++ l, x ∈ subs r) → ((seen ++ l).map fun x => x.names.rel).Nodup →
    (∀ x ∈ seen, ∃ d, done.find x.names.rel = some d ∧ First s bs names r g.table x d) →
    (∀ x ∈ l, done.find x.names.rel = none) →
    ∃ done', readRelations s.lib (table s bs names r) g.table true u done
        (l.map (treeOf s bs r)) = .ok done' ∧
      ∀ x ∈ seen ++ l, ∃ d, done'.find x.names.rel = some d ∧ First s bs names r g.table x d
  | [], seen, u, done, _, _, _, hd, _ => ⟨done, rfl, by simpa using hd⟩
  | x :: l, seen, u, done, hc, hm, hn, hd, hf => by
    have hx : x ∈ subs r := hm x (by simp)
    have hin : ∀ i ∈ x.inputs, i ∈ seen := fun i hi => hc.1 i (mem_inputsIn hi)
    obtain ⟨a, e1, e2⟩ := h.passes hx g.table
      (fun k => (((freshOf true u (treeOf s bs r x)).2)[k]?).getD [])
    have hr : readRelation s.lib (table s bs names r) g.table true done
        (freshOf true u (treeOf s bs r x)).2 (treeOf s bs r x) =
        .ok ⟨a.data, a.names, ⟨a.body, a.emit⟩⟩ := by
      unfold readRelation
      rw [h.tree_kind hx, h.tree_name hx]
      simp only
      have ho := h.readerContext hg hx (done := done) (fun i hi => by
        obtain ⟨d, hd1, hd2⟩ := hd i (hin i hi)
        rw [fields_of hd1, hd2.data (.inl (h.input_outside hg hx hi))])
        (fun i hi => hm i (by simp [hin i hi])) (freshOf true u (treeOf s bs r x)).2
      rw [ho, Rel.readPass_blind, Relations.namesOf, hf x (by simp)]
      simp only [Option.map_none, Option.getD_none]
      rw [e1]
      rfl
    have hnx : ∀ y ∈ seen ++ l, x.names.rel ≠ y.names.rel := by
      rw [List.map_append, List.map_cons, List.nodup_append] at hn
      obtain ⟨h1, h2, h3⟩ := hn
      intro y hy e
      rcases List.mem_append.mp hy with hy | hy
      · exact h3 _ (List.mem_map.mpr ⟨y, hy, rfl⟩) _ (by simp) e.symm
      · exact (List.nodup_cons.mp h2).1 (e ▸ List.mem_map.mpr ⟨y, hy, rfl⟩)
    rw [List.map_cons, readRelations, hr, Outcome.bind_ok, h.tree_name hx]
    have := Fine.first h hg l (seen ++ [x]) (freshOf true u (treeOf s bs r x)).1
      ((x.names.rel, ⟨a.data, a.names, ⟨a.body, a.emit⟩⟩) :: done) hc.2
      (by simpa using hm) (by simpa using hn) ?_ ?_
    · simpa using this
    · intro y hy
      rcases List.mem_append.mp hy with hy | hy
      · rw [find_cons, if_neg (hnx y (by simp [hy]))]
        exact hd y hy
      · rw [List.mem_singleton] at hy
        subst hy
        rw [find_cons, if_pos rfl]
        exact ⟨_, rfl, e2⟩
    · intro y hy
      rw [find_cons, if_neg (hnx y (by simp [hy]))]
      exact hf y (by simp [hy])

/-- The second pass. -/
theorem Fine.second (h : Fine s bs names r) {fuel : Nat} {g : Pipe.State} (hg : Graph r fuel g) :
    ∀ (l seen : List NRel) (u : Counters) (done : Relations), Closed seen l →
    (∀ x ∈ seen ++ l, x ∈ subs r) → ((seen ++ l).map fun x => x.names.rel).Nodup →
    (∀ x ∈ seen, ∃ d, done.find x.names.rel = some d ∧ Second s bs names r g.table x d) →
    (∀ x ∈ l, ∃ d, done.find x.names.rel = some d ∧ First s bs names r g.table x d) →
    (∀ x ∈ subs r, x ∈ seen ++ l) →
    ∃ done', readRelations s.lib (table s bs names r) g.table false u done
        (l.map (treeOf s bs r)) = .ok done' ∧
      ∀ x ∈ seen ++ l, ∃ d, done'.find x.names.rel = some d ∧ Second s bs names r g.table x d
  | [], seen, u, done, _, _, _, hd, _, _ => ⟨done, rfl, by simpa using hd⟩
  | x :: l, seen, u, done, hc, hm, hn, hd, hf, hall => by
    have hx : x ∈ subs r := hm x (by simp)
    obtain ⟨dx, hdx, hfx⟩ := hf x (by simp)
    have hin : ∀ i ∈ x.inputs, i ∈ seen := fun i hi => hc.1 i (mem_inputsIn hi)
    obtain ⟨fresh, hnext⟩ := hfx.next
    have ho := h.readerContext hg hx (done := done) (fun i hi => by
      obtain ⟨d, hd1, hd2⟩ := hd i (hin i hi)
      rw [fields_of hd1, hd2.data (.inl (h.input_outside hg hx hi))])
      (fun i hi => hm i (by simp [hin i hi])) (freshOf false u (treeOf s bs r x)).2
    obtain ⟨up, hpl⟩ := placed_subs hx
    have hout : Outers up ((Whole.outersOf g.table (g.table.order.length + 1) x.names.rel).map
        done.fields) := by
      have hlen := h.order_length hg
      have hdep := hpl.depth
      obtain ⟨m, hm'⟩ := h.outersOf hg hpl (k := g.table.order.length + 1) (by omega)
      rw [hm', List.map_append, List.map_map]
      intro k y hy hp
      refine ⟨false, [], ?_⟩
      rw [List.getElem?_append_left (by
        rw [List.length_map]
        exact (List.getElem?_eq_some_iff.mp hy).1), List.getElem?_map, hy]
      have hys := hpl.mem y (List.mem_of_getElem? hy)
      have : done.fields y.names.rel = fieldsOf y := by
        rcases List.mem_append.mp (hall y hys) with hs | hs
        · obtain ⟨d, d1, d2⟩ := hd y hs
          rw [fields_of d1, d2.data (.inr hp)]
        · obtain ⟨d, d1, d2⟩ := hf y hs
          rw [fields_of d1, d2.data (.inr hp)]
      simp only [Option.map_some, Function.comp, this, Option.some.injEq]
      exact fieldsOf_plain hp
    obtain ⟨b, e1, e2, e3⟩ := hnext up _ hpl hout
    have hr : readRelation s.lib (table s bs names r) g.table false done
        (freshOf false u (treeOf s bs r x)).2 (treeOf s bs r x) =
        .ok ⟨b.data, b.names, ⟨b.body, b.emit⟩⟩ := by
      unfold readRelation
      rw [h.tree_kind hx, h.tree_name hx]
      simp only
      rw [ho, Rel.readPass_blind, Relations.namesOf, hdx]
      simp only [Option.map_some, Option.getD_some]
      rw [← Rel.readPass_naming fresh]
      rw [show Rel.naming fresh (relOf (Whole.env1 s bs names r g.table) (placeOf r x g.table
        (fun k => (((freshOf false u (treeOf s bs r x)).2)[k]?).getD [])
          ((Whole.outersOf g.table (g.table.order.length + 1) x.names.rel).map done.fields)) x).1 =
          (relOf (Whole.env1 s bs names r g.table) (placeOf r x g.table fresh
            ((Whole.outersOf g.table (g.table.order.length + 1) x.names.rel).map done.fields)) x).1
          from rfl, e1]
      rfl
    have hnx : ∀ y ∈ seen ++ l, x.names.rel ≠ y.names.rel := by
      rw [List.map_append, List.map_cons, List.nodup_append] at hn
      obtain ⟨h1, h2, h3⟩ := hn
      intro y hy e
      rcases List.mem_append.mp hy with hy | hy
      · exact h3 _ (List.mem_map.mpr ⟨y, hy, rfl⟩) _ (by simp) e.symm
      · exact (List.nodup_cons.mp h2).1 (e ▸ List.mem_map.mpr ⟨y, hy, rfl⟩)
    rw [List.map_cons, readRelations, hr, Outcome.bind_ok, h.tree_name hx]
    have := Fine.second h hg l (seen ++ [x]) (freshOf false u (treeOf s bs r x)).1
      ((x.names.rel, ⟨b.data, b.names, ⟨b.body, b.emit⟩⟩) :: done) hc.2
      (by simpa using hm) (by simpa using hn) ?_ ?_ (by simpa using hall)
    · simpa using this
    · intro y hy
      rcases List.mem_append.mp hy with hy | hy
      · rw [find_cons, if_neg (hnx y (by simp [hy]))]
        exact hd y hy
      · rw [List.mem_singleton] at hy
        subst hy
        rw [find_cons, if_pos rfl]
        exact ⟨_, rfl, e2, e3⟩
    · intro y hy
      rw [find_cons, if_neg (hnx y (by simp [hy]))]
      exact hf y (by simp [hy])

/-- Both passes. -/
theorem Fine.readPasses (h : Fine s bs names r) {fuel : Nat} {g : Pipe.State}
    (hg : Graph r fuel g) :
    ∃ done, Whole.readPasses s.lib (table s bs names r) g.table ((subs r).map (treeOf s bs r)) =
        .ok done ∧
      ∀ x ∈ subs r, ∃ d, done.find x.names.rel = some d ∧ Second s bs names r g.table x d := by
  obtain ⟨d1, e1, h1⟩ := h.first hg (subs r) [] Sym.Table.empty [] (closed_subs r [])
    (by simp) h.relations_nodup (by simp) (fun x _ => rfl)
  obtain ⟨d2, e2, h2⟩ := h.second hg (subs r) [] Sym.Table.empty d1 (closed_subs r [])
    (by simp) h.relations_nodup (by simp) (by simpa using h1) (by simp)
  refine ⟨d2, ?_, by simpa using h2⟩
  unfold Whole.readPasses
  rw [e1, Outcome.bind_ok, e2]

end Verif.Whole
