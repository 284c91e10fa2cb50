import Verif.Lemmas.WholeFuns

/-! # The relations around a relation -/

namespace Verif.Whole

open Verif Verif.TyPb Verif.Expr Verif.Schema

variable {r : NRel}

mutual
theorem subs_trans : ∀ {r x y : NRel}, x ∈ subs r → y ∈ subs x → y ∈ subs r
  | .node n o kids, x, y, hx, hy => by
    rw [subs] at hx ⊢
    rcases List.mem_append.mp hx with hx | hx
    · exact List.mem_append_left _ (subsL_trans hx hy)
    · rw [List.mem_singleton] at hx
      subst hx
      rw [subs] at hy
      exact hy
theorem subsL_trans : ∀ {rs : List NRel} {x y : NRel}, x ∈ subsL rs → y ∈ subs x → y ∈ subsL rs
  | [], x, y, hx, _ => by simp [subsL] at hx
  | r :: rs, x, y, hx, hy => by
    rw [subsL] at hx ⊢
    rcases List.mem_append.mp hx with hx | hx
    · exact List.mem_append_left _ (subs_trans hx hy)
    · exact List.mem_append_right _ (subsL_trans hx hy)
end

theorem self_subs (x : NRel) : x ∈ subs x := by
  cases x with
  | node n o kids => rw [subs]; simp

theorem kids_subs {x k : NRel} (h : k ∈ x.kids) : k ∈ subs x := by
  cases x with
  | node n o kids =>
    rw [subs]
    exact List.mem_append_left _ (mem_subsL h)

theorem inputs_subs {x k : NRel} (hx : x ∈ subs r) (h : k ∈ x.inputs) : k ∈ subs r :=
  subs_trans hx (kids_subs (mem_inputsIn h))

theorem queries_subs {x k : NRel} (hx : x ∈ subs r) (h : k ∈ x.queries) : k ∈ subs r :=
  subs_trans hx (kids_subs (mem_queriesIn h))

/-! ## Places -/

/-- The relation is in the tree, and these are the relations it is in a subquery of. -/
inductive Placed (r : NRel) : NRel → List NRel → Prop
  | top : Placed r r []
  | input {x i : NRel} {up : List NRel} : Placed r x up → i ∈ x.inputs →
    Placed r i (if Pipe.convShape (pipeKind x.own.body) = .single then up else [])
  | query {x q : NRel} {up : List NRel} : Placed r x up → q ∈ x.queries → Placed r q (x :: up)

mutual
theorem Placed.under : ∀ {x : NRel} {up : List NRel}, Placed r x up → ∀ y ∈ subs x,
    ∃ up', Placed r y up'
  | .node n o kids, up, h, y, hy => by
    rw [subs] at hy
    rcases List.mem_append.mp hy with hy | hy
    · refine placedL_under kids (fun k hk => ?_) y hy
      rcases List.mem_append.mp ((perm_split o.body kids).mem_iff.mp hk) with hk | hk
      · exact ⟨_, h.input hk⟩
      · exact ⟨_, h.query hk⟩
    · rw [List.mem_singleton] at hy
      exact ⟨up, hy ▸ h⟩
theorem placedL_under : ∀ (rs : List NRel), (∀ k ∈ rs, ∃ up, Placed r k up) → ∀ y ∈ subsL rs,
    ∃ up, Placed r y up
  | [], _, y, hy => by simp [subsL] at hy
  | k :: rs, h, y, hy => by
    rw [subsL] at hy
    rcases List.mem_append.mp hy with hy | hy
    · obtain ⟨up, hu⟩ := h k (by simp)
      exact Placed.under hu y hy
    · exact placedL_under rs (fun j hj => h j (by simp [hj])) y hy
end

theorem placed_subs {x : NRel} (hx : x ∈ subs r) : ∃ up, Placed r x up := Placed.top.under x hx

theorem Placed.subs {x : NRel} {up : List NRel} (h : Placed r x up) : x ∈ subs r := by
  induction h with
  | top => exact self_subs r
  | input _ hi ih => exact inputs_subs ih hi
  | query _ hq ih => exact queries_subs ih hq

/-- The relation around has its own relations around it. -/
theorem Placed.tail {x : NRel} {l : List NRel} (h : Placed r x l) :
    ∀ {y : NRel} {up : List NRel}, l = y :: up → Placed r y up := by
  induction h with
  | top => intro y up e; simp at e
  | input _ _ ih =>
    intro y up e
    split at e
    · exact ih e
    · simp at e
  | query hx _ _ =>
    intro y up e
    injection e with e1 e2
    subst e1 e2
    exact hx

theorem Placed.mem : ∀ {up : List NRel} {x : NRel}, Placed r x up → ∀ y ∈ up,
    y ∈ Whole.subs r
  | [], _, _, y, hy => by simp at hy
  | z :: up, x, h, y, hy => by
    have hz := h.tail rfl
    rcases List.mem_cons.mp hy with rfl | hy
    · exact hz.subs
    · exact Placed.mem hz y hy

/-- A relation around is the owner of a subquery that the relation and all between are in. -/
theorem Placed.inside {x : NRel} {up : List NRel} (h : Placed r x up) :
    ∀ {k : Nat} {y : NRel}, up[k]? = some y → ∃ q ∈ y.queries, x ∈ Whole.subs q ∧
      ∀ j, j < k → ∀ z, up[j]? = some z → z ∈ Whole.subs q := by
  induction h with
  | top => intro k y h; simp at h
  | @input x i up _ hi ih =>
    intro k y hk
    split at hk
    · next hs =>
      obtain ⟨q, hq, h1, h2⟩ := ih hk
      rw [if_pos hs]
      exact ⟨q, hq, inputs_subs h1 hi, h2⟩
    · simp at hk
  | @query x q up _ hq ih =>
    intro k y hk
    cases k with
    | zero =>
      simp only [List.getElem?_cons_zero, Option.some.injEq] at hk
      subst hk
      exact ⟨q, hq, self_subs q, fun j hj => absurd hj (by omega)⟩
    | succ k =>
      rw [List.getElem?_cons_succ] at hk
      obtain ⟨p, hp, h1, h2⟩ := ih hk
      refine ⟨p, hp, queries_subs h1 hq, fun j hj z hz => ?_⟩
      cases j with
      | zero =>
        simp only [List.getElem?_cons_zero, Option.some.injEq] at hz
        exact hz ▸ h1
      | succ j => exact h2 j (by omega) z (by simpa using hz)

theorem subsL_length_le {k : NRel} : ∀ {rs : List NRel}, k ∈ rs →
    (subs k).length ≤ (subsL rs).length
  | [], h => by simp at h
  | r :: rs, h => by
    rw [subsL, List.length_append]
    rcases List.mem_cons.mp h with rfl | h
    · omega
    · have := subsL_length_le h
      omega

theorem kid_shorter {x k : NRel} (h : k ∈ x.kids) : (subs k).length < (subs x).length := by
  cases x with
  | node n o kids =>
    rw [subs, List.length_append, List.length_singleton]
    have := subsL_length_le (rs := kids) h
    omega

/-- There are fewer relations around than relations. -/
theorem Placed.depth {x : NRel} {up : List NRel} (h : Placed r x up) :
    up.length + (Whole.subs x).length ≤ (Whole.subs r).length := by
  induction h with
  | top => simp
  | @input x i up _ hi ih =>
    have := kid_shorter (mem_inputsIn hi)
    split
    · omega
    · simp only [List.length_nil]; omega
  | @query x q up _ hq ih =>
    have := kid_shorter (mem_queriesIn hq)
    rw [List.length_cons]
    omega

/-! ## The names of the relations around -/

theorem mem_ownersL {up : List Str} {t : Pipe.Rel} {e : Str × List Str} :
    ∀ {ts : List Pipe.Rel}, t ∈ ts → e ∈ owners up t → e ∈ ownersL up ts
  | [], h, _ => by simp at h
  | u :: ts, h, he => by
    rw [ownersL]
    rcases List.mem_cons.mp h with rfl | h
    · exact List.mem_append_left _ he
    · exact List.mem_append_right _ (mem_ownersL h he)

mutual
theorem owners_names : ∀ (t : Pipe.Rel) (up : List Str), (owners up t).map (·.1) = Pipe.names t
  | .node k n ins sb, up => by
    rw [owners, Pipe.names, List.map_cons, List.map_append, ownersL_names ins, ownersL_names sb]
theorem ownersL_names : ∀ (ts : List Pipe.Rel) (up : List Str),
    (ownersL up ts).map (·.1) = Pipe.namesL ts
  | [], _ => by rw [ownersL, Pipe.namesL]; rfl
  | t :: ts, up => by
    rw [ownersL, Pipe.namesL, List.map_append, owners_names t, ownersL_names ts]
end

theorem Placed.owners {x : NRel} {up : List NRel} (h : Placed r x up) :
    ∀ e ∈ Whole.owners (up.map (·.names.rel)) (skeleton x), e ∈ Whole.owners [] (skeleton r) := by
  induction h with
  | top => intro e he; exact he
  | @input x i up _ hi ih =>
    intro e he
    refine ih e ?_
    rw [skeleton_eq, Whole.owners]
    refine List.mem_cons_of_mem _ (List.mem_append_left _ (mem_ownersL (t := skeleton i) ?_ ?_))
    · rw [skeletonL_map]
      exact List.mem_map.mpr ⟨i, hi, rfl⟩
    · split at he
      · next hs => rw [if_pos hs]; exact he
      · next hs => rw [if_neg hs]; exact he
  | @query x q up _ hq ih =>
    intro e he
    refine ih e ?_
    rw [skeleton_eq, Whole.owners]
    refine List.mem_cons_of_mem _ (List.mem_append_right _ (mem_ownersL (t := skeleton q) ?_ he))
    rw [skeletonL_map]
    exact List.mem_map.mpr ⟨q, hq, rfl⟩

/-- The names of the relations around. -/
theorem Placed.ownersOf {x : NRel} {up : List NRel} (h : Placed r x up)
    (hn : (relNames r).Nodup) : Whole.ownersOf (skeleton r) x.names.rel = up.map (·.names.rel) := by
  have hm : (x.names.rel, up.map (·.names.rel)) ∈ Whole.owners [] (skeleton r) := by
    refine h.owners _ ?_
    rw [skeleton_eq, Whole.owners]
    exact List.mem_cons_self
  have hk : ((Whole.owners [] (skeleton r)).map (·.1)).Nodup := by
    rw [owners_names]
    exact (names_subs r).nodup_iff.mpr hn
  unfold Whole.ownersOf
  rw [find_unique (key := fun e : Str × List Str => e.1) hk hm]
  rfl

/-! ## What the relations around allow -/

/-- The numbers of columns of the relations around that may be referred to. -/
def widths : List NRel → List Nat
  | [] => []
  | y :: up => if plain y.own.body then y.inCols.length :: widths up else []

theorem widths_get : ∀ {up : List NRel} {k w : Nat}, (widths up)[k]? = some w →
    ∃ y, up[k]? = some y ∧ w = y.inCols.length ∧
      ∀ j, j ≤ k → ∀ z, up[j]? = some z → plain z.own.body = true
  | [], k, w, h => by simp [widths] at h
  | y :: up, k, w, h => by
    rw [widths] at h
    split at h
    · next hp =>
      cases k with
      | zero =>
        simp only [List.getElem?_cons_zero, Option.some.injEq] at h
        refine ⟨y, by simp, h.symm, fun j hj z hz => ?_⟩
        have : j = 0 := by omega
        subst this
        simp only [List.getElem?_cons_zero, Option.some.injEq] at hz
        exact hz ▸ hp
      | succ k =>
        rw [List.getElem?_cons_succ] at h
        obtain ⟨z, h1, h2, h3⟩ := widths_get h
        refine ⟨z, by simpa using h1, h2, fun j hj u hu => ?_⟩
        cases j with
        | zero =>
          simp only [List.getElem?_cons_zero, Option.some.injEq] at hu
          exact hu ▸ hp
        | succ j => exact h3 j (by omega) u (by simpa using hu)
    · simp at h

theorem treesFit_get {lib : Literal.Lib} {fn : Known} : ∀ {rs : List BRel} {up : Nat → List Nat}
    {i : Nat} {t : BRel}, TreesFit lib fn up rs → rs[i]? = some t → TreeFits lib fn (up i) t
  | [], _, i, t, _, h => by simp at h
  | r :: rs, up, i, t, hf, h => by
    rw [TreesFit] at hf
    cases i with
    | zero =>
      simp only [List.getElem?_cons_zero, Option.some.injEq] at h
      exact h ▸ hf.1
    | succ i =>
      rw [List.getElem?_cons_succ] at h
      exact treesFit_get (up := fun j => up (j + 1)) hf.2 h

theorem eraseL_map : ∀ rs : List NRel, eraseL rs = rs.map erase
  | [] => rfl
  | r :: rs => by rw [eraseL, List.map_cons, eraseL_map rs]

theorem input_index {α : Type} {b : Rel.Body} {l : List α} {x : α} (h : x ∈ inputsIn b l) :
    ∃ i : Nat, l[i]? = some x ∧ isInput b l.length i = true := by
  unfold inputsIn at h
  unfold isInput
  split at h
  · next hf =>
    obtain ⟨i, hi⟩ := List.mem_iff_getElem?.mp h
    rw [List.getElem?_take] at hi
    split at hi
    · next hlt => exact ⟨i, hi, by simp [hf, hlt]⟩
    · simp at hi
  · next hf =>
    obtain ⟨i, hi⟩ := List.mem_iff_getElem?.mp h
    rw [List.getElem?_drop] at hi
    exact ⟨_, hi, by simp [hf]⟩

theorem query_index {α : Type} {b : Rel.Body} {l : List α} {x : α} (h : x ∈ queriesIn b l) :
    ∃ i : Nat, l[i]? = some x ∧ isInput b l.length i = false := by
  unfold queriesIn at h
  unfold isInput
  split at h
  · next hf =>
    obtain ⟨i, hi⟩ := List.mem_iff_getElem?.mp h
    rw [List.getElem?_drop] at hi
    exact ⟨_, hi, by simp [hf]⟩
  · next hf =>
    obtain ⟨i, hi⟩ := List.mem_iff_getElem?.mp h
    rw [List.getElem?_take] at hi
    split at hi
    · next hlt => exact ⟨i, hi, by simp [hf]; omega⟩
    · simp at hi

theorem treeFits_kids {lib : Literal.Lib} {fn : Known} {x : NRel} {ups : List Nat}
    (h : TreeFits lib fn ups (erase x)) {i : Nat} {k : NRel} (hk : x.kids[i]? = some k) :
    TreeFits lib fn (around x.own.body x.inCols.length ups x.kids.length i) (erase k) := by
  cases x with
  | node n o kids =>
    rw [erase, TreeFits] at h
    have hl : (inKinds o (eraseL kids)).length = (inCols o kids).length :=
      (inCols_length o kids).symm
    rw [hl] at h
    have := treesFit_get (i := i) (t := erase k) h.2.2.2.2
      (by rw [eraseL_map, List.getElem?_map]; exact congrArg _ hk)
    rw [eraseL_map, List.length_map] at this
    exact this

theorem Placed.fits {lib : Literal.Lib} {fn : Known} {x : NRel} {up : List NRel}
    (h : Placed r x up) (hf : TreeFits lib fn [] (erase r)) :
    TreeFits lib fn (widths up) (erase x) := by
  induction h with
  | top => exact hf
  | @input x i up _ hi ih =>
    obtain ⟨k, h1, h2⟩ := input_index hi
    have := treeFits_kids ih h1
    rw [around, if_pos h2] at this
    split at this
    · next hs => rw [if_pos hs]; exact this
    · next hs => rw [if_neg hs]; exact this
  | @query x q up _ hq ih =>
    obtain ⟨k, h1, h2⟩ := query_index hq
    have := treeFits_kids ih h1
    rw [around, if_neg (by simp [h2])] at this
    rw [widths]
    exact this

theorem treeFits_body {lib : Literal.Lib} {fn : Known} {x : NRel} {ups : List Nat}
    (h : TreeFits lib fn ups (erase x)) :
    BodyFits lib (fn.within ups) (x.inCols.map Col.isColumn) x.own.emit x.own.body := by
  cases x with
  | node n o kids =>
    rw [erase, TreeFits, ← inCols_kinds] at h
    exact h.1

/-! ## Columns of relations in one another -/

mutual
theorem given_subs {lib : Literal.Lib} {fn : Known} : ∀ r, TreeLoose lib fn (erase r) →
    AllNamed r → ColumnsOwn r → Labelled (labels r) → ∀ x ∈ subs r,
      TreeLoose lib fn (erase x) ∧ AllNamed x ∧ ColumnsOwn x ∧ Labelled (labels x)
  | .node n o ins, h, hn, hc, hl => by
    intro x hx
    rw [subs] at hx
    rcases List.mem_append.mp hx with hx | hx
    · rw [erase, TreeLoose] at h
      rw [labels] at hl
      exact givenL_subs ins h.2.2.2.2 hn.2 hc.2
        ⟨(List.nodup_append.mp hl.once).1, fun l h => hl.made l (List.mem_append_left _ h)⟩ x hx
    · rw [List.mem_singleton] at hx
      subst hx
      exact ⟨h, hn, hc, hl⟩
theorem givenL_subs {lib : Literal.Lib} {fn : Known} : ∀ rs, TreesLoose lib fn (eraseL rs) →
    AllNamedL rs → ColumnsOwnL rs → Labelled (labelsL rs) → ∀ x ∈ subsL rs,
      TreeLoose lib fn (erase x) ∧ AllNamed x ∧ ColumnsOwn x ∧ Labelled (labels x)
  | [], _, _, _, _ => by intro x hx; simp [subsL] at hx
  | r :: rs, h, hn, hc, hl => by
    intro x hx
    rw [eraseL, TreesLoose] at h
    rw [labelsL] at hl
    have hd := List.nodup_append.mp hl.once
    rw [subsL] at hx
    rcases List.mem_append.mp hx with hx | hx
    · exact given_subs r h.1 hn.1 hc.1
        ⟨hd.1, fun l h => hl.made l (List.mem_append_left _ h)⟩ x hx
    · exact givenL_subs rs h.2 hn.2 hc.2
        ⟨hd.2.1, fun l h => hl.made l (List.mem_append_right _ h)⟩ x hx
end

theorem newCols_within {lib : Literal.Lib} {fn : Known} {f : List Col} {n : Names} {o : Own}
    (hr : Ready f n o) (hb : BodyFits lib fn (f.map Col.isColumn) o.emit o.body) {ls : List Str}
    (h : Within ls f) : Within (ls ++ ownLabels n o) (newCols n f o.body) := by
  have hf : Within (ls ++ ownLabels n o) f := h.mono fun x hx => List.mem_append_left _ hx
  obtain ⟨body, emit, schema, source⟩ := o
  cases body with
  | project es =>
    have hi := project_refs hb
    rw [List.length_map] at hi
    exact hr.project_within hi h
  | aggregate gs ms =>
    have hg : ∃ g, gs = [g] := by
      simp only [BodyFits] at hb
      split at hb <;> simp_all
    obtain ⟨g, rfl⟩ := hg
    have hi := aggregate_refs hb
    rw [List.length_map] at hi
    simp only [newCols, List.flatten_cons, List.flatten_nil, List.append_nil]
    exact (groupCols_within hf hi).append ((measureCols_within hr).mono
      fun x hx => List.mem_append_right _ hx)
  | _ => intro c hc; simp [newCols] at hc

/-- What is given of a tree with names. -/
structure Given (lib : Literal.Lib) (fn : Known) (r : NRel) : Prop where
  tree : TreeLoose lib fn (erase r)
  named : AllNamed r
  columns : ColumnsOwn r
  labelled : Labelled (labels r)

theorem Given.sub {lib : Literal.Lib} {fn : Known} (h : Given lib fn r) {x : NRel}
    (hx : x ∈ subs r) : Given lib fn x := by
  obtain ⟨h1, h2, h3, h4⟩ := given_subs r h.tree h.named h.columns h.labelled x hx
  exact ⟨h1, h2, h3, h4⟩

theorem Given.good {lib : Literal.Lib} {fn : Known} (h : Given lib fn r) {x : NRel}
    (hx : x ∈ subs r) : Good lib fn x := good_subs r h.tree h.named h.columns h.labelled x hx

theorem labels_trans {x y : NRel} (hx : x ∈ subs y) : ∀ l ∈ labels x, l ∈ labels y := by
  intro l hl
  rw [labels_subs, List.mem_flatMap] at hl ⊢
  obtain ⟨z, hz, h⟩ := hl
  exact ⟨z, subs_trans hx hz, h⟩

/-- The columns of the inputs of a relation are named by the inputs. -/
theorem Given.inCols_inputs {lib : Literal.Lib} {fn : Known} {x : NRel} (h : Given lib fn x) :
    ∀ c ∈ x.inCols, ∃ i ∈ x.inputs, c.Ok ∧ c.label ∈ labels i := by
  intro c hc
  rw [show x.inCols = x.inputs.flatMap cols from inCols_flatMap _ _] at hc
  obtain ⟨i, hi, hc⟩ := List.mem_flatMap.mp hc
  have hg := h.sub (kids_subs (mem_inputsIn hi))
  have := (cols_within i hg.tree hg.named hg.columns hg.labelled).1 c hc
  exact ⟨i, hi, this⟩

/-- The columns of a relation are named by the tree. -/
theorem Given.within {lib : Literal.Lib} {fn : Known} {x : NRel} (h : Given lib fn x) :
    Within (labels x) (x.inCols ++ newCols x.names x.inCols x.own.body) := by
  have hg := h.good (self_subs x)
  have h1 : Within (labelsL x.kids) x.inCols := by
    cases x with
    | node n o ins =>
      have ht := h.tree
      rw [erase, TreeLoose] at ht
      have hl := h.labelled
      rw [labels] at hl
      exact (colsL_within ins ht.2.2.2.2 h.named.2 h.columns.2 ⟨(List.nodup_append.mp hl.once).1,
        fun l h => hl.made l (List.mem_append_left _ h)⟩).1.sublist (inCols_sublist o ins)
  have h2 := newCols_within hg.ready hg.body h1
  have e : labels x = labelsL x.kids ++ ownLabels x.names x.own := by
    cases x with
    | node n o ins => rw [labels]; rfl
  rw [e]
  exact (h1.mono fun l hl => List.mem_append_left _ hl).append h2

theorem labelsL_mem {x : NRel} {l : Str} : ∀ {rs : List NRel}, x ∈ rs → l ∈ labels x →
    l ∈ labelsL rs
  | [], h, _ => by simp at h
  | r :: rs, h, hl => by
    rw [labelsL]
    rcases List.mem_cons.mp h with rfl | h
    · exact List.mem_append_left _ hl
    · exact List.mem_append_right _ (labelsL_mem h hl)

theorem labelsL_eq : ∀ rs : List NRel, labelsL rs = rs.flatMap labels
  | [] => rfl
  | r :: rs => by rw [labelsL, List.flatMap_cons, labelsL_eq rs]

/-- Inputs and subqueries have different labels. -/
theorem labels_apart {x i q : NRel} (h : (labels x).Nodup) (hi : i ∈ x.inputs)
    (hq : q ∈ x.queries) : ∀ l ∈ labels i, l ∉ labels q := by
  intro l h1 h2
  have hn : (labelsL x.kids).Nodup := by
    cases x with
    | node n o ins =>
      rw [labels] at h
      exact (List.nodup_append.mp h).1
  rw [labelsL_eq] at hn
  have hp := ((perm_split x.own.body x.kids).flatMap_right labels).nodup_iff.mp hn
  rw [List.flatMap_append, List.nodup_append] at hp
  exact hp.2.2 l (List.mem_flatMap.mpr ⟨i, hi, h1⟩) l (List.mem_flatMap.mpr ⟨q, hq, h2⟩) rfl

/-- Columns that come into a relation are not called like the ones in its subqueries. -/
theorem Given.apart {lib : Literal.Lib} {fn : Known} {y q x : NRel} (h : Given lib fn y)
    (hq : q ∈ y.queries) (hx : x ∈ subs q) : ∀ c ∈ y.inCols,
      ∀ d ∈ x.inCols ++ newCols x.names x.inCols x.own.body, d.text ≠ c.text := by
  intro c hc d hd
  obtain ⟨i, hi, hc⟩ := h.inCols_inputs c hc
  have hxy := queries_subs (self_subs y) hq
  have hd := (h.sub (subs_trans hxy hx)).within d hd
  intro e
  have := (hd.1.label_eq hc.1 e).1
  exact labels_apart h.labelled.once hi hq _ hc.2 (labels_trans hx _ (this ▸ hd.2))

/-! ## Finding columns of relations around -/

theorem lookup_get : ∀ {l : List RelData} {k : Nat} {d : RelData} {i : Nat}, l[k]? = some d →
    lookup l k i = ((d.fields ++ d.generated)[i]?).map nameOf
  | [], k, d, i, h => by simp at h
  | a :: l, 0, d, i, h => by
    simp only [List.getElem?_cons_zero, Option.some.injEq] at h
    rw [lookup, h]
  | a :: l, k + 1, d, i, h => by
    rw [List.getElem?_cons_succ] at h
    rw [lookup]
    exact lookup_get h

theorem find_get {t : Str} : ∀ {l : List RelData} {k : Nat} {d : RelData} {i : Nat},
    l[k]? = some d → (∀ j, j < k → ∀ d', l[j]? = some d' → findHere false d' t = none) →
    findHere false d t = some i → find false l t = some (k, i)
  | [], k, d, i, h, _, _ => by simp at h
  | a :: l, 0, d, i, h, _, hf => by
    simp only [List.getElem?_cons_zero, Option.some.injEq] at h
    rw [find, h, hf]
  | a :: l, k + 1, d, i, h, hn, hf => by
    rw [List.getElem?_cons_succ] at h
    rw [find, hn 0 (by omega) a rfl]
    simp only
    rw [find_get h (fun j hj d' hd => hn (j + 1) (by omega) d' (by simpa using hd)) hf]
    rfl

/-- The reader has the fields of those of the relations around that may be referred to. -/
def Outers (up : List NRel) (outer : List RelData) : Prop :=
  ∀ (k : Nat) (y : NRel), up[k]? = some y → plain y.own.body = true → ∃ ag out,
    outer[k]? = some ⟨ag, y.inCols.map Col.read, [], out⟩

theorem convData_fields {y : NRel} (h : plain y.own.body = true) :
    y.toNode.data.fields = y.inCols.map Col.conv := by
  unfold NRel.toNode
  revert h
  cases y with
  | node n o kids =>
    obtain ⟨body, emit, schema, source⟩ := o
    cases body <;> simp [plain, NRel.own, convData]

theorem Placed.placeFits {lib : Literal.Lib} {fn fn' : Known} (hg : Given lib fn r) {x : NRel}
    {up : List NRel} (h : Placed r x up) {p : Place} (hu : p.up = up.map fun y => y.toNode.data)
    (ho : Outers up p.outer) : PlaceFits p (fn'.within (widths up))
      (x.inCols ++ newCols x.names x.inCols x.own.body) := by
  intro k n hn
  have hn : InWidth (((widths up)[k]?).getD 0) n := hn
  cases hw : (widths up)[k]? with
  | none =>
    rw [hw] at hn
    obtain ⟨h0, h1⟩ := hn
    simp only [Option.getD_none] at h1
    omega
  | some w =>
    rw [hw] at hn
    obtain ⟨y, hy, rfl, hpl⟩ := widths_get hw
    obtain ⟨h0, h1⟩ := hn
    simp only [Option.getD_some] at h1
    have hys : y ∈ Whole.subs r := h.mem y (List.mem_of_getElem? hy)
    have hgy := hg.sub hys
    have gy := hg.good hys
    obtain ⟨q, hq, hxq, hzq⟩ := h.inside hy
    have hc := colAt_some h0 h1
    have hm := colAt_mem h0 h1
    obtain ⟨ag, out, he⟩ := ho k y hy (hpl k (Nat.le_refl k) y hy)
    refine ⟨colAt y.inCols n, gy.ready.ok _ hm, h0, ?_, ?_, ?_, hgy.apart hq hxq _ hm⟩
    · have := gy.bound
      omega
    · rw [hu, lookup_get (d := y.toNode.data) (by rw [List.getElem?_map, hy]; rfl),
        convData_fields (hpl k (Nat.le_refl k) y hy),
        List.getElem?_append_left (by simp; omega), List.getElem?_map, hc]
      simp [nameOf_conv]
    · refine find_get he (fun j hj d' hd' => ?_) ?_
      · have hjl : j < up.length := by
          have := (List.getElem?_eq_some_iff.mp hy).1
          omega
        have hz : up[j]? = some up[j] := List.getElem?_eq_getElem hjl
        obtain ⟨ag', out', he'⟩ := ho j _ hz (hpl j (by omega) _ hz)
        rw [he'] at hd'
        injection hd' with hd'
        subst hd'
        have gz := hg.good (h.mem _ (List.mem_of_getElem? hz))
        have := findHere_apart (emit := false) (ag := ag') (out := out') (g := []) gz.ready.ok
          (by simp) (gy.ready.ok _ hm) (fun d hd => hgy.apart hq (hzq j hj _ hz) _ hm d
            (by rw [List.append_nil] at hd; exact List.mem_append_left _ hd))
        exact this
      · exact find_field (emit := false) (ag := ag) (out := out) (g := []) gy.ready.ok (by simp)
          (by have := gy.bound; simp; omega) gy.ready.apart.nodup hc (.inr (by simp)) (by simp)

/-- The fields of the relations around, for the printer. -/
theorem Placed.printed {x : NRel} {up : List NRel} (h : Placed r x up)
    (hn : (relNames r).Nodup) : (Whole.ownersOf (skeleton r) x.names.rel).map (dataIn (nodeList r)) =
      up.map fun y => y.toNode.data := by
  rw [h.ownersOf hn, List.map_map]
  refine List.map_congr_left fun y hy => ?_
  have hk : ((nodeList r).map fun x => x.names.rel).Nodup := by
    rw [nodeList_subs, List.map_map]
    exact hn
  have hm : y.toNode ∈ nodeList r := by
    rw [nodeList_subs]
    exact List.mem_map.mpr ⟨y, h.mem y hy, rfl⟩
  show (((nodeList r).find? fun x => decide (x.names.rel = y.toNode.names.rel)).map _).getD _ = _
  rw [find_unique (key := fun x : Node => x.names.rel) hk hm]
  rfl

end Verif.Whole
