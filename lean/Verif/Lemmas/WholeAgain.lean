import Verif.Lemmas.WholeNaming

/-! # The tree that is read is one that text can express, and it is read as it is -/

namespace Verif.Whole

open Verif Verif.TyPb Verif.Literal Verif.Expr Verif.Schema

variable {lib : Lib} {fn fn' : Known} {ρ ρ' σ : Nat → Nat}

/-! ## Expressions with other numbers -/

/-- What may be mentioned after the functions have got other numbers. -/
structure Moved (ρ : Nat → Nat) (k k' : Known) : Prop where
  fn : ∀ a, k a → k' (ρ a)
  rel : ∀ n, k.rel n → k'.rel n
  outer : ∀ i n, k.outer i n → k'.outer i n

theorem isSet_renumber (e : PbExpr) : (renumber ρ e).isSet = e.isSet := by
  cases e <;> simp only [renumber] <;> rfl

theorem isOuter_renumber (e : PbExpr) : Rel.isOuter (renumber ρ e) = Rel.isOuter e := by
  cases e <;> simp only [renumber] <;> first | rfl | simp [Rel.isOuter]

mutual
theorem told_renumber {ref : Int → Prop} (hm : Moved ρ fn fn') : ∀ e, Told lib fn ref e →
    Told lib fn' ref (renumber ρ e)
  | .literal l, h => by
    cases l <;> simp only [renumber, Told] at h ⊢
    exact h
  | .field seg base, h => by
    cases seg with
    | other => simp [Told] at h
    | field n b =>
      cases b with
      | true => cases base <;> simp [Told] at h
      | false =>
        cases base with
        | root => simp only [renumber, Told] at h ⊢; exact h
        | outer m => cases m <;> simp only [renumber, Told] at h ⊢; exact hm.outer _ n h
        | _ => simp [Told] at h
  | .call f o as es t, h => by
    unfold Told at h
    split at h <;> simp_all only [reduceCtorEq, PbExpr.call.injEq]
    rename_i heq
    obtain ⟨rfl, rfl, rfl, rfl, rfl⟩ := heq
    simp only [renumber, renumberList, Told]
    refine ⟨hm.fn _ h.1, ?_, toldArgs_renumber hm _ h.2.2.1, h.2.2.2⟩
    have := h.2.1
    cases as <;> simp [renumberArgs] at this ⊢
  | .ifThen cs e, h => by
    simp only [renumber, Told] at h ⊢
    refine ⟨?_, toldClauses_renumber hm cs h.2.1, fun hs => told_renumber hm e (h.2.2 ?_)⟩
    · rw [isSet_renumber]
      refine h.1.imp_left fun hc => ?_
      cases cs <;> simp [renumberClauses] at hc ⊢
    · rwa [isSet_renumber] at hs
  | .cast e t k, h => by
    unfold Told at h
    split at h <;> simp_all only [reduceCtorEq, PbExpr.cast.injEq]
    rename_i heq
    obtain ⟨rfl, rfl, rfl⟩ := heq
    simp only [renumber, Told]
    exact ⟨told_renumber hm e h.1, h.2⟩
  | .scalar r, h => by cases r <;> simp only [renumber, Told] at h ⊢; exact hm.rel _ h
  | .inPredicate es r, h => by
    cases r <;> simp only [renumber, Told] at h ⊢
    refine ⟨?_, toldList_renumber hm es h.2.1, ?_, hm.rel _ h.2.2.2⟩
    · have := h.1
      cases es <;> simp [renumberList] at this ⊢
    · rw [queriesList_renumber]
      exact h.2.2.1
  | .setPredicate _ r, h => by
    cases r <;> simp only [renumber, Told] at h ⊢; exact ⟨h.1, hm.rel _ h.2⟩
  | .setComparison e _ _ r, h => by
    cases r <;> simp only [renumber, Told] at h ⊢
    rw [queries_renumber]
    exact ⟨told_renumber hm e h.1, h.2.1, h.2.2.1, h.2.2.2.1, hm.rel _ h.2.2.2.2⟩
  | .notSet, h => by simp [Told] at h
  | .masked _, h => by simp [Told] at h
  | .noReference _, h => by simp [Told] at h
  | .noSubquery, h => by simp [Told] at h
  | .other _, h => by simp [Told] at h
theorem toldArgs_renumber {ref : Int → Prop} (hm : Moved ρ fn fn') : ∀ as,
    ToldArgs lib fn ref as → ToldArgs lib fn' ref (renumberArgs ρ as)
  | [], _ => by simp [renumberArgs, ToldArgs]
  | a :: as, h => by
    simp only [renumberArgs, ToldArgs] at h ⊢
    refine ⟨?_, toldArgs_renumber hm as h.2⟩
    cases a with
    | value e =>
      have h1 := h.1
      simp only [renumberArg, ToldArg] at h1 ⊢
      exact told_renumber hm e h1
    | enum s =>
      have h1 := h.1
      simp only [renumberArg, ToldArg] at h1 ⊢
      exact h1
    | notSet => exact absurd h.1 (by simp [ToldArg])
    | type t => exact absurd h.1 (by simp [ToldArg])
theorem toldList_renumber {ref : Int → Prop} (hm : Moved ρ fn fn') : ∀ es,
    ToldList lib fn ref es → ToldList lib fn' ref (renumberList ρ es)
  | [], _ => by simp [renumberList, ToldList]
  | e :: es, h => by
    simp only [renumberList, ToldList] at h ⊢
    exact ⟨told_renumber hm e h.1, toldList_renumber hm es h.2⟩
theorem toldClauses_renumber {ref : Int → Prop} (hm : Moved ρ fn fn') : ∀ as,
    ToldClauses lib fn ref as → ToldClauses lib fn' ref (renumberClauses ρ as)
  | [], _ => by simp [renumberClauses, ToldClauses]
  | .mk a b :: as, h => by
    simp only [renumberClauses, renumberClause, ToldClauses, ToldClause] at h ⊢
    exact ⟨⟨told_renumber hm a h.1.1, told_renumber hm b h.1.2⟩, toldClauses_renumber hm as h.2⟩
end

theorem said_renumber {ref : Int → Prop} (hm : Moved ρ fn fn') {e : PbExpr}
    (h : Said lib fn ref e) : Said lib fn' ref (renumber ρ e) :=
  ⟨told_renumber hm e h.1, plain_renumber e h.2⟩

theorem saidOpt_renumber {ref : Int → Prop} (hm : Moved ρ fn fn') {e : Option PbExpr}
    (h : SaidOpt lib fn ref e) : SaidOpt lib fn' ref (e.map (renumber ρ)) := by
  intro x hx
  obtain ⟨y, hy, rfl⟩ := Option.map_eq_some_iff.mp hx
  exact said_renumber hm (h y hy)

mutual
theorem renumber_again (h : ∀ a, ρ' (ρ a) = σ a) : ∀ e, renumber ρ' (renumber ρ e) = renumber σ e
  | .call f o as es t => by
    simp only [renumber, h, renumberArgs_again h as, renumberList_again h es]
  | .ifThen cs e => by simp only [renumber, renumberClauses_again h cs, renumber_again h e]
  | .cast e _ _ => by simp only [renumber, renumber_again h e]
  | .scalar r => by simp only [renumber]
  | .inPredicate es r => by simp only [renumber, renumberList_again h es]
  | .setPredicate _ r => by simp only [renumber]
  | .setComparison e _ _ r => by simp only [renumber, renumber_again h e]
  | .notSet => by simp only [renumber]
  | .literal _ => by simp only [renumber]
  | .field _ _ => by simp only [renumber]
  | .masked _ => by simp only [renumber]
  | .noReference _ => by simp only [renumber]
  | .noSubquery => by simp only [renumber]
  | .other _ => by simp only [renumber]
theorem renumberArg_again (h : ∀ a, ρ' (ρ a) = σ a) : ∀ a,
    renumberArg ρ' (renumberArg ρ a) = renumberArg σ a
  | .value e => by simp only [renumberArg, renumber_again h e]
  | .notSet => by simp only [renumberArg]
  | .enum _ => by simp only [renumberArg]
  | .type _ => by simp only [renumberArg]
theorem renumberArgs_again (h : ∀ a, ρ' (ρ a) = σ a) : ∀ as,
    renumberArgs ρ' (renumberArgs ρ as) = renumberArgs σ as
  | [] => by simp only [renumberArgs]
  | a :: as => by simp only [renumberArgs, renumberArg_again h a, renumberArgs_again h as]
theorem renumberList_again (h : ∀ a, ρ' (ρ a) = σ a) : ∀ es,
    renumberList ρ' (renumberList ρ es) = renumberList σ es
  | [] => by simp only [renumberList]
  | e :: es => by simp only [renumberList, renumber_again h e, renumberList_again h es]
theorem renumberClause_again (h : ∀ a, ρ' (ρ a) = σ a) : ∀ a,
    renumberClause ρ' (renumberClause ρ a) = renumberClause σ a
  | .mk a b => by simp only [renumberClause, renumber_again h a, renumber_again h b]
theorem renumberClauses_again (h : ∀ a, ρ' (ρ a) = σ a) : ∀ as,
    renumberClauses ρ' (renumberClauses ρ as) = renumberClauses σ as
  | [] => by simp only [renumberClauses]
  | a :: as => by
    simp only [renumberClauses, renumberClause_again h a, renumberClauses_again h as]
end

theorem renumberOpt_again (h : ∀ a, ρ' (ρ a) = σ a) (e : Option PbExpr) :
    (e.map (renumber ρ)).map (renumber ρ') = e.map (renumber σ) := by
  cases e <;> simp [renumber_again h]

theorem renumber_comp (h : ∀ a, ρ' (ρ a) = σ a) : renumber ρ' ∘ renumber ρ = renumber σ :=
  funext (renumber_again h)

theorem renumberSort_again (h : ∀ a, ρ' (ρ a) = σ a) (s : Rel.PbSort) :
    renumberSort ρ' (renumberSort ρ s) = renumberSort σ s := by
  obtain ⟨e, k⟩ := s
  cases k <;> simp [renumberSort, renumber_again h, h]

theorem renumberMeasure_again (h : ∀ a, ρ' (ρ a) = σ a) (m : Rel.PbMeasure) :
    renumberMeasure ρ' (renumberMeasure ρ m) = renumberMeasure σ m := by
  obtain ⟨f, g⟩ := m
  cases f <;> simp [renumberMeasure, renumberAggregate, renumber_comp h, h, renumberArgs_again h,
    renumberList_again h, renumberSort_again h]

theorem renumberBody_again (h : ∀ a, ρ' (ρ a) = σ a) (b : Rel.Body) :
    renumberBody ρ' (renumberBody ρ b) = renumberBody σ b := by
  cases b <;> simp [renumberBody, renumber_comp h, renumberSort_again h, renumberMeasure_again h]

theorem withNames_renumber (n : Names) (b : Rel.Body) :
    withNames n (renumberBody ρ b) = renumberBody ρ (withNames n b) := by
  cases b <;> rfl

/-! ## One relation -/

theorem isRead_renumber (b : Rel.Body) : isRead (renumberBody ρ b) = isRead b := by
  cases b <;> rfl

theorem arity_renumber (b : Rel.Body) : arity (renumberBody ρ b) = arity b := by
  cases b <;> rfl

theorem plainBody_renumber (b : Rel.Body) : plain (renumberBody ρ b) = plain b := by
  cases b <;> rfl

theorem inputsIn_renumber {α : Type} (b : Rel.Body) (l : List α) :
    inputsIn (renumberBody ρ b) l = inputsIn b l := by
  unfold inputsIn
  rw [pipeKind_renumber, queriesBody_renumber]

theorem queriesIn_renumber {α : Type} (b : Rel.Body) (l : List α) :
    queriesIn (renumberBody ρ b) l = queriesIn b l := by
  unfold queriesIn
  rw [pipeKind_renumber, queriesBody_renumber]

theorem projectCols_renumber (n : Names) (f : List Col) : ∀ (es : List PbExpr) (k : Nat),
    projectCols n f k (es.map (renumber ρ)) = projectCols n f k es
  | [], _ => rfl
  | e :: es, k => by
    rw [List.map_cons, projectCols, projectCols, projectCols_renumber n f es, fieldOf_renumber]

theorem newCols_renumber (n : Names) (f : List Col) (b : Rel.Body) :
    newCols n f (renumberBody ρ b) = newCols n f b := by
  cases b with
  | project es => exact projectCols_renumber n f es 0
  | aggregate gs ms =>
    simp only [renumberBody, newCols, List.length_map]
    rw [← List.map_flatten, grouped_renumber]
  | _ => rfl

theorem readEmit_renumber (n : Names) (f : List Col) (b : Rel.Body) :
    readEmit n f (renumberBody ρ b) = readEmit n f b := by
  funext i
  cases b with
  | project es =>
    have := newCols_renumber (ρ := ρ) n f (.project es)
    simp only [renumberBody] at this
    simp only [renumberBody, readEmit, this]
  | _ => rfl

/-- The numbers of the output mapping of a project that is read. -/
theorem Good.emit {x : NRel} (h : Good lib fn x) {es : List PbExpr} (hb : x.own.body = .project es) :
    ∀ i ∈ x.own.emit, InWidth (x.inCols.length + es.length) (readEmit x.names x.inCols x.own.body i) ∧
      stands x.inCols.length es (readEmit x.names x.inCols x.own.body i) =
        stands x.inCols.length es i ∧
      (x.inCols ++ projectCols x.names x.inCols 0 es)[(readEmit x.names x.inCols x.own.body i).toNat]?
        = (x.inCols ++ projectCols x.names x.inCols 0 es)[i.toNat]? ∧
      readEmit x.names x.inCols x.own.body (readEmit x.names x.inCols x.own.body i) =
        readEmit x.names x.inCols x.own.body i := by
  intro i hi
  have h1 := h.body
  have h2 := h.ready
  have h3 := h.bound
  rw [show x.own = ⟨.project es, x.own.emit, x.own.schema, x.own.source⟩ by rw [← hb]] at h2
  rw [hb] at h1 h3 ⊢
  have hr := project_refs h1
  rw [List.length_map] at hr
  simp only [newCols, projectCols_length] at h3
  have hw := h1.2.2.1 i hi
  rw [List.length_map] at hw
  obtain ⟨a, b, c, d⟩ := readEmit_project h2 hr h3 hw
  refine ⟨a, b, c, ?_⟩
  obtain ⟨a0, -⟩ := a
  generalize readEmit x.names x.inCols (.project es) i = j at *
  simp only [readEmit, newCols]
  rw [d, Option.getD_some]
  omega

theorem Good.emit_twice {x : NRel} (h : Good lib fn x) :
    (x.own.emit.map (readEmit x.names x.inCols x.own.body)).map
      (readEmit x.names x.inCols x.own.body) =
      x.own.emit.map (readEmit x.names x.inCols x.own.body) := by
  by_cases hb : ∃ es, x.own.body = .project es
  · obtain ⟨es, hb⟩ := hb
    rw [List.map_map]
    apply List.map_congr_left
    intro i hi
    exact (h.emit hb i hi).2.2.2
  · rw [readEmit_other fun es e => hb ⟨es, e⟩]

theorem Good.pick_again {x : NRel} (h : Good lib fn x) {es : List PbExpr}
    (hb : x.own.body = .project es) :
    pick (x.inCols ++ projectCols x.names x.inCols 0 es)
        (x.own.emit.map (readEmit x.names x.inCols x.own.body)) =
      pick (x.inCols ++ projectCols x.names x.inCols 0 es) x.own.emit := by
  have key : ∀ l : List Int, (∀ i ∈ l, i ∈ x.own.emit) →
      pick (x.inCols ++ projectCols x.names x.inCols 0 es)
        (l.map (readEmit x.names x.inCols x.own.body)) =
      pick (x.inCols ++ projectCols x.names x.inCols 0 es) l := by
    intro l
    induction l with
    | nil => intro _; rfl
    | cons i l ih =>
      intro hl
      have := ih fun j hj => hl j (by simp [hj])
      unfold pick at this ⊢
      rw [List.map_cons, List.filterMap_cons, List.filterMap_cons,
        (h.emit hb i (hl i (by simp))).2.2.1, this]
  exact key _ fun i hi => hi

theorem Good.outCols_again {x : NRel} (h : Good lib fn x) :
    outCols x.names (x.own.again ρ x.names x.inCols) x.inCols =
      outCols x.names x.own x.inCols := by
  have hn := newCols_renumber (ρ := ρ) x.names x.inCols x.own.body
  unfold outCols Own.again tableCols Own.columns
  cases hb : x.own.body with
  | project es =>
    have hp := h.pick_again hb
    rw [hb] at hn hp
    simp only [renumberBody, newCols] at hn ⊢
    rw [hn, hp]
    simp only [List.map_eq_nil_iff]
  | aggregate gs ms =>
    rw [hb] at hn
    simp only [renumberBody] at hn ⊢
    rw [hn, readEmit_other (by simp)]
  | _ => rfl

theorem Good.convData_again {x : NRel} (h : Good lib fn x) :
    convData x.names (x.own.again ρ x.names x.inCols) x.inCols =
      convData x.names x.own x.inCols := by
  have hn := newCols_renumber (ρ := ρ) x.names x.inCols x.own.body
  have ho := h.outCols_again (ρ := ρ)
  unfold convData
  cases hb : x.own.body with
  | project es =>
    have hp := h.pick_again hb
    rw [hb] at hn hp
    simp only [Own.again, hb, renumberBody, newCols] at hn ⊢
    rw [hn, hp]
  | aggregate gs ms =>
    rw [hb] at hn
    simp only [Own.again, hb, renumberBody] at hn ho ⊢
    rw [hn, ho]
  | _ => simp only [Own.again, hb, renumberBody, tableCols, Own.columns]

/-! ## The tree -/

theorem againL_map : ∀ rs, againL ρ rs = rs.map (again ρ)
  | [] => rfl
  | r :: rs => by rw [againL, againL_map rs]; rfl

theorem again_names (x : NRel) : (again ρ x).names = x.names := by
  cases x; rw [again]; rfl

theorem again_kids (x : NRel) : (again ρ x).kids = x.kids.map (again ρ) := by
  cases x with
  | node n o kids => rw [again, NRel.kids, NRel.kids, againL_map]

theorem again_own (x : NRel) : (again ρ x).own = x.own.again ρ x.names x.inCols := by
  cases x; rw [again]; rfl

mutual
theorem subs_again : ∀ r, subs (again ρ r) = (subs r).map (again ρ)
  | .node n o kids => by
    rw [again, subs, subs, List.map_append, subsL_again kids, List.map_singleton, again]
theorem subsL_again : ∀ rs, subsL (againL ρ rs) = (subsL rs).map (again ρ)
  | [] => rfl
  | r :: rs => by rw [againL, subsL, subsL, List.map_append, subs_again r, subsL_again rs]
end

mutual
theorem skeleton_again : ∀ r, skeleton (again ρ r) = skeleton r
  | .node n o kids => by
    rw [again, skeleton, skeleton, skeletonL_again kids]
    simp only [Own.again, pipeKind_renumber, inputsIn_renumber, queriesIn_renumber]
theorem skeletonL_again : ∀ rs, skeletonL (againL ρ rs) = skeletonL rs
  | [] => rfl
  | r :: rs => by rw [againL, skeletonL, skeletonL, skeleton_again r, skeletonL_again rs]
end

mutual
theorem cols_again : ∀ r, (∀ x ∈ subs r, Good lib fn x) → cols (again ρ r) = cols r
  | .node n o kids, h => by
    have hk := colsL_again kids fun x hx => h x (by rw [subs]; simp [hx])
    have ho := (h (.node n o kids) (by rw [subs]; simp)).outCols_again (ρ := ρ)
    rw [again, cols, cols, hk]
    simp only [NRel.own, NRel.names, NRel.inCols, NRel.kids, inCols] at ho
    simp only [Own.again, inputsIn_renumber, inCols] at ho ⊢
    exact ho
theorem colsL_again : ∀ rs, (∀ x ∈ subsL rs, Good lib fn x) → colsL (againL ρ rs) = colsL rs
  | [], _ => rfl
  | r :: rs, h => by
    rw [againL, colsL, colsL, cols_again r fun x hx => h x (by rw [subsL]; simp [hx]),
      colsL_again rs fun x hx => h x (by rw [subsL]; simp [hx])]
end

theorem inCols_again {x : NRel} (h : ∀ y ∈ subs x, Good lib fn y) :
    (again ρ x).inCols = x.inCols := by
  cases x with
  | node n o kids =>
    unfold NRel.inCols
    rw [again]
    simp only [NRel.own, NRel.kids]
    unfold inCols
    rw [colsL_again kids fun x hx => h x (by rw [subs]; simp [hx])]
    simp only [Own.again, inputsIn_renumber]

theorem toNode_again {x : NRel} (h : ∀ y ∈ subs x, Good lib fn y) :
    (again ρ x).toNode = ⟨x.names, x.own.again ρ x.names x.inCols,
      convData x.names x.own x.inCols⟩ := by
  unfold NRel.toNode
  rw [again_names, again_own, inCols_again h, (h x (self_subs x)).convData_again]

/-! ## The tree that is read is one that text can express -/

theorem measureFits_renumber {ref : Int → Prop} (hm : Moved ρ fn fn') {m : Rel.PbMeasure}
    (h : MeasureFits lib fn ref m) : MeasureFits lib fn' ref (renumberMeasure ρ m) := by
  obtain ⟨⟨f, h1, h2, h3, h4, h5, h6, h7, h8, h9⟩, h10⟩ := h
  refine ⟨⟨renumberAggregate ρ f, by rw [renumberMeasure, h1]; rfl, hm.fn _ h2, h3,
    toldArgs_renumber hm _ h4, ?_, h6, h7, h8, ?_⟩, saidOpt_renumber hm h10⟩
  · simp only [renumberAggregate, h5, renumberList]
  · simp only [renumberAggregate, h9, List.map_nil]

theorem madeKinds_renumber (f : List Bool) (b : Rel.Body) :
    madeKinds f (renumberBody ρ b) = madeKinds f b := by
  cases b with
  | project es =>
    simp only [renumberBody, madeKinds, List.map_map]
    apply List.map_congr_left
    intro e _
    simp only [Function.comp, fieldOf_renumber]
  | aggregate gs ms =>
    simp only [renumberBody, madeKinds, List.map_map]
    congr 1
    rw [← List.map_flatten, List.filterMap_map]
    congr 1
    funext e
    simp only [Function.comp, fieldOf_renumber]
  | _ => rfl

theorem around_renumber (b : Rel.Body) : around (renumberBody ρ b) = around b := by
  funext w up count i
  unfold around isInput
  rw [pipeKind_renumber, queriesBody_renumber, plainBody_renumber]

theorem standsOf_renumber (w : Nat) (es : List PbExpr) :
    stands w (es.map (renumber ρ)) = stands w es := by
  funext i
  unfold stands
  split
  · rfl
  · rw [List.getElem?_map]
    cases es[(i - w).toNat]? with
    | none => rfl
    | some e => simp [fieldOf_renumber]

/-- The body that is read fits. -/
theorem bodyFits_again {gn : Known} (hm : Moved ρ fn fn') {x : NRel} (hg : Good lib gn x)
    {f : List Bool} (hf : f.length = x.inCols.length) (h : BodyFits lib fn f x.own.emit x.own.body) :
    BodyFits lib fn' f (x.own.emit.map (readEmit x.names x.inCols x.own.body))
      (renumberBody ρ x.own.body) := by
  by_cases hp : ∃ es, x.own.body = .project es
  · obtain ⟨es, hb⟩ := hp
    have he := hg.emit hb
    rw [hb] at h he ⊢
    refine ⟨?_, ?_, ?_, ?_⟩
    · intro e hme
      obtain ⟨y, hy, rfl⟩ := List.mem_map.mp hme
      have := h.1 y hy
      exact ⟨said_renumber hm this.1, fieldKept_renumber this.2.1,
        by rw [isOuter_renumber]; exact this.2.2⟩
    · intro hn e hme
      obtain ⟨y, hy, rfl⟩ := List.mem_map.mp hme
      rw [fieldOf_renumber]
      exact h.2.1 (List.map_eq_nil_iff.mp hn) y hy
    · intro i hi
      obtain ⟨j, hj, rfl⟩ := List.mem_map.mp hi
      rw [hf, List.length_map]
      exact (he j hj).1
    · rw [standsOf_renumber, List.map_map, hf]
      have := h.2.2.2
      rw [hf] at this
      rw [List.map_congr_left (g := stands x.inCols.length es)]
      · exact this
      · intro i hi
        exact (he i hi).2.1
  · rw [readEmit_other fun es e => hp ⟨es, e⟩]
    generalize x.own.body = b at *
    generalize x.own.emit = emit at *
    cases b with
    | project es => exact absurd ⟨es, rfl⟩ hp
    | read a b c d p =>
      obtain ⟨rfl, rfl, rfl, rfl, h1, h2⟩ := bodyFits_read h
      exact ⟨h1, saidOpt_renumber hm h2⟩
    | filter c => exact ⟨h.1, saidOpt_renumber hm h.2⟩
    | fetch a c => 
      unfold renumberBody
      unfold BodyFits at h ⊢
      split at h <;> simp_all
    | sort ss =>
      refine ⟨h.1, fun s hs => ?_⟩
      obtain ⟨y, hy, rfl⟩ := List.mem_map.mp hs
      obtain ⟨h1, n, h2, h3⟩ := h.2 y hy
      refine ⟨said_renumber hm h1, n, ?_, h3⟩
      simp only [renumberSort, h2]
    | join a c p =>
      obtain ⟨rfl, h⟩ := bodyFits_join h
      exact ⟨h.1, h.2.1, saidOpt_renumber hm h.2.2⟩
    | cross => exact h
    | other => exact h
    | aggregate gs ms =>
      have hg : ∃ g, gs = [g] := by
        simp only [BodyFits] at h
        split at h <;> simp_all
      obtain ⟨g, rfl⟩ := hg
      refine ⟨?_, ?_, ?_, ?_, h.2.2.2.2.1, ?_⟩
      · intro e he
        obtain ⟨y, hy, rfl⟩ := List.mem_map.mp he
        have hu : Usable f (g.map (renumber ρ)) = Usable f g := by
          funext i
          unfold Usable
          rw [grouped_renumber]
        rw [hu]
        rcases h.1 y hy with h1 | ⟨n, rfl, h1⟩
        · exact .inl ⟨said_renumber hm h1.1, fieldKept_renumber h1.2.1,
            by rw [isOuter_renumber]; exact h1.2.2⟩
        · exact .inr ⟨n, by simp only [renumber], h1⟩
      · rw [grouped_renumber]
        exact h.2.1
      · intro m hmm
        obtain ⟨y, hy, rfl⟩ := List.mem_map.mp hmm
        have hu : Usable f (g.map (renumber ρ)) = Usable f g := by
          funext i
          unfold Usable
          rw [grouped_renumber]
        rw [hu]
        exact measureFits_renumber hm (h.2.2.1 y hy)
      · rw [grouped_renumber]
        exact h.2.2.2.1.imp_right fun hn e => hn (List.map_eq_nil_iff.mp e)
      · intro i hi
        have := h.2.2.2.2.2 i hi
        have hk := madeKinds_renumber (ρ := ρ) f (.aggregate [g] ms)
        simp only [renumberBody, List.map_cons, List.map_nil] at hk
        rw [hk]
        exact this

theorem Moved.within (hm : Moved ρ fn fn') (up : List Nat) :
    Moved ρ (fn.within up) (fn'.within up) := ⟨hm.fn, hm.rel, fun _ _ h => h⟩

mutual
theorem treeFits_again {gn : Known} (hm : Moved ρ fn fn') : ∀ (r : NRel) (up : List Nat),
    (∀ x ∈ subs r, Good lib gn x) → TreeFits lib fn up (erase r) →
      TreeFits lib fn' up (erase (again ρ r))
  | .node n o kids, up, hg, h => by
    have hx := hg (.node n o kids) (by rw [subs]; simp)
    have hk : ∀ x ∈ subsL kids, Good lib gn x := fun x hx => hg x (by rw [subs]; simp [hx])
    rw [erase, TreeFits] at h
    rw [again, erase, TreeFits]
    obtain ⟨h1, h2, h3, h4, h5⟩ := h
    have hin : inKinds (o.again ρ n (inCols o kids)) (eraseL (againL ρ kids)) =
        inKinds o (eraseL kids) := by
      rw [← inCols_kinds, ← inCols_kinds]
      have := inCols_again (ρ := ρ) hg
      unfold NRel.inCols at this
      rw [again] at this
      exact congrArg _ this
    rw [hin]
    refine ⟨bodyFits_again (x := .node n o kids) (hm.within up) hx ?_ h1, ?_, ⟨?_, ?_⟩, ?_, ?_⟩
    · rw [← inCols_kinds, List.length_map]; rfl
    · unfold TablesFit at h2 ⊢
      simp only [Own.again, isRead_renumber]
      exact h2
    · simp only [Own.again, arity_renumber, queriesBody_renumber]
      rw [← h3.1, eraseL_length, eraseL_length, againL_map, List.length_map]
    · simp only [Own.again, isRead_renumber, queriesBody_renumber]
      exact h3.2
    · simp only [Own.again, madeKinds_renumber]
      exact h4
    · have : (eraseL (againL ρ kids)).length = (eraseL kids).length := by
        rw [eraseL_length, eraseL_length, againL_map, List.length_map]
      rw [this]
      simp only [Own.again, around_renumber]
      exact treesFit_again hm kids _ hk h5
theorem treesFit_again {gn : Known} (hm : Moved ρ fn fn') : ∀ (rs : List NRel)
    (up : Nat → List Nat), (∀ x ∈ subsL rs, Good lib gn x) → TreesFit lib fn up (eraseL rs) →
      TreesFit lib fn' up (eraseL (againL ρ rs))
  | [], _, _, _ => trivial
  | r :: rs, up, hg, h => by
    rw [eraseL, TreesFit] at h
    rw [againL, eraseL, TreesFit]
    exact ⟨treeFits_again hm r _ (fun x hx => hg x (by rw [subsL]; simp [hx])) h.1,
      treesFit_again hm rs _ (fun x hx => hg x (by rw [subsL]; simp [hx])) h.2⟩
end

end Verif.Whole
