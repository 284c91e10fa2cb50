import Verif.Lemmas.WholePrint
import Verif.Lemmas.PipelineRead

/-! # The relations of a tree with names, one by one -/

namespace Verif.Whole

open Verif Verif.Expr Verif.Schema

def NRel.own : NRel → Own
  | .node _ o _ => o
def NRel.kids : NRel → List NRel
  | .node _ _ kids => kids
/-- The inputs. -/
def NRel.inputs (x : NRel) : List NRel := inputsIn x.own.body x.kids
/-- The relations of the subqueries. -/
def NRel.queries (x : NRel) : List NRel := queriesIn x.own.body x.kids

/-- The relation with the names of its subqueries. -/
def NRel.filled (x : NRel) : Own := x.own.fill x.names

/-- The columns of the inputs. -/
def NRel.inCols (x : NRel) : List Col := Whole.inCols x.own x.kids

/-- The relation in the table of the converter. -/
def NRel.toNode (x : NRel) : Node := ⟨x.names, x.own, convData x.names x.own x.inCols⟩

mutual
/-- The relations of a tree, the inputs before the relation itself. -/
def subs : NRel → List NRel
  | .node n o ins => subsL ins ++ [.node n o ins]
def subsL : List NRel → List NRel
  | [] => []
  | r :: rs => subs r ++ subsL rs
end

theorem mem_subs : ∀ r, r ∈ subs r
  | .node n o ins => by simp [subs]

theorem mem_subsL : ∀ {rs : List NRel} {r : NRel}, r ∈ rs → r ∈ subsL rs
  | [], r, h => by simp at h
  | a :: rs, r, h => by
    rw [subsL, List.mem_append]
    rcases List.mem_cons.mp h with rfl | h
    · exact .inl (mem_subs _)
    · exact .inr (mem_subsL h)

mutual
theorem nodeList_subs : ∀ r, nodeList r = (subs r).map NRel.toNode
  | .node n o ins => by
    rw [nodeList, subs, List.map_append, nodeListL_subs ins]
    rfl
theorem nodeListL_subs : ∀ rs, nodeListL rs = (subsL rs).map NRel.toNode
  | [] => rfl
  | r :: rs => by rw [nodeListL, subsL, List.map_append, nodeList_subs r, nodeListL_subs rs]
end

mutual
theorem labels_subs : ∀ r, labels r = (subs r).flatMap fun x => ownLabels x.names x.own
  | .node n o ins => by
    rw [labels, subs, List.flatMap_append, labelsL_subs ins]
    simp [NRel.names, NRel.own]
theorem labelsL_subs : ∀ rs, labelsL rs = (subsL rs).flatMap fun x => ownLabels x.names x.own
  | [] => rfl
  | r :: rs => by rw [labelsL, subsL, List.flatMap_append, labels_subs r, labelsL_subs rs]
end

mutual
theorem owns_subs : ∀ r, owns (erase r) = (subs r).map NRel.own
  | .node n o ins => by
    rw [erase, owns, subs, List.map_append, ownsL_subs ins]
    rfl
theorem ownsL_subs : ∀ rs, ownsL (eraseL rs) = (subsL rs).map NRel.own
  | [] => rfl
  | r :: rs => by rw [eraseL, ownsL, subsL, List.map_append, owns_subs r, ownsL_subs rs]
end

theorem namesL_eq : ∀ rs, Pipe.namesL rs = rs.flatMap Pipe.names
  | [] => rfl
  | r :: rs => by rw [Pipe.namesL, List.flatMap_cons, namesL_eq rs]

theorem namesL_append (a b : List Pipe.Rel) :
    Pipe.namesL (a ++ b) = Pipe.namesL a ++ Pipe.namesL b := by
  simp only [namesL_eq, List.flatMap_append]

theorem namesL_perm {a b : List Pipe.Rel} (h : a.Perm b) :
    (Pipe.namesL a).Perm (Pipe.namesL b) := by
  simp only [namesL_eq]
  exact h.flatMap_right _

theorem nodesL_eq : ∀ rs, Pipe.nodesL rs = rs.flatMap Pipe.nodes
  | [] => rfl
  | r :: rs => by rw [Pipe.nodesL, List.flatMap_cons, nodesL_eq rs]

theorem mem_nodesL_split (b : Rel.Body) (l : List Pipe.Rel) (y : Pipe.Rel) :
    y ∈ Pipe.nodesL (inputsIn b l) ++ Pipe.nodesL (queriesIn b l) ↔ y ∈ Pipe.nodesL l := by
  simp only [nodesL_eq, ← List.flatMap_append]
  exact ((perm_split b l).flatMap_right _).mem_iff.symm

mutual
theorem names_subs : ∀ r, (Pipe.names (skeleton r)).Perm ((subs r).map fun x => x.names.rel)
  | .node n o ins => by
    rw [skeleton, Pipe.names, subs, List.map_append, ← namesL_append]
    refine List.Perm.trans (((namesL_perm (perm_split o.body (skeletonL ins)).symm).trans
      (namesL_subs ins)).cons _) ?_
    exact (List.perm_append_comm (l₁ := [n.rel]))
theorem namesL_subs : ∀ rs, (Pipe.namesL (skeletonL rs)).Perm ((subsL rs).map fun x => x.names.rel)
  | [] => .refl _
  | r :: rs => by
    rw [skeletonL, Pipe.namesL, subsL, List.map_append]
    exact (names_subs r).append (namesL_subs rs)
end

mutual
theorem nodes_subs : ∀ r, ∀ y ∈ Pipe.nodes (skeleton r), ∃ x ∈ subs r, y = skeleton x
  | .node n o ins => by
    intro y hy
    rw [skeleton, Pipe.nodes] at hy
    rw [subs]
    rcases List.mem_cons.mp hy with rfl | hy
    · exact ⟨.node n o ins, by simp, by rw [skeleton]⟩
    rw [mem_nodesL_split] at hy
    · obtain ⟨x, hx, rfl⟩ := nodesL_subs ins y hy
      exact ⟨x, List.mem_append_left _ hx, rfl⟩
theorem nodesL_subs : ∀ rs, ∀ y ∈ Pipe.nodesL (skeletonL rs), ∃ x ∈ subsL rs, y = skeleton x
  | [] => by intro y hy; simp [skeletonL, Pipe.nodesL] at hy
  | r :: rs => by
    intro y hy
    rw [skeletonL, Pipe.nodesL] at hy
    rw [subsL]
    rcases List.mem_append.mp hy with hy | hy
    · obtain ⟨x, hx, rfl⟩ := nodes_subs r y hy
      exact ⟨x, List.mem_append_left _ hx, rfl⟩
    · obtain ⟨x, hx, rfl⟩ := nodesL_subs rs y hy
      exact ⟨x, List.mem_append_right _ hx, rfl⟩
end

mutual
theorem subs_nodes : ∀ r, ∀ x ∈ subs r, skeleton x ∈ Pipe.nodes (skeleton r)
  | .node n o ins => by
    intro x hx
    rw [skeleton, Pipe.nodes]
    rw [subs] at hx
    rcases List.mem_append.mp hx with hx | hx
    · exact List.mem_cons_of_mem _ ((mem_nodesL_split o.body _ _).mpr (subsL_nodes ins x hx))
    · rw [List.mem_singleton] at hx
      subst hx
      rw [skeleton]
      exact List.mem_cons_self
theorem subsL_nodes : ∀ rs, ∀ x ∈ subsL rs, skeleton x ∈ Pipe.nodesL (skeletonL rs)
  | [] => by intro y hy; simp [subsL] at hy
  | r :: rs => by
    intro x hx
    rw [skeletonL, Pipe.nodesL]
    rw [subsL] at hx
    rcases List.mem_append.mp hx with hx | hx
    · exact List.mem_append_left _ (subs_nodes r x hx)
    · exact List.mem_append_right _ (subsL_nodes rs x hx)
end

theorem skeletonL_map : ∀ rs : List NRel, skeletonL rs = rs.map skeleton
  | [] => rfl
  | r :: rs => by rw [skeletonL, List.map_cons, skeletonL_map rs]

theorem skeleton_eq (x : NRel) : skeleton x =
    .node (pipeKind x.own.body) x.names.rel (skeletonL x.inputs) (skeletonL x.queries) := by
  cases x with
  | node n o ins =>
    rw [skeleton]
    simp only [skeletonL_map, inputsIn_map, queriesIn_map]
    rfl

theorem skeletonL_names : ∀ rs : List NRel,
    (skeletonL rs).map Pipe.Rel.name = rs.map fun x => x.names.rel
  | [] => rfl
  | r :: rs => by
    rw [skeletonL, List.map_cons, List.map_cons, skeletonL_names rs, skeleton_eq]
    rfl

theorem skeletonL_length : ∀ rs : List NRel, (skeletonL rs).length = rs.length
  | [] => rfl
  | r :: rs => by rw [skeletonL, List.length_cons, List.length_cons, skeletonL_length rs]

/-! ## What is known of every relation -/

variable {lib : Literal.Lib} {fn : Known}

/-- A relation that text can express and that has names. -/
structure Good (lib : Literal.Lib) (fn : Known) (x : NRel) : Prop where
  ready : Ready x.inCols x.names x.own
  body : BodyFits lib fn (x.inCols.map Col.isColumn) x.own.emit x.own.body
  tables : TablesFit x.own
  arity : x.inputs.length = arity x.own.body
  count : x.queries.length = queriesBody x.own.body
  reads : isRead x.own.body = true → queriesBody x.own.body = 0
  bound : x.inCols.length + (newCols x.names x.inCols x.own.body).length < 2147483648
  named : WellNamed x.names x.own (x.queries.map (·.names.rel))

mutual
theorem good_subs : ∀ r, TreeLoose lib fn (erase r) → AllNamed r → ColumnsOwn r →
    Labelled (labels r) → ∀ x ∈ subs r, Good lib fn x
  | .node n o ins, h, hn, hc, hl => by
    intro x hx
    have hr := ready_node n o ins h hn hc hl
    rw [erase, TreeLoose] at h
    obtain ⟨hb, ht, ha, hm, hi⟩ := h
    rw [labels] at hl
    rw [subs] at hx
    rcases List.mem_append.mp hx with hx | hx
    · exact goodL_subs ins hi hn.2 hc.2
        ⟨(List.nodup_append.mp hl.once).1, fun l h => hl.made l (List.mem_append_left _ h)⟩ x hx
    · rw [List.mem_singleton] at hx
      subst hx
      rw [← newCols_length n, ← inCols_length] at hm
      rw [← inCols_kinds] at hb
      rw [eraseL_length] at ha
      exact ⟨hr, hb, ht, length_inputsIn ha.1, length_queriesIn ha.1, ha.2, hm, hn.1⟩
theorem goodL_subs : ∀ rs, TreesLoose lib fn (eraseL rs) → AllNamedL rs → ColumnsOwnL rs →
    Labelled (labelsL rs) → ∀ x ∈ subsL rs, Good lib fn x
  | [], _, _, _, _ => by intro x hx; simp [subsL] at hx
  | r :: rs, h, hn, hc, hl => by
    intro x hx
    rw [eraseL, TreesLoose] at h
    rw [labelsL] at hl
    have hd := List.nodup_append.mp hl.once
    rw [subsL] at hx
    rcases List.mem_append.mp hx with hx | hx
    · exact good_subs r h.1 hn.1 hc.1
        ⟨hd.1, fun l h => hl.made l (List.mem_append_left _ h)⟩ x hx
    · exact goodL_subs rs h.2 hn.2 hc.2
        ⟨hd.2.1, fun l h => hl.made l (List.mem_append_right _ h)⟩ x hx
end

/-! ## With the names of the subqueries -/

mutual
theorem asked_renumber (ρ : Nat → Nat) : ∀ e, askedOf (renumber ρ e) = askedOf e
  | .call f o as es t => by rw [renumber, askedOf, askedOf, askedArgs_renumber ρ as]
  | .ifThen cs e => by
    rw [renumber, askedOf, askedOf, askedClauses_renumber ρ cs, asked_renumber ρ e]
  | .cast e t n => by rw [renumber, askedOf, askedOf, asked_renumber ρ e]
  | .inPredicate es r => by rw [renumber, askedOf, askedOf, askedList_renumber ρ es]
  | .setComparison e a b r => by rw [renumber, askedOf, askedOf, asked_renumber ρ e]
  | .notSet => rfl
  | .literal l => rfl
  | .field s b => rfl
  | .masked b => rfl
  | .noReference b => rfl
  | .scalar r => rfl
  | .setPredicate a r => rfl
  | .noSubquery => rfl
  | .other k => rfl
theorem askedArgs_renumber (ρ : Nat → Nat) : ∀ as, askedArgs (renumberArgs ρ as) = askedArgs as
  | [] => rfl
  | .value e :: as => by
    simp only [renumberArgs, renumberArg, askedArgs, askedArg, asked_renumber ρ e,
      askedArgs_renumber ρ as]
  | .notSet :: as => by
    simp only [renumberArgs, renumberArg, askedArgs, askedArgs_renumber ρ as]
  | .enum _ :: as => by
    simp only [renumberArgs, renumberArg, askedArgs, askedArgs_renumber ρ as]
  | .type _ :: as => by
    simp only [renumberArgs, renumberArg, askedArgs, askedArgs_renumber ρ as]
theorem askedList_renumber (ρ : Nat → Nat) : ∀ es, askedList (renumberList ρ es) = askedList es
  | [] => rfl
  | e :: es => by
    simp only [renumberList, askedList, asked_renumber ρ e, askedList_renumber ρ es]
theorem askedClauses_renumber (ρ : Nat → Nat) : ∀ cs,
    askedClauses (renumberClauses ρ cs) = askedClauses cs
  | [] => rfl
  | .mk a b :: cs => by
    simp only [renumberClauses, renumberClause, askedClauses, askedClause, asked_renumber ρ a,
      asked_renumber ρ b, askedClauses_renumber ρ cs]
end

theorem askedOpt_renumber (ρ : Nat → Nat) (x : Option PbExpr) :
    Rel.askedOpt (x.map (renumber ρ)) = Rel.askedOpt x := by
  cases x with
  | none => rfl
  | some e => exact asked_renumber ρ e

theorem askedBody_renumber (ρ : Nat → Nat) (b : Rel.Body) :
    Rel.askedBody (renumberBody ρ b) = Rel.askedBody b := by
  have hf : (fun e => askedOf (renumber ρ e)) = askedOf := funext (asked_renumber ρ)
  cases b with
  | read s t f b p => simp only [renumberBody, Rel.askedBody, askedOpt_renumber]
  | filter f => simp only [renumberBody, Rel.askedBody, askedOpt_renumber]
  | join t e p => simp only [renumberBody, Rel.askedBody, askedOpt_renumber]
  | project es => simp only [renumberBody, Rel.askedBody, List.flatMap_map, hf]
  | sort ss =>
    simp only [renumberBody, Rel.askedBody, List.flatMap_map, renumberSort, asked_renumber]
  | aggregate gs ms =>
    have hm : (fun m => Rel.askedMeasure (renumberMeasure ρ m)) = Rel.askedMeasure := by
      funext m
      obtain ⟨f, x⟩ := m
      unfold Rel.askedMeasure renumberMeasure
      rw [askedOpt_renumber]
      cases f with
      | none => rfl
      | some f => simp only [Option.map_some, renumberAggregate, askedArgs_renumber]
    simp only [renumberBody, Rel.askedBody, List.flatMap_map, hm]
    congr 1
    rw [← List.map_flatten, List.flatMap_map, hf]
  | _ => rfl

theorem askedBody_withNames (n : Names) (b : Rel.Body) :
    Rel.askedBody (withNames n b) = Rel.askedBody b := by
  cases b <;> rfl

theorem itemLabels_relabel (g : Nat → Option Str) (computed : List Str) :
    ∀ (es : List PbExpr) (i k : Nat),
      itemLabels computed i (relabelList g k es) = itemLabels computed i es
  | [], _, _ => rfl
  | e :: es, i, k => by
    rw [relabelList, itemLabels, itemLabels, itemLabels_relabel g computed es, fieldOf_relabel]

theorem ownLabels_fill (n m : Names) (o : Own) : ownLabels n (o.fill m) = ownLabels n o := by
  obtain ⟨b, emit, schema, source⟩ := o
  unfold ownLabels Own.fill fillBody
  cases b <;> simp only [relabelBody, expressionsOf, itemLabels_relabel]

theorem measuresOf_fill (m : Names) (o : Own) :
    (measuresOf (o.fill m).body).length = (measuresOf o.body).length := by
  obtain ⟨b, emit, schema, source⟩ := o
  unfold Own.fill fillBody
  cases b <;> simp only [relabelBody, measuresOf, relabelMeasures_length]

theorem Ready.fill {f : List Col} {n : Names} {o : Own} (h : Ready f n o) (m : Names) :
    Ready f n (o.fill m) where
  within := by rw [ownLabels_fill]; exact h.within
  apart := h.apart
  made := by rw [ownLabels_fill]; exact h.made
  measures := by rw [measuresOf_fill]; exact h.measures

theorem TablesKnown.fill {e : Env} {n : Names} {o : Own} (h : TablesKnown e n o) (m : Names) :
    TablesKnown e n (o.fill m) := by
  intro hr
  rw [Own.fill, fillBody_def, isRead_relabel] at hr
  exact h hr

theorem readEmit_fill (n m : Names) (f : List Col) (o : Own) (i : Int) :
    readEmit n f (o.fill m).body i = readEmit n f o.body i := by
  have h := newCols_relabel (total (nth m.queries)) n f o.body
  obtain ⟨b, emit, schema, source⟩ := o
  cases b <;> simp only [Own.fill, fillBody_def, relabelBody, readEmit] at h ⊢
  rw [h]

theorem readFields_fill (n m : Names) (o : Own) (f : List Col) :
    readFields n (o.fill m) f = readFields n o f := by
  have h := newCols_relabel (total (nth m.queries)) n f o.body
  have h' := outCols_fill n m o f
  obtain ⟨b, emit, schema, source⟩ := o
  cases b <;> simp only [Own.fill, fillBody_def, relabelBody, readFields] at h h' ⊢ <;>
    first | rfl | (rw [h]; done) | (rw [h, h'])

theorem printContext_fill (s : Setting) (up : List RelData) (n m : Names) (o : Own) (d : RelData) :
    printContext s up n (o.fill m) d = printContext s up n o d := by
  obtain ⟨b, emit, schema, source⟩ := o
  cases b <;> rfl

variable {x : NRel}

theorem Good.queryNames (h : Good lib fn x) : x.names.queries = x.queries.map (·.names.rel) :=
  h.named.queries

theorem Good.queryCount (h : Good lib fn x) : x.names.queries.length = queriesBody x.own.body := by
  rw [h.queryNames, List.length_map, h.count]

theorem Good.readyFilled (h : Good lib fn x) : Ready x.inCols x.names x.filled := h.ready.fill _

theorem Good.bodyFilled (h : Good lib fn x) {rel : Str → Prop}
    (hn : ∀ y ∈ x.queries, rel y.names.rel) : BodyFits lib (fn.names rel)
      (x.inCols.map Col.isColumn) x.filled.emit x.filled.body := by
  refine bodyFits_fill h.body h.queryCount ?_
  intro n hm
  rw [h.queryNames] at hm
  obtain ⟨y, hy, rfl⟩ := List.mem_map.mp hm
  exact hn y hy

theorem Good.boundFilled (h : Good lib fn x) :
    x.inCols.length + (newCols x.names x.inCols x.filled.body).length < 2147483648 := by
  rw [NRel.filled, Own.fill, fillBody_def, newCols_relabel]
  exact h.bound

theorem Good.asked (h : Good lib fn x) :
    Rel.askedBody x.filled.body = x.queries.map (·.names.rel) := by
  rw [NRel.filled, Own.fill, ← h.queryNames]
  exact asked_fill h.body h.queryCount

/-! ## The inputs come first -/

/-- In this order every relation comes after the ones in it. -/
def Closed (seen : List NRel) : List NRel → Prop
  | [] => True
  | x :: xs => (∀ i ∈ x.kids, i ∈ seen) ∧ Closed (seen ++ [x]) xs

theorem Closed.append : ∀ {a b seen : List NRel}, Closed seen a → Closed (seen ++ a) b →
    Closed seen (a ++ b)
  | [], b, seen, _, h => by simpa using h
  | x :: a, b, seen, h1, h2 => by
    refine ⟨h1.1, Closed.append h1.2 ?_⟩
    simpa using h2

mutual
theorem closed_subs : ∀ r seen, Closed seen (subs r)
  | .node n o ins, seen => by
    rw [subs]
    refine (closedL_subs ins seen).append ⟨fun i hi => ?_, trivial⟩
    exact List.mem_append_right _ (mem_subsL hi)
theorem closedL_subs : ∀ rs seen, Closed seen (subsL rs)
  | [], _ => trivial
  | r :: rs, seen => by
    rw [subsL]
    exact (closed_subs r seen).append (closedL_subs rs _)
end

/-! ## The graph -/

theorem fits_arity {x : NRel} (h : Good lib fn x) :
    Pipe.Writable (pipeKind x.own.body) ∧ Pipe.Arity (pipeKind x.own.body) (skeletonL x.inputs) := by
  have ha := h.arity
  have hb := h.body
  rw [← skeletonL_length] at ha
  revert ha hb
  cases x.own.body <;> intro ha hb <;>
    first | exact False.elim hb | exact ⟨by simp [pipeKind, Pipe.Writable], ha⟩

/-- Only relations with expressions, other than reads, have subqueries. -/
theorem fits_queries {x : NRel} (h : Good lib fn x) :
    skeletonL x.queries ≠ [] → pipeKind x.own.body ∉ [.read, .cross, .fetch, .set] := by
  intro hq
  have hc := h.count
  have hr := h.reads
  have hne : queriesBody x.own.body ≠ 0 := by
    intro h0
    rw [h0] at hc
    rw [List.length_eq_zero_iff.mp hc] at hq
    exact hq rfl
  revert hne hr
  cases x.own.body <;> simp [pipeKind, queriesBody, isRead]

theorem fitsL_iff : ∀ rs : List Pipe.Rel, Pipe.FitsL rs ↔ ∀ x ∈ rs, Pipe.Fits x
  | [] => by simp [Pipe.FitsL]
  | r :: rs => by rw [Pipe.FitsL, fitsL_iff rs, List.forall_mem_cons]

mutual
theorem fits_skeleton : ∀ r, (∀ x ∈ subs r, Good lib fn x) → Pipe.Fits (skeleton r)
  | .node n o ins, h => by
    rw [subs] at h
    have h1 := (fitsL_iff _).mp (fits_skeletonL ins fun x hx => h x (List.mem_append_left _ hx))
    have g := h (.node n o ins) (by simp)
    obtain ⟨h3, h4⟩ := fits_arity g
    have h5 := fits_queries g
    have e := skeleton_eq (.node n o ins)
    rw [skeleton] at e
    injection e with _ _ e1 e2
    rw [skeleton]
    refine ⟨h3, by rw [e1]; exact h4, by rw [e2]; exact h5, (fitsL_iff _).mpr fun x hx => ?_,
      (fitsL_iff _).mpr fun x hx => ?_⟩
    · exact h1 x (mem_inputsIn hx)
    · exact h1 x (mem_queriesIn hx)
theorem fits_skeletonL : ∀ rs, (∀ x ∈ subsL rs, Good lib fn x) → Pipe.FitsL (skeletonL rs)
  | [], _ => trivial
  | r :: rs, h => by
    rw [subsL] at h
    rw [skeletonL]
    exact ⟨fits_skeleton r fun x hx => h x (List.mem_append_left _ hx),
      fits_skeletonL rs fun x hx => h x (List.mem_append_right _ hx)⟩
end

/-! ## Inputs are no subqueries -/

/-- The names of the relations in a relation. -/
def kidNames (x : NRel) : List Str := x.kids.map (·.names.rel)

mutual
theorem subs_kids : ∀ r, ((subs r).map (·.names.rel)).Perm
    ((subs r).flatMap kidNames ++ [r.names.rel])
  | .node n o kids => by
    rw [subs, List.map_append, List.flatMap_append]
    have h := subsL_kids kids
    simp only [List.map_cons, List.map_nil, List.flatMap_cons, List.flatMap_nil, List.append_nil]
    exact h.append_right _
theorem subsL_kids : ∀ rs, ((subsL rs).map (·.names.rel)).Perm
    ((subsL rs).flatMap kidNames ++ rs.map (·.names.rel))
  | [] => .refl _
  | r :: rs => by
    rw [subsL, List.map_append, List.flatMap_append, List.map_cons]
    refine ((subs_kids r).append (subsL_kids rs)).trans ?_
    simp only [List.append_assoc]
    refine List.Perm.append_left _ ?_
    rw [← List.append_assoc]
    refine (List.Perm.append_right _ List.perm_append_comm).trans ?_
    rw [List.append_assoc]
    exact .refl _
end

theorem mem_pairwise {α : Type} {R : α → α → Prop} (hs : ∀ a b, R a b → R b a) :
    ∀ {l : List α}, l.Pairwise R → ∀ {a b : α}, a ∈ l → b ∈ l → a ≠ b → R a b
  | [], _, a, b, ha, _, _ => by simp at ha
  | c :: l, h, a, b, ha, hb, hne => by
    rw [List.pairwise_cons] at h
    rcases List.mem_cons.mp ha with rfl | ha'
    · rcases List.mem_cons.mp hb with rfl | hb'
      · exact absurd rfl hne
      · exact h.1 b hb'
    · rcases List.mem_cons.mp hb with rfl | hb'
      · exact hs _ _ (h.1 a ha')
      · exact mem_pairwise hs h.2 ha' hb' hne

/-- No input of a relation is the relation of a subquery. -/
theorem input_not_query {r : NRel} (hn : ((subs r).map (·.names.rel)).Nodup) {x y i q : NRel}
    (hx : x ∈ subs r) (hy : y ∈ subs r) (hi : i ∈ x.inputs) (hq : q ∈ y.queries) :
    i.names.rel ≠ q.names.rel := by
  have h := (List.nodup_append.mp ((subs_kids r).nodup_iff.mp hn)).1
  rw [List.nodup_iff_pairwise_ne, List.pairwise_flatMap] at h
  have hi' : i.names.rel ∈ kidNames x := List.mem_map.mpr ⟨i, mem_inputsIn hi, rfl⟩
  have hq' : q.names.rel ∈ kidNames y := List.mem_map.mpr ⟨q, mem_queriesIn hq, rfl⟩
  by_cases e : x = y
  · subst e
    have h1 := h.1 x hx
    rw [← List.nodup_iff_pairwise_ne] at h1
    have h2 := (((perm_split x.own.body x.kids).map fun x : NRel => x.names.rel).nodup_iff).mp h1
    rw [List.map_append, List.nodup_append] at h2
    exact h2.2.2 _ (List.mem_map.mpr ⟨i, hi, rfl⟩) _ (List.mem_map.mpr ⟨q, hq, rfl⟩)
  · exact mem_pairwise (R := fun a b => ∀ u ∈ kidNames a, ∀ v ∈ kidNames b, u ≠ v)
      (fun a b h u hu v hv e => h v hv u hu e.symm) h.2 hx hy e _ hi' _ hq'

/-! ## Pipelines -/

mutual
theorem segs_ne_nil : ∀ r : Pipe.Rel, ∀ y ∈ Pipe.segs r, y.1 ≠ []
  | .node k n ins subs => by
    intro y hy
    have hc : ∀ s, Pipe.chain s ≠ [] := fun s => by
      obtain ⟨c, e⟩ := Pipe.chain_ne_nil s
      rw [e]
      simp
    rw [Pipe.segs] at hy
    rcases List.mem_append.mp hy with hy | hy
    · unfold Pipe.arrange at hy
      split at hy <;> rcases List.mem_append.mp hy with hy | hy
      · exact segsL_ne_nil ins y hy
      · exact segsL_ne_nil subs y hy
      · exact segsL_ne_nil subs y hy
      · exact segsL_ne_nil ins y hy
    · rcases List.mem_append.mp hy with hy | hy
      · unfold Pipe.own at hy
        split at hy
        · obtain ⟨i, -, rfl⟩ := List.mem_map.mp hy
          exact hc i
        · obtain ⟨i, -, rfl⟩ := List.mem_map.mp hy
          exact hc i
        · simp at hy
      · obtain ⟨i, -, rfl⟩ := List.mem_map.mp hy
        exact hc i
theorem segsL_ne_nil : ∀ rs : List Pipe.Rel, ∀ y ∈ Pipe.segsL rs, y.1 ≠ []
  | [] => by intro y hy; simp [Pipe.segsL] at hy
  | r :: rs => by
    intro y hy
    rw [Pipe.segsL] at hy
    rcases List.mem_append.mp hy with hy | hy
    · exact segs_ne_nil r y hy
    · exact segsL_ne_nil rs y hy
end

theorem allSegs_ne_nil (root : Str) (r : Pipe.Rel) : ∀ y ∈ Pipe.allSegs root r, y.1 ≠ [] := by
  intro y hy
  rcases List.mem_append.mp hy with hy | hy
  · exact segs_ne_nil r y hy
  · rw [List.mem_singleton] at hy
    subst hy
    obtain ⟨c, e⟩ := Pipe.chain_ne_nil r
    rw [e]
    simp

/-! ## Names -/

/-- The schemas of the plan. -/
def schemas (r : NRel) : List (Str × Sec.NamedStruct) := (subs r).flatMap fun x => x.toNode.schemas
/-- The sources of the plan. -/
def sources (r : NRel) : List (Str × Sec.Source) := (subs r).flatMap fun x => x.toNode.sources
/-- The relations of the plan. -/
def relNames (r : NRel) : List Str := (subs r).map fun x => x.names.rel

theorem count_keys (a : Str) : ∀ l : List NRel,
    ((l.flatMap fun x => x.toNode.schemas).map (·.1)).count a +
      (((l.flatMap fun x => x.toNode.sources).map (·.1)).count a +
        (l.map fun x => x.names.rel).count a) ≤
      (l.flatMap fun x => ownLabels x.names x.own).count a
  | [] => by simp
  | x :: l => by
    have ih := count_keys a l
    have h1 : (x.toNode.schemas.map (·.1)).count a ≤ x.names.schema.toList.count a := by
      simp only [Node.schemas, NRel.toNode]
      split
      · next e1 e2 => rw [e1]; simp
      · simp
    have h2 : (x.toNode.sources.map (·.1)).count a ≤ x.names.source.toList.count a := by
      simp only [Node.sources, NRel.toNode]
      split
      · next e1 e2 => rw [e1]; simp
      · simp
    simp only [List.flatMap_cons, List.map_append, List.map_cons, List.count_append, ownLabels] at *
    have h3 : (x.names.rel :: l.map fun x => x.names.rel).count a =
      [x.names.rel].count a + (l.map fun x => x.names.rel).count a := by
      rw [← List.count_append]; rfl
    omega

/-- Schemas, sources and relations have different names, all of them labels. -/
theorem keys_labels {r : NRel} {root : Str} (h : Labelled (root :: labels r)) :
    (root :: ((schemas r).map (·.1) ++ ((sources r).map (·.1) ++ relNames r))).Nodup ∧
      ∀ k ∈ (schemas r).map (·.1) ++ ((sources r).map (·.1) ++ relNames r), k ∈ labels r := by
  have key : ∀ a, ((schemas r).map (·.1) ++ ((sources r).map (·.1) ++ relNames r)).count a ≤
      (labels r).count a := by
    intro a
    rw [labels_subs, List.count_append, List.count_append]
    exact count_keys a (subs r)
  have hm : ∀ k ∈ (schemas r).map (·.1) ++ ((sources r).map (·.1) ++ relNames r),
      k ∈ labels r := by
    intro k hk
    have := key k
    have h1 := List.count_pos_iff.mpr hk
    exact List.count_pos_iff.mp (by omega)
  refine ⟨?_, hm⟩
  have hn := List.nodup_cons.mp h.once
  rw [List.nodup_cons]
  refine ⟨fun hk => hn.1 (hm _ hk), ?_⟩
  rw [List.nodup_iff_count]
  intro a
  exact Nat.le_trans (key a) (List.nodup_iff_count.mp hn.2 a)

end Verif.Whole
