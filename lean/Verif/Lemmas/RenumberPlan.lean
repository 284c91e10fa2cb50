import Verif.Lemmas.RenumberRel

/-! # Plans with other numbers for URIs and functions -/

namespace Verif.Whole

open Verif Verif.Expr

/-! ## Functions -/

def numFunSym (σ τ : Nat → Nat) (f : Ext.FunSym) : Ext.FunSym :=
  ⟨f.symbol, f.name, f.space.map τ, σ f.anchor⟩

def numSpaceSym (τ : Nat → Nat) (s : Ext.SpaceSym) : Ext.SpaceSym := { s with anchor := τ s.anchor }

def numTable (σ τ : Nat → Nat) (t : Ext.Table) : Ext.Table :=
  ⟨t.spaces.map (numSpaceSym τ), t.funs.map (numFunSym σ τ)⟩

theorem addFunctions_num (σ τ : Nat → Nat) : ∀ (fs : List Ext.PbFunction) (u : Sym.Table Unit)
    (l : List Ext.FunSym),
    (fs.map (numFunction σ τ)).foldl Ext.addFunction (u, l.map (numFunSym σ τ)) =
      ((fs.foldl Ext.addFunction (u, l)).1, (fs.foldl Ext.addFunction (u, l)).2.map (numFunSym σ τ))
  | [], _, _ => rfl
  | f :: fs, u, l => by
    have h : Ext.addFunction (u, l.map (numFunSym σ τ)) (numFunction σ τ f) =
        ((Ext.addFunction (u, l) f).1, (Ext.addFunction (u, l) f).2.map (numFunSym σ τ)) := by
      simp [Ext.addFunction, numFunction, numFunSym]
    rw [List.map_cons, List.foldl_cons, List.foldl_cons, h]
    exact addFunctions_num σ τ fs _ _

theorem readBinary_num (σ τ : Nat → Nat) (us : List Ext.PbUri) (fs : List Ext.PbFunction) :
    Ext.readBinary (us.map (numUri τ)) (fs.map (numFunction σ τ)) = numTable σ τ (Ext.readBinary us fs) := by
  have h := addFunctions_num σ τ fs Sym.Table.empty []
  unfold Ext.readBinary numTable
  rw [List.map_nil] at h
  rw [h]
  simp [numUri, numSpaceSym]

theorem startCounters_num (σ τ : Nat → Nat) (p : Input) :
    startCounters (renumberPlan σ τ p) = startCounters p := by
  have h := addFunctions_num σ τ p.functions Sym.Table.empty []
  unfold startCounters renumberPlan
  rw [List.map_nil] at h
  rw [h]

theorem functionName_num {σ : Nat → Nat} (hσ : Distinct σ) (τ : Nat → Nat) (t : Ext.Table) (a : Nat) :
    functionName (numTable σ τ t) (σ a) = functionName t a := by
  unfold functionName numTable
  simp only [List.find?_map, Option.map_map]
  have h : ((fun f : Ext.FunSym => decide (f.anchor = σ a)) ∘ numFunSym σ τ) =
      fun f => decide (f.anchor = a) := by
    funext f
    simp only [Function.comp, numFunSym]
    exact decide_eq_decide.2 ⟨fun h => hσ h, fun h => by rw [h]⟩
  rw [h]
  rfl

theorem nameOf_num {τ : Nat → Nat} (hτ : Distinct τ) (l : List Ext.SpaceSym) (a : Nat) :
    Ext.nameOf (l.map (numSpaceSym τ)) (τ a) = Ext.nameOf l a := by
  unfold Ext.nameOf
  simp only [List.find?_map, Option.map_map]
  have h : ((fun f : Ext.SpaceSym => decide (f.anchor = τ a)) ∘ numSpaceSym τ) =
      fun f => decide (f.anchor = a) := by
    funext f
    simp only [Function.comp, numSpaceSym]
    exact decide_eq_decide.2 ⟨fun h => hτ h, fun h => by rw [h]⟩
  rw [h]
  rfl

theorem setInsert_num {τ : Nat → Nat} {less less' : Nat → Nat → Bool}
    (h : ∀ a b, less' (τ a) (τ b) = less a b) (x : Nat) : ∀ l : List Nat,
    Ext.setInsert less' (τ x) (l.map τ) = (Ext.setInsert less x l).map τ
  | [] => rfl
  | y :: ys => by
    simp only [List.map_cons, Ext.setInsert, h]
    by_cases h1 : less x y = true
    · simp [h1]
    · by_cases h2 : less y x = true
      · simp [h1, h2, setInsert_num h x ys]
      · simp [h1, h2]

theorem spaceLess_num {τ : Nat → Nat} (hτ : Distinct τ) (l : List Ext.SpaceSym) (a b : Nat) :
    Ext.spaceLess (l.map (numSpaceSym τ)) (τ a) (τ b) = Ext.spaceLess l a b := by
  unfold Ext.spaceLess
  rw [nameOf_num hτ, nameOf_num hτ]

theorem useSpace_num {τ : Nat → Nat} (hτ : Distinct τ) (σ : Nat → Nat) (l : List Ext.SpaceSym)
    (acc : Outcome (List Nat)) (f : Ext.FunSym) :
    Ext.useSpace (l.map (numSpaceSym τ)) (acc.map (List.map τ)) (numFunSym σ τ f) =
      (Ext.useSpace l acc f).map (List.map τ) := by
  cases acc with
  | throw e => rfl
  | ub => rfl
  | ok set =>
    cases hs : f.space with
    | none => simp [Ext.useSpace, numFunSym, hs, Outcome.map, Outcome.bind]
    | some a =>
      simp only [Ext.useSpace, numFunSym, hs, Outcome.map, Outcome.bind, Option.map_some]
      rw [setInsert_num (spaceLess_num hτ l)]

theorem useSpaces_num {τ : Nat → Nat} (hτ : Distinct τ) (σ : Nat → Nat) (l : List Ext.SpaceSym) :
    ∀ (fs : List Ext.FunSym) (acc : Outcome (List Nat)),
    (fs.map (numFunSym σ τ)).foldl (Ext.useSpace (l.map (numSpaceSym τ))) (acc.map (List.map τ)) =
      (fs.foldl (Ext.useSpace l) acc).map (List.map τ)
  | [], _ => rfl
  | f :: fs, acc => by
    rw [List.map_cons, List.foldl_cons, List.foldl_cons, useSpace_num hτ, useSpaces_num hτ σ l fs]

theorem blockOf_num {τ : Nat → Nat} (hτ : Distinct τ) (σ : Nat → Nat) (sort : Ext.Sorter)
    (t : Ext.Table) (a : Nat) : Ext.blockOf sort (numTable σ τ t) (τ a) = Ext.blockOf sort t a := by
  unfold Ext.blockOf numTable
  simp only [nameOf_num hτ, List.filter_map, List.map_map]
  have h : ((fun f : Ext.FunSym => decide (f.space = none ∨ f.space = some (τ a))) ∘ numFunSym σ τ) =
      fun f => decide (f.space = none ∨ f.space = some a) := by
    funext f
    simp only [Function.comp, numFunSym]
    refine decide_eq_decide.2 ?_
    cases f.space with
    | none => simp
    | some b =>
      simp only [Option.map_some, Option.some.injEq, reduceCtorEq, false_or]
      exact ⟨fun h => hτ h, fun h => by rw [h]⟩
  rw [h]
  rfl

theorem blocks_num {τ : Nat → Nat} (hτ : Distinct τ) (σ : Nat → Nat) (sort : Ext.Sorter)
    (t : Ext.Table) : Ext.blocks sort (numTable σ τ t) = Ext.blocks sort t := by
  unfold Ext.blocks Ext.usedSpaces
  have h : (numTable σ τ t).funs.foldl (Ext.useSpace (numTable σ τ t).spaces) (.ok []) =
      (t.funs.foldl (Ext.useSpace t.spaces) (.ok [])).map (List.map τ) :=
    useSpaces_num hτ σ t.spaces t.funs (.ok [])
  rw [h]
  cases t.funs.foldl (Ext.useSpace t.spaces) (.ok []) with
  | throw e => rfl
  | ub => rfl
  | ok l =>
    simp only [Outcome.map, List.map_map]
    congr 1
    exact List.map_congr_left fun a _ => blockOf_num hτ σ sort t a

/-! ## Names -/

theorem reference_num (σ : Nat → Nat) (e : PbExpr) : reference (renumber σ e) = reference e := by
  cases e <;> rfl

theorem itemOf_num (σ : Nat → Nat) (e : PbExpr) : itemOf (renumber σ e) = itemOf e := by
  unfold itemOf
  rw [reference_num]

theorem groupOf_num (σ : Nat → Nat) (e : PbExpr) : groupOf (renumber σ e) = groupOf e := by
  cases e <;> rfl

theorem takeItems_num (σ : Nat → Nat) : ∀ (es : List PbExpr) (u : Counters),
    takeItems u (renumberList σ es) = takeItems u es
  | [], _ => rfl
  | e :: es, u => by
    rw [renumberList]
    unfold takeItems
    simp only [reference_num, takeItems_num σ es]

theorem expressionsOf_num (σ : Nat → Nat) (b : Rel.Body) :
    expressionsOf (renumberBody σ b) = renumberList σ (expressionsOf b) := by
  cases b <;> simp [renumberBody, expressionsOf, renumberList, num_list]

theorem measuresOf_num (σ : Nat → Nat) (b : Rel.Body) :
    measuresOf (renumberBody σ b) = (measuresOf b).map (renumberMeasure σ) := by
  cases b <;> simp [renumberBody, measuresOf]

theorem isRead_num (σ : Nat → Nat) (b : Rel.Body) : isRead (renumberBody σ b) = isRead b := by
  cases b <;> rfl

theorem pipeKind_num (σ : Nat → Nat) (b : Rel.Body) : pipeKind (renumberBody σ b) = pipeKind b := by
  cases b <;> rfl

theorem inputsIn_num {α : Type} (σ : Nat → Nat) (b : Rel.Body) (l : List α) :
    inputsIn (renumberBody σ b) l = inputsIn b l := by
  unfold inputsIn
  rw [pipeKind_num, queriesBody_num]

theorem queriesIn_num {α : Type} (σ : Nat → Nat) (b : Rel.Body) (l : List α) :
    queriesIn (renumberBody σ b) l = queriesIn b l := by
  unfold queriesIn
  rw [pipeKind_num, queriesBody_num]

theorem nameNode_num (σ : Nat → Nat) (u : Counters) (o : Own) :
    nameNode u (numOwn σ o) = nameNode u o := by
  unfold nameNode
  simp only [Own.baseSchema, Own.readSource, numOwn, isRead_num, expressionsOf_num, takeItems_num,
    measuresOf_num, List.map_map, kind_num]
  rfl

mutual
/-- The tree with names. -/
def numN (σ : Nat → Nat) : NRel → NRel
  | .node n o kids => .node n (numOwn σ o) (numNs σ kids)
def numNs (σ : Nat → Nat) : List NRel → List NRel
  | [] => []
  | r :: rs => numN σ r :: numNs σ rs
end

theorem numNs_map (σ : Nat → Nat) : ∀ l, numNs σ l = l.map (numN σ)
  | [] => rfl
  | r :: rs => by rw [numNs, numNs_map σ rs, List.map_cons]

theorem names_numN (σ : Nat → Nat) : ∀ r, (numN σ r).names = r.names
  | .node _ _ _ => rfl

theorem queriesIn_maps {α β : Type} (f : α → β) (b : Rel.Body) (l : List α) :
    queriesIn b (l.map f) = (queriesIn b l).map f := by
  unfold queriesIn
  split <;> simp [List.map_drop, List.map_take]

mutual
theorem nameTree_num (σ : Nat → Nat) : ∀ (r : BRel) (u : Counters),
    nameTree u (numRel σ r) = ((nameTree u r).1, numN σ (nameTree u r).2)
  | .node o kids, u => by
    rw [numRel, nameTree, nameTree, nameTrees_num σ kids u]
    simp only [nameNode_num]
    congr 1
    rw [numN]
    congr 2
    rw [numNs_map]
    simp only [numOwn, queriesIn_num, queriesIn_maps, List.map_map]
    exact List.map_congr_left fun r _ => by simp only [Function.comp, names_numN]
theorem nameTrees_num (σ : Nat → Nat) : ∀ (rs : List BRel) (u : Counters),
    nameTrees u (numRels σ rs) = ((nameTrees u rs).1, numNs σ (nameTrees u rs).2)
  | [], _ => rfl
  | r :: rs, u => by
    rw [numRels, nameTrees, nameTrees, nameTree_num σ r u]
    simp only [nameTrees_num σ rs]
    rw [numNs]
end

/-! ## Relations -/

theorem opOf_num (σ : Nat → Nat) (n : Names) (o : Own) : opOf n (numOwn σ o) = opOf n o := by
  obtain ⟨b, e, s, t⟩ := o
  cases b with
  | project es =>
    simp only [numOwn, renumberBody, opOf, List.map_map]
    congr 1
    exact List.map_congr_left fun e _ => itemOf_num σ e
  | aggregate gs ms =>
    simp only [numOwn, renumberBody, opOf]
    congr 1
    · induction gs with
      | nil => rfl
      | cons es gs ih =>
        simp only [List.map_cons, List.flatten_cons, List.map_append, ih, List.map_map]
        congr 1
        exact List.map_congr_left fun e _ => groupOf_num σ e
    · simp only [List.map_map]
      rfl
  | _ => rfl

def numNode (σ : Nat → Nat) (x : Node) : Node := { x with own := numOwn σ x.own }

mutual
theorem nodes_num (σ : Nat → Nat) : ∀ r : NRel,
    nodes (numN σ r) = (nodes r).map fun x => (x.1.map (numNode σ), x.2)
  | .node n o kids => by
    rw [numN, nodes, nodes, nodesL_num σ kids]
    cases nodesL kids with
    | throw e => rfl
    | ub => rfl
    | ok x =>
      have h1 : inputsIn (numOwn σ o).body x.2 = inputsIn o.body x.2 := inputsIn_num σ o.body x.2
      have h2 : (numOwn σ o).emit = o.emit := rfl
      simp only [Outcome.map, Outcome.bind, opOf_num, h1, h2]
      cases Schema.stepBinary n.naming n.rel (opOf n o) o.emit (inputsIn o.body x.2) with
      | throw e => rfl
      | ub => rfl
      | ok d =>
        simp only
        split
        · simp [numNode]
        · rfl
theorem nodesL_num (σ : Nat → Nat) : ∀ rs : List NRel,
    nodesL (numNs σ rs) = (nodesL rs).map fun x => (x.1.map (numNode σ), x.2)
  | [] => rfl
  | r :: rs => by
    rw [numNs, nodesL, nodesL, nodes_num σ r, nodesL_num σ rs]
    cases nodes r with
    | throw e => rfl
    | ub => rfl
    | ok x =>
      cases nodesL rs with
      | throw e => rfl
      | ub => rfl
      | ok y => simp [Outcome.map, Outcome.bind]
end

mutual
theorem skeleton_num (σ : Nat → Nat) : ∀ r : NRel, skeleton (numN σ r) = skeleton r
  | .node n o kids => by
    rw [numN, skeleton, skeleton, skeletonL_num σ kids]
    simp only [numOwn, inputsIn_num, queriesIn_num, pipeKind_num]
theorem skeletonL_num (σ : Nat → Nat) : ∀ rs : List NRel, skeletonL (numNs σ rs) = skeletonL rs
  | [] => rfl
  | r :: rs => by rw [numNs, skeletonL, skeletonL, skeleton_num σ r, skeletonL_num σ rs]
end

theorem dataIn_num (σ : Nat → Nat) (l : List Node) (n : Str) :
    dataIn (l.map (numNode σ)) n = dataIn l n := by
  unfold dataIn
  simp only [List.find?_map, Option.map_map]
  rfl

theorem withNames_num (σ : Nat → Nat) (n : Names) (b : Rel.Body) :
    withNames n (renumberBody σ b) = renumberBody σ (withNames n b) := by
  cases b <;> rfl

theorem nodeText_num {σ : Nat → Nat} (hσ : Distinct σ) (τ : Nat → Nat) (lib : Literal.Lib)
    (t : Ext.Table) (outer : Str → List Schema.RelData) (x : Node) :
    nodeText ⟨lib, numTable σ τ t⟩ outer (numNode σ x) = nodeText ⟨lib, t⟩ outer x := by
  have hc : printContext ⟨lib, numTable σ τ t⟩ (outer x.names.rel) x.names (numOwn σ x.own) x.data =
      othersR (printContext ⟨lib, t⟩ (outer x.names.rel) x.names x.own x.data)
        (functionName (numTable σ τ t)) := by
    unfold printContext othersR others
    congr 1
    funext k
    obtain ⟨n, o, d⟩ := x
    obtain ⟨b, e, s, q⟩ := o
    cases b <;> rfl
  have h := likewise_relation (σ := σ) (c := printContext ⟨lib, t⟩ (outer x.names.rel) x.names x.own x.data)
    (F := functionName (numTable σ τ t)) (fun f => functionName_num hσ τ t f)
    (withNames x.names (x.own.fill x.names).body) x.own.emit
  have hb : withNames x.names ((numOwn σ x.own).fill x.names).body =
      renumberBody σ (withNames x.names (x.own.fill x.names).body) := by
    simp only [Own.fill, numOwn, fillBody, relabelBody_num, withNames_num]
  unfold nodeText
  simp only [numNode, hc, hb]
  have he : (numOwn σ x.own).emit = x.own.emit := rfl
  rw [he]
  revert h
  generalize Rel.printRelation (printContext ⟨lib, t⟩ (outer x.names.rel) x.names x.own x.data) _ = a
  generalize Rel.printRelation (othersR _ _) _ = b
  intro h
  cases a with
  | ok a =>
    cases b with
    | ok b =>
      obtain ⟨h1, -, h3⟩ := h
      simp only [Outcome.bind, ← h1]
      split
      · rename_i hn
        rw [h3 (List.isEmpty_iff.1 hn)]
      · rfl
    | throw _ => exact h.elim
    | ub => exact h.elim
  | throw a =>
    cases b with
    | ok b => exact h.elim
    | throw b =>
      have h : a = b := h
      rw [h]
    | ub => exact h.elim
  | ub =>
    cases b with
    | ok b => exact h.elim
    | throw _ => exact h.elim
    | ub => rfl

theorem mapM_maps {α β γ : Type} (g : α → β) (f : β → Outcome γ) : ∀ l : List α,
    Outcome.mapM f (l.map g) = Outcome.mapM (fun a => f (g a)) l
  | [] => rfl
  | a :: l => by
    rw [List.map_cons, Outcome.mapM_cons, Outcome.mapM_cons, mapM_maps g f l]

theorem schemas_num (σ : Nat → Nat) (l : List Node) :
    (l.map (numNode σ)).flatMap Node.schemas = l.flatMap Node.schemas := by
  rw [List.flatMap_map]
  rfl

theorem sources_num (σ : Nat → Nat) (l : List Node) :
    (l.map (numNode σ)).flatMap Node.sources = l.flatMap Node.sources := by
  rw [List.flatMap_map]
  rfl

theorem treeText_num {σ τ : Nat → Nat} (hσ : Distinct σ) (hτ : Distinct τ) (lib : Literal.Lib)
    (sort : Ext.Sorter) (fuel : Nat) (t : Ext.Table) (names : List Str) (root : Str) (r : NRel) :
    treeText sort fuel ⟨lib, numTable σ τ t⟩ names root (numN σ r) =
      treeText sort fuel ⟨lib, t⟩ names root r := by
  unfold treeText
  rw [nodes_num, skeleton_num]
  cases nodes r with
  | throw e => rfl
  | ub => rfl
  | ok x =>
    simp only [Outcome.map, Outcome.bind, mapM_maps, schemas_num, sources_num, blocks_num hτ]
    have h : (fun a => nodeText ⟨lib, numTable σ τ t⟩
          (fun n => (ownersOf (skeleton r) n).map (dataIn (x.1.map (numNode σ)))) (numNode σ a)) =
        fun a => nodeText ⟨lib, t⟩ (fun n => (ownersOf (skeleton r) n).map (dataIn x.1)) a := by
      funext a
      rw [nodeText_num hσ]
      have hd : dataIn (x.1.map (numNode σ)) = dataIn x.1 := by
        funext n
        exact dataIn_num σ x.1 n
      rw [hd]
    rw [h]

theorem toText_num {σ τ : Nat → Nat} (hσ : Distinct σ) (hτ : Distinct τ) (lib : Literal.Lib)
    (sort : Ext.Sorter) (fuel : Nat) (p : Input) :
    toText lib sort fuel (renumberPlan σ τ p) = toText lib sort fuel p := by
  unfold toText
  rw [startCounters_num]
  have h1 : (renumberPlan σ τ p).rel = numRel σ p.rel := rfl
  have h2 : Ext.readBinary (renumberPlan σ τ p).uris (renumberPlan σ τ p).functions =
      numTable σ τ (Ext.readBinary p.uris p.functions) := readBinary_num σ τ p.uris p.functions
  rw [h1, h2, nameTree_num]
  exact treeText_num hσ hτ lib sort fuel _ _ _ _

end Verif.Whole
