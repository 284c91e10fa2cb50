import Verif.Spec.Settles
import Verif.Lemmas.WholeItems
import Verif.Lemmas.WholeNaming

/-! # The converter stays inside its tables -/

namespace Verif

namespace Outcome

theorem defined_ok {α : Type} (a : α) : (ok a : Outcome α).Defined := trivial

theorem Defined.bind {α β : Type} {o : Outcome α} {f : α → Outcome β} (h : o.Defined)
    (hf : ∀ a, (f a).Defined) : (o.bind f).Defined := by
  cases o with
  | ok a => exact hf a
  | throw e => trivial
  | ub => exact h.elim

theorem Defined.map {α β : Type} {o : Outcome α} {f : α → β} (h : o.Defined) :
    (o.map f).Defined := by
  cases o with
  | ok a => trivial
  | throw e => trivial
  | ub => exact h.elim

theorem Defined.mapM {α β : Type} {f : α → Outcome β} : ∀ {l : List α},
    (∀ a ∈ l, (f a).Defined) → (Outcome.mapM f l).Defined
  | [], _ => trivial
  | a :: l, h => (h a (by simp)).bind fun _ =>
      (Defined.mapM fun b hb => h b (by simp [hb])).bind fun _ => defined_ok _

theorem Defined.ne {α : Type} {o : Outcome α} (h : o.Defined) : o ≠ .ub := by
  rintro rfl
  exact h

end Outcome

open Outcome

/-! ## Fields -/

namespace Schema

theorem vecAt_defined {l : List Field} {i : Nat} (h : i < l.length) :
    (vecAt l i).Defined := by
  unfold vecAt
  rw [List.getElem?_eq_getElem h]
  trivial

theorem pickAll_defined {step : Int → Picked → Outcome Picked} (h : ∀ i r, (step i r).Defined) :
    ∀ is r, (pickAll step is r).Defined
  | [], _ => trivial
  | i :: is, r => (h i r).bind fun _ => pickAll_defined h is _

theorem pickGenerated_defined (old : List Field) (i : Int) (r : Picked) :
    (pickGenerated old i r).Defined := by
  unfold pickGenerated
  split
  · next h => exact (vecAt_defined h).bind fun _ => defined_ok _
  · trivial

theorem pickAny_defined (fs gs : List Field) (i : Int) (r : Picked) :
    (pickAny fs gs i r).Defined := by
  unfold pickAny
  split
  · next h => exact (vecAt_defined h).bind fun _ => defined_ok _
  · split
    · exact (vecAt_defined (l := gs) (by omega)).bind fun _ => defined_ok _
    · trivial

theorem applyBinary_defined (d : RelData) (m : List Int) : (applyBinary d m).Defined := by
  unfold applyBinary
  split
  · trivial
  · split
    · exact (pickAll_defined (pickGenerated_defined _) _ _).bind fun _ => defined_ok _
    · exact (pickAll_defined (pickAny_defined _ _) _ _).bind fun _ => defined_ok _

theorem projectBinary_defined (ν : Naming) (rel : Str) (fs : List Field) :
    ∀ (is : List Item) (k : Nat) (r : Picked), (projectBinary ν rel fs k is r).Defined
  | [], k, r => trivial
  | .ref i :: is, k, r => by
    rw [projectBinary]
    split
    · next h => exact (vecAt_defined h).bind fun _ => projectBinary_defined ν rel fs is _ _
    · exact projectBinary_defined ν rel fs is _ _
  | .other _ :: is, k, r => by
    rw [projectBinary]
    exact projectBinary_defined ν rel fs is _ _

theorem groupBinary_defined (fs : List Field) :
    ∀ (is : List Item) (r : Picked), (groupBinary fs is r).Defined
  | [], r => trivial
  | .ref i :: is, r => by
    rw [groupBinary]
    split
    · exact groupBinary_defined fs is _
    · exact (vecAt_defined (l := fs) (i := asSize i) (by omega)).bind fun _ => groupBinary_defined fs is _
  | .other _ :: is, r => by
    rw [groupBinary]
    exact groupBinary_defined fs is _

theorem localBinary_defined (ν : Naming) (rel : Str) (op : Op) (ins : List RelData) :
    (localBinary ν rel op ins).Defined := by
  unfold localBinary
  split
  · trivial
  · trivial
  · trivial
  · exact (projectBinary_defined ν rel _ _ _ _).bind fun _ => defined_ok _
  · exact (groupBinary_defined _ _ _).bind fun _ => defined_ok _

theorem stepBinary_defined (ν : Naming) (rel : Str) (op : Op) (emit : List Int)
    (ins : List RelData) : (stepBinary ν rel op emit ins).Defined :=
  (localBinary_defined ν rel op ins).bind fun _ => (applyBinary_defined _ _).bind fun _ => defined_ok _

end Schema

/-! ## Expressions -/

namespace Expr

theorem piece_defined {p : Printed} (h : p.Defined) : (piece p).Defined := h.map

theorem both_defined {p q : Pieces} (hp : p.Defined) (hq : q.Defined) : (both p q).Defined :=
  hp.bind fun _ => hq.map

theorem elsePieces_defined {e : PbExpr} {r : Printed} (h : r.Defined) :
    (elsePieces e r).Defined := by
  unfold elsePieces
  split
  · trivial
  · exact piece_defined h

theorem leftPrinted_defined {e : PbExpr} {r : Printed} (h : r.Defined) :
    (leftPrinted e r).Defined := by
  unfold leftPrinted
  split
  · trivial
  · exact h.map

theorem clausePieces_defined {a b : PbExpr} {r q : Printed} (hr : r.Defined) (hq : q.Defined) :
    (clausePieces a b r q).Defined := by
  unfold clausePieces
  split
  · trivial
  · trivial
  · exact both_defined (piece_defined hr) (piece_defined hq)

mutual
theorem printExpr_defined (c : Context) : ∀ (e : PbExpr) (d : Nat), (printExpr c d e).Defined
  | .notSet, d => by rw [printExpr]; trivial
  | .literal l, d => by rw [printExpr]; trivial
  | .field seg base, d => by rw [printExpr]; trivial
  | .masked _, d => by rw [printExpr]; trivial
  | .noReference _, d => by rw [printExpr]; trivial
  | .call f _ arguments args out, d => by
    rw [printExpr]
    exact (both_defined (printArgs_defined c arguments _) (printExprs_defined c args _)).map
  | .ifThen clauses els, d => by
    rw [printExpr]
    exact (both_defined (printClauses_defined c clauses _)
      (elsePieces_defined (printExpr_defined c els _))).map
  | .cast e t _, d => by
    rw [printExpr]
    exact (printExpr_defined c e _).map
  | .scalar rel, d => by rw [printExpr]; trivial
  | .inPredicate needles rel, d => by
    rw [printExpr]
    exact (printExprs_defined c needles _).map
  | .setPredicate op rel, d => by rw [printExpr]; trivial
  | .setComparison left op red rel, d => by
    rw [printExpr]
    exact (leftPrinted_defined (printExpr_defined c left _)).map
  | .noSubquery, d => by rw [printExpr]; trivial
  | .other k, d => by rw [printExpr]; trivial
theorem printArgs_defined (c : Context) : ∀ (as : List PbArg) (d : Nat),
    (printArgs c d as).Defined
  | [], d => by rw [printArgs]; trivial
  | a :: as, d => by
    rw [printArgs]
    exact both_defined (piece_defined (printArg_defined c a d)) (printArgs_defined c as d)
theorem printArg_defined (c : Context) : ∀ (a : PbArg) (d : Nat), (printArg c d a).Defined
  | .enum s, d => by rw [printArg]; trivial
  | .type t, d => by rw [printArg]; trivial
  | .value e, d => by rw [printArg]; exact printExpr_defined c e d
  | .notSet, d => by rw [printArg]; trivial
theorem printExprs_defined (c : Context) : ∀ (es : List PbExpr) (d : Nat),
    (printExprs c d es).Defined
  | [], d => by rw [printExprs]; trivial
  | e :: es, d => by
    rw [printExprs]
    exact both_defined (piece_defined (printExpr_defined c e d)) (printExprs_defined c es d)
theorem printClauses_defined (c : Context) : ∀ (cs : List PbClause) (d : Nat),
    (printClauses c d cs).Defined
  | [], d => by rw [printClauses]; trivial
  | a :: as, d => by
    rw [printClauses]
    exact both_defined (printClause_defined c a d) (printClauses_defined c as d)
theorem printClause_defined (c : Context) : ∀ (a : PbClause) (d : Nat),
    (printClause c d a).Defined
  | .mk a b, d => by
    rw [printClause]
    exact clausePieces_defined (printExpr_defined c a d) (printExpr_defined c b d)
end

end Expr

/-! ## Relations -/

namespace Rel

open Verif.Expr

theorem and_defined {p q : Text} (hp : p.Defined) (hq : q.Defined) : (Text.and p q).Defined :=
  hp.bind fun _ => hq.map

theorem line_defined {before after : Str} {p : Expr.Printed} (h : p.Defined) :
    (line before p after).Defined := h.map

theorem optLine_defined (c : Context) (before after : Str) : ∀ (o : Option PbExpr),
    (optLine c before after o).Defined
  | none => trivial
  | some e => line_defined (printExpr_defined c e 0)

theorem nameLine_defined (before : Str) : ∀ (o : Option Str), (nameLine before o).Defined
  | none => trivial
  | some _ => trivial

theorem printAggregateArgs_defined (c : Context) : ∀ (as : List PbArg),
    (printAggregateArgs c as).Defined
  | [] => trivial
  | a :: as => by
    refine both_defined (piece_defined ?_) (printAggregateArgs_defined c as)
    unfold printAggregateArg
    split
    · trivial
    · exact printArg_defined c _ 1

theorem printMeasure_defined (c : RelContext) (k : Nat) (m : PbMeasure) :
    (printMeasure c k m).Defined := by
  unfold printMeasure
  split
  · trivial
  · exact and_defined (line_defined (both_defined (printAggregateArgs_defined _ _)
      (printExprs_defined _ _ _)).map) (and_defined (optLine_defined _ _ _ _) trivial)

theorem printMeasures_defined (c : RelContext) : ∀ (ms : List PbMeasure) (k : Nat),
    (printMeasures c k ms).Defined
  | [], _ => trivial
  | m :: ms, k => and_defined (printMeasure_defined c k m) (printMeasures_defined c ms (k + 1))

theorem printGrouping_defined (c : Context) : ∀ (es : List PbExpr), (printGrouping c es).Defined
  | [] => trivial
  | e :: es => and_defined (line_defined (printExpr_defined c e 0)) (printGrouping_defined c es)

theorem printGroupings_defined (c : Context) : ∀ (gs : List (List PbExpr)),
    (printGroupings c gs).Defined
  | [] => trivial
  | g :: gs => and_defined (printGrouping_defined c g) (printGroupings_defined c gs)

theorem printEmitLines_defined (c : RelContext) : ∀ (is : List Int),
    (printEmitLines c is).Defined
  | [] => trivial
  | i :: is => by
    refine and_defined ?_ (printEmitLines_defined c is)
    unfold printEmitLine
    split <;> trivial

theorem printCommon_defined (c : RelContext) (emit : List Int) : (printCommon c emit).Defined :=
  and_defined trivial (printEmitLines_defined c emit)

theorem printSorts_defined (c : Context) : ∀ (ss : List PbSort) (acc : Str × List PrintErr),
    (printSorts c acc ss).Defined
  | [], _ => trivial
  | s :: ss, acc => by
    rw [printSorts]
    refine (printExpr_defined c s.expr 0).bind fun r => ?_
    split
    · exact printSorts_defined c ss _
    · trivial
    · exact printSorts_defined c ss _

theorem printProject_defined (c : RelContext) : ∀ (es : List PbExpr) (k : Nat),
    (printProject c k es).Defined
  | [], _ => trivial
  | e :: es, k => by
    rw [printProject]
    refine and_defined ?_ (printProject_defined c es (k + 1))
    split
    · trivial
    · exact line_defined (printExpr_defined _ e 0)

theorem projectionLine_defined (b : Bool) : (projectionLine b).Defined := by
  cases b <;> trivial

theorem printBody_defined {c : RelContext} {r : PbRel} {t : Text} (h : printBody c r = some t) :
    t.Defined := by
  unfold printBody at h
  split at h <;> cases h
  · exact and_defined (optLine_defined _ _ _ _)
      (and_defined (optLine_defined _ _ _ _) (projectionLine_defined _))
  · exact optLine_defined _ _ _ _
  · trivial
  · exact and_defined (printGroupings_defined _ _)
      (and_defined (printMeasures_defined _ _ _) (printCommon_defined _ _))
  · exact printSorts_defined _ _ _
  · exact and_defined (printProject_defined _ _ _) (printCommon_defined _ _)
  · exact and_defined trivial (and_defined (optLine_defined _ _ _ _) (optLine_defined _ _ _ _))
  · trivial

theorem printRelation_defined (c : RelContext) (r : PbRel) : (printRelation c r).Defined := by
  unfold printRelation
  split
  · trivial
  · next t h =>
    exact and_defined trivial (and_defined (nameLine_defined _ _)
      (and_defined (nameLine_defined _ _) (and_defined (printBody_defined h) trivial)))

end Rel

/-! ## The other sections -/

namespace Sec

theorem fileText_defined (f : File) : (fileText f).Defined := by
  have h1 : (pathText f.path).Defined := by unfold pathText; split <;> trivial
  have h2 : (formatText f.format).Defined := by unfold formatText; split <;> trivial
  exact h1.bind fun _ => h2.map

theorem sourceText_defined (n : Str) : ∀ s, (sourceText n s).Defined
  | .named _ => trivial
  | .files items =>
    (Defined.mapM (f := itemText) (l := items) fun f _ => (fileText_defined f).map).map
  | .virtual => trivial
  | .extension => trivial

theorem partsText_defined (p : Parts) : p.text.Defined := by
  unfold Parts.text sourceSection
  exact (Defined.mapM fun e _ => sourceText_defined e.1 e.2).map.map

end Sec

namespace Ext

theorem useSpace_defined (spaces : List SpaceSym) : ∀ (fs : List FunSym) (acc : Outcome (List Nat)),
    acc.Defined → (fs.foldl (useSpace spaces) acc).Defined
  | [], acc, h => h
  | f :: fs, acc, h => by
    rw [List.foldl_cons]
    refine useSpace_defined spaces fs _ (h.bind fun set => ?_)
    split <;> trivial

theorem blocks_defined (sort : Sorter) (t : Table) : (blocks sort t).Defined :=
  (useSpace_defined t.spaces t.funs (.ok []) trivial).map

end Ext

/-! ## The graph -/

namespace Pipe

mutual
/-- Going along the inputs of a relation of a tree ends. -/
theorem path_ends (t : Table) : ∀ (r : Rel),
    (∀ k n ins subs, Rel.node k n ins subs ∈ nodes r → t.data n = dataOf k ins subs) →
    ∃ l, ∀ f, (names r).length ≤ f → path t f r.name = .ok l
  | .node k n ins subs, hd => by
    have hn := hd k n ins subs (by simp [nodes])
    have hend : (dataOf k ins subs).cont = none ∨
        ∃ i ∈ ins, (dataOf k ins subs).cont = some i.name := by
      unfold dataOf
      split
      · exact .inl rfl
      · cases ins with
        | nil => exact .inl rfl
        | cons i ins => exact .inr ⟨i, by simp, rfl⟩
      · exact .inl rfl
      · exact .inl rfl
    rcases hend with h | ⟨i, hi, h⟩
    · refine ⟨[n], fun f hf => ?_⟩
      simp only [names, List.length_cons, List.length_append] at hf
      obtain ⟨f, rfl⟩ : ∃ g, f = g + 1 := ⟨f - 1, by omega⟩
      rw [Rel.name, path, hn, h]
    · obtain ⟨l, hl⟩ := path_endsL t ins
        (fun k' n' a b hm => hd k' n' a b (by simp [nodes, hm])) i hi
      refine ⟨n :: l, fun f hf => ?_⟩
      simp only [names, List.length_cons, List.length_append] at hf
      obtain ⟨f, rfl⟩ : ∃ g, f = g + 1 := ⟨f - 1, by omega⟩
      rw [Rel.name, path, hn, h]
      simp only
      rw [hl f (by omega)]
      rfl
theorem path_endsL (t : Table) : ∀ (rs : List Rel),
    (∀ k n ins subs, Rel.node k n ins subs ∈ nodesL rs → t.data n = dataOf k ins subs) →
    ∀ r ∈ rs, ∃ l, ∀ f, (namesL rs).length ≤ f → path t f r.name = .ok l
  | [], _, r, hr => by simp at hr
  | a :: rs, hd, r, hr => by
    have ha := path_ends t a fun k n i s hm => hd k n i s (by simp [nodesL, hm])
    rcases List.mem_cons.mp hr with e | hr
    · obtain ⟨l, hl⟩ := ha
      rw [e]
      exact ⟨l, fun f hf => hl f (by simp only [namesL, List.length_append] at hf; omega)⟩
    · obtain ⟨l, hl⟩ := path_endsL t rs (fun k n i s hm => hd k n i s (by simp [nodesL, hm])) r hr
      exact ⟨l, fun f hf => hl f (by simp only [namesL, List.length_append] at hf; omega)⟩
end

mutual
theorem names_nodes : ∀ (r : Rel), ∀ m ∈ nodes r, (names m).length ≤ (names r).length
  | .node k n ins subs, m, hm => by
    simp only [nodes, List.mem_cons, List.mem_append] at hm
    rcases hm with rfl | hm | hm
    · exact Nat.le_refl _
    · have := names_nodesL ins m hm
      simp only [names, List.length_cons, List.length_append]
      omega
    · have := names_nodesL subs m hm
      simp only [names, List.length_cons, List.length_append]
      omega
theorem names_nodesL : ∀ (rs : List Rel), ∀ m ∈ nodesL rs, (names m).length ≤ (namesL rs).length
  | [], m, hm => by simp [nodesL] at hm
  | r :: rs, m, hm => by
    simp only [nodesL, List.mem_append] at hm
    simp only [namesL, List.length_append]
    rcases hm with hm | hm
    · have := names_nodes r m hm; omega
    · have := names_nodesL rs m hm; omega
end

theorem news_names (k : RelKind) (ins subs : List Rel) : ∀ x ∈ (dataOf k ins subs).news,
    ∃ i ∈ ins, x = i.name := by
  intro x hx
  unfold dataOf at hx
  split at hx <;> simp at hx <;> (obtain ⟨i, hi, rfl⟩ := hx; exact ⟨i, hi, rfl⟩)

theorem subs_names (k : RelKind) (ins subs : List Rel) : ∀ x ∈ (dataOf k ins subs).subs,
    ∃ i ∈ subs, x = i.name := by
  intro x hx
  unfold dataOf at hx
  split at hx <;> simp at hx <;> (obtain ⟨i, hi, rfl⟩ := hx; exact ⟨i, hi, rfl⟩)

/-- A function with fuel gives the same result with any fuel that is enough. -/
def Ends {α : Type} (n : Nat) (g : Nat → Outcome α) : Prop := ∃ l, ∀ f, n ≤ f → g f = .ok l

theorem Ends.mapM {α β : Type} {n : Nat} {g : Nat → α → Outcome β} : ∀ {l : List α},
    (∀ a ∈ l, Ends n fun f => g f a) → Ends n fun f => Outcome.mapM (g f) l
  | [], _ => ⟨[], fun _ _ => rfl⟩
  | a :: l, h => by
    obtain ⟨x, hx⟩ := h a (by simp)
    obtain ⟨y, hy⟩ := Ends.mapM (l := l) fun b hb => h b (by simp [hb])
    refine ⟨x :: y, fun f hf => ?_⟩
    have h1 := hx f hf
    have h2 := hy f hf
    simp only at h1 h2
    simp only [Outcome.mapM_cons, h1, h2, Outcome.bind_ok]

theorem Ends.map {α β : Type} {n : Nat} {g : Nat → Outcome α} {k : α → β} (h : Ends n g) :
    Ends n fun f => (g f).map k := by
  obtain ⟨x, hx⟩ := h
  exact ⟨k x, fun f hf => by simp only [hx f hf, Outcome.map_ok]⟩

theorem lines_end {root : Str} {r : Rel} (hn : (names r).Nodup) (hr : root ∉ names r) :
    Ends (names r).length fun f => lines (convert root r) f := by
  have hpath : ∀ m ∈ nodes r, Ends (names r).length fun f => path (convert root r) f m.name := by
    intro m hm
    obtain ⟨l, hl⟩ := path_ends (convert root r) m fun k n ins subs hx =>
      convert_data hn hr (nodes_trans r m _ hm hx)
    have := names_nodes r m hm
    exact ⟨l, fun f hf => hl f (by omega)⟩
  refine Ends.map (Ends.mapM fun x hx => ?_)
  have hx' : (∃ m ∈ nodes r, x = m.name) ∨ x = root := by
    simp only [convert, tableOf, List.map_append, List.mem_append, List.mem_map] at hx
    rcases hx with ⟨e, he, rfl⟩ | hx
    · obtain ⟨m, hm, rfl⟩ := (mem_entries r e).mp he
      exact .inl ⟨m, hm, entryOf_name m⟩
    · simp at hx
      exact .inr hx.symm
  have key : (∀ y ∈ ((convert root r).data x).news, ∃ m ∈ nodes r, y = m.name) ∧
      ∀ y ∈ ((convert root r).data x).subs, ∃ m ∈ nodes r, y = m.name := by
    rcases hx' with ⟨m, hm, rfl⟩ | rfl
    · cases m with
      | node k n ins subs =>
        rw [Rel.name, convert_data hn hr hm]
        refine ⟨fun y hy => ?_, fun y hy => ?_⟩
        · obtain ⟨i, hi, rfl⟩ := news_names _ _ _ y hy
          exact ⟨i, nodes_self_sub r k n ins subs hm i (.inl hi), rfl⟩
        · obtain ⟨i, hi, rfl⟩ := subs_names _ _ _ y hy
          exact ⟨i, nodes_self_sub r k n ins subs hm i (.inr hi), rfl⟩
    · rw [convert_root hn hr]
      exact ⟨fun y hy => ⟨r, mem_nodes_self r, by simpa using hy⟩, fun y hy => by simp at hy⟩
  obtain ⟨a, ha⟩ := Ends.mapM (g := fun f m => (path (convert root r) f m).map fun p =>
    (x :: p).reverse) (l := ((convert root r).data x).news) (n := (names r).length) fun y hy => by
      obtain ⟨m, hm, rfl⟩ := key.1 y hy
      exact (hpath m hm).map
  obtain ⟨b, hb⟩ := Ends.mapM (g := fun f m => (path (convert root r) f m).map List.reverse)
    (l := ((convert root r).data x).subs) (n := (names r).length) fun y hy => by
      obtain ⟨m, hm, rfl⟩ := key.2 y hy
      exact (hpath m hm).map
  refine ⟨a ++ b, fun f hf => ?_⟩
  have h1 := ha f hf
  have h2 := hb f hf
  simp only at h1 h2 ⊢
  unfold linesOf
  rw [h1, Outcome.bind_ok, h2, Outcome.map_ok]

end Pipe

/-! ## Names -/

namespace Whole

/-- What names are made of in any plan. -/
def anyBases : List Str := "virtual".toList :: "extensiontable".toList :: "set".toList :: bases.tail

theorem anyBases_last : ∀ b ∈ anyBases, ∀ c, b.getLast? = some c → isDigit c = false := by
  have h : (anyBases.all fun b => b.getLast?.all fun c => !isDigit c) = true := by decide +kernel
  rw [List.all_eq_true] at h
  intro b hb c hc
  have := h b hb
  rw [hc] at this
  simpa using this

theorem issued_distinct : ∀ (bs e : List Str), (∀ b ∈ bs, b ∈ anyBases) → (Sym.issued e bs).Nodup
  | [], e, _ => by simp [Sym.issued]
  | b :: bs, e, h => by
    simp only [Sym.issued, List.nodup_cons]
    refine ⟨?_, issued_distinct bs _ fun x hx => h x (by simp [hx])⟩
    intro hm
    obtain ⟨b', hb', n, hn, e'⟩ := issued_mem _ _ _ hm
    obtain ⟨rfl, rfl⟩ := Sym.uniqueText_inj (anyBases_last b (h b (by simp)))
      (anyBases_last b' (h b' (by simp [hb']))) e'
    rw [List.count_append] at hn
    simp at hn
    omega

/-- These are among the names handed out, in this order. -/
def Among (u u' : Counters) (l : List Str) : Prop :=
  ∀ q, Counted u q → ∃ bs, (∀ b ∈ bs, b ∈ anyBases) ∧ l.Sublist (Sym.issued q bs) ∧
    Counted u' (q ++ bs)

theorem Among.nil (u : Counters) : Among u u [] := fun q h =>
  ⟨[], by simp, by simp, by simpa using h⟩

theorem Among.one (u : Counters) {b : Str} (hb : b ∈ anyBases) :
    Among u (u.getUniqueName b).1 [(u.getUniqueName b).2] := fun q h =>
  ⟨[b], by simpa using hb, by rw [h.name]; exact List.Sublist.refl _, h.next b⟩

theorem Among.less {u v : Counters} {a b : List Str} (h : Among u v b) (hs : a.Sublist b) :
    Among u v a := by
  intro q hq
  obtain ⟨x, x1, x2, x3⟩ := h q hq
  exact ⟨x, x1, hs.trans x2, x3⟩

theorem Among.append {u v w : Counters} {a b : List Str} (h1 : Among u v a) (h2 : Among v w b) :
    Among u w (a ++ b) := by
  intro q hq
  obtain ⟨x, x1, x2, x3⟩ := h1 q hq
  obtain ⟨y, y1, y2, y3⟩ := h2 _ x3
  refine ⟨x ++ y, ?_, ?_, by rw [← List.append_assoc]; exact y3⟩
  · intro z hz
    rcases List.mem_append.mp hz with hz | hz
    · exact x1 z hz
    · exact y1 z hz
  · rw [issued_append]
    exact x2.append y2

theorem among_opt (u : Counters) : ∀ (o : Option Str), (∀ b, o = some b → b ∈ anyBases) →
    Among u (takeOpt u o).1 []
  | none, _ => Among.nil u
  | some b, h => (Among.one u (h b rfl)).less (by simp)

theorem among_all : ∀ (l : List Str) (u : Counters), (∀ b ∈ l, b ∈ anyBases) →
    Among u (takeAll u l).1 []
  | [], u, _ => Among.nil u
  | b :: l, u, h =>
    ((Among.one u (h b (by simp))).append
      (among_all l _ fun x hx => h x (by simp [hx]))).less (by simp)

theorem among_items : ∀ (es : List Expr.PbExpr) (u : Counters), Among u (takeItems u es).1 []
  | [], u => Among.nil u
  | e :: es, u => by
    rw [takeItems]
    cases reference e with
    | some i => exact among_items es u
    | none => exact ((Among.one u (by decide)).append (among_items es _)).less (by simp)

theorem kindText_any : ∀ k : Enum.RelType, Rel.kindText k ∈ anyBases := by
  intro k
  cases k <;> decide

theorem sourceBase_any : ∀ t : Sec.Source, sourceBase t ∈ anyBases := by
  intro t
  cases t
  · exact (by decide : "named".toList ∈ anyBases)
  · exact (by decide : "local".toList ∈ anyBases)
  · exact (by decide : "virtual".toList ∈ anyBases)
  · exact (by decide : "extensiontable".toList ∈ anyBases)

theorem among_node (u : Counters) (o : Own) :
    Among u (nameNode u o).1 [(nameNode u o).2.rel] := by
  have h1 : ∀ b, (o.baseSchema.map fun _ => "schema".toList) = some b → b ∈ anyBases := by
    intro b h
    obtain ⟨_, -, rfl⟩ := Option.map_eq_some_iff.mp h
    decide
  have h2 : ∀ b, o.readSource.map sourceBase = some b → b ∈ anyBases := by
    intro b h
    obtain ⟨t, -, rfl⟩ := Option.map_eq_some_iff.mp h
    exact sourceBase_any t
  have h3 : ∀ b ∈ (measuresOf o.body).map fun _ => "measurename".toList, b ∈ anyBases := by
    intro b h
    obtain ⟨_, -, rfl⟩ := List.mem_map.mp h
    decide
  exact (among_opt u _ h1).append ((among_opt _ _ h2).append ((among_items _ _).append
    ((among_all _ _ h3).append (Among.one _ (kindText_any _)))))

mutual
theorem among_tree : ∀ (r : BRel) (u : Counters),
    Among u (nameTree u r).1 ((subs (nameTree u r).2).map fun x => x.names.rel)
  | .node o kids, u => by
    rw [nameTree, subs, List.map_append]
    exact (among_trees kids u).append (among_node _ o)
theorem among_trees : ∀ (rs : List BRel) (u : Counters),
    Among u (nameTrees u rs).1 ((subsL (nameTrees u rs).2).map fun x => x.names.rel)
  | [], u => Among.nil u
  | r :: rs, u => by
    rw [nameTrees, subsL, List.map_append]
    exact (among_tree r u).append (among_trees rs _)
end

mutual
theorem relations_subs : ∀ (r : BRel) (u : Counters),
    (subs (nameTree u r).2).length = relations r
  | .node o kids, u => by
    rw [nameTree, subs, relations, List.length_append, relationsL_subs kids u]
    simp only [List.length_cons, List.length_nil]
    omega
theorem relationsL_subs : ∀ (rs : List BRel) (u : Counters),
    (subsL (nameTrees u rs).2).length = relationsL rs
  | [], u => rfl
  | r :: rs, u => by
    rw [nameTrees, subsL, relationsL, List.length_append, relations_subs r u,
      relationsL_subs rs _]
end

/-- The relations of any plan have names of their own, and so has the plan relation. -/
theorem named_any (p : Input) :
    (Pipe.names (skeleton (nameTree (startCounters p) p.rel).2)).Nodup ∧
      ((nameTree (startCounters p) p.rel).1.getUniqueName Sec.rootName).2 ∉
        Pipe.names (skeleton (nameTree (startCounters p) p.rel).2) ∧
      (Pipe.names (skeleton (nameTree (startCounters p) p.rel).2)).length = relations p.rel := by
  obtain ⟨bs, b1, b2, b3⟩ := among_tree p.rel (startCounters p) _ (counted_start p)
  have hp := names_subs (nameTree (startCounters p) p.rel).2
  refine ⟨hp.nodup_iff.mpr (b2.nodup (issued_distinct _ _ b1)), ?_, ?_⟩
  · rw [hp.mem_iff, b3.name]
    intro hm
    obtain ⟨b, hb, n, -, e⟩ := issued_mem _ _ _ (b2.subset hm)
    have := Sym.uniqueText_inj (bases_last Sec.rootName (by decide))
      (anyBases_last b (b1 b hb)) e
    have h1 := b1 b hb
    rw [← this.1] at h1
    exact absurd h1 (by decide)
  · rw [hp.length_eq, List.length_map, relations_subs]

/-! ## The plan -/

mutual
theorem nodes_defined : ∀ r : NRel, (nodes r).Defined
  | .node n o kids => by
    rw [nodes]
    refine (nodesL_defined kids).bind fun r => (Schema.stepBinary_defined _ _ _ _ _).bind fun d => ?_
    split <;> trivial
theorem nodesL_defined : ∀ rs : List NRel, (nodesL rs).Defined
  | [] => trivial
  | r :: rs => by
    rw [nodesL]
    exact (nodes_defined r).bind fun _ => (nodesL_defined rs).map
end

theorem nodeText_defined (s : Setting) (outer : Str → List Schema.RelData) (x : Node) :
    (nodeText s outer x).Defined := by
  unfold nodeText
  refine (Rel.printRelation_defined _ _).bind fun r => ?_
  split <;> trivial

theorem treeText_defined (sort : Ext.Sorter) (fuel : Nat) (s : Setting) (names : List Str)
    (root : Str) (r : NRel) (h : (Pipe.lines (Pipe.convert root (skeleton r)) fuel).Defined) :
    (treeText sort fuel s names root r).Defined :=
  (nodes_defined r).bind fun _ => h.bind fun _ =>
    (Defined.mapM fun _ _ => nodeText_defined _ _ _).bind fun _ =>
      (Ext.blocks_defined _ _).bind fun _ => Sec.partsText_defined _

theorem treeText_lines {sort : Ext.Sorter} {f g : Nat} {s : Setting} {names : List Str}
    {root : Str} {r : NRel} (h : Pipe.lines (Pipe.convert root (skeleton r)) f =
      Pipe.lines (Pipe.convert root (skeleton r)) g) :
    treeText sort f s names root r = treeText sort g s names root r := by
  unfold treeText
  rw [h]

end Whole

end Verif
