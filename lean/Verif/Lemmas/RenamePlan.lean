import Verif.Lemmas.RenameTable
import Verif.Lemmas.RenameGraph
import Verif.Lemmas.RenameQueries

/-! # Plans from texts with other names -/

namespace Verif.Whole

open Verif Verif.Tree Verif.Expr Verif.Sec

variable {ρ : Str → Str}

/-! ## The graph -/

theorem measureRefs_ren (m : Rel.MeasureDetail) :
    Rel.measureRefs (renMeasure ρ m) = (Rel.measureRefs m).map ρ := by
  cases m <;> simp [renMeasure, Rel.measureRefs, subqueryRefs_ren]

theorem detailRefs_ren (d : Rel.Detail) : Rel.detailRefs (renDetail ρ d) = (Rel.detailRefs d).map ρ := by
  cases d <;> simp [renDetail, Rel.detailRefs, subqueryRefs_ren]
  rename_i ds
  induction ds with
  | nil => rfl
  | cons m ds ih => simp [List.flatMap_cons, measureRefs_ren, ih]

theorem refsOf_ren (t : Rel.RelTree) : refsOf (renTree ρ t) = (refsOf t).map ρ := by
  unfold refsOf renTree
  simp only
  induction t.details with
  | nil => rfl
  | cons d ds ih => simp [List.flatMap_cons, detailRefs_ren, ih]

theorem subsOf_ren (hρ : ∀ {a b}, ρ a = ρ b → a = b) (ts : List Rel.RelTree) (n : Str) :
    subsOf (ts.map (renTree ρ)) (ρ n) = (subsOf ts n).map ρ := by
  unfold subsOf
  induction ts with
  | nil => rfl
  | cons t ts ih =>
    simp only [List.map_cons, List.filter_cons]
    by_cases e : t.ref.id = n
    · have e' : (renTree ρ t).ref.id = ρ n := congrArg ρ e
      simp only [e, e', decide_true, if_true, List.flatMap_cons, refsOf_ren, ih, List.map_append]
    · have e' : ¬ (renTree ρ t).ref.id = ρ n := fun x => e (hρ x)
      simp only [e, e', decide_false, Bool.false_eq_true, if_false, ih]

theorem entryOf_ren (subs : List Str) (i : Info) : entryOf (subs.map ρ) i = (entryOf subs i).ren ρ := by
  cases i <;> rfl

theorem graphOf_ren (hρ : ∀ {a b}, ρ a = ρ b → a = b) (l : List Symbol) (ts : List Rel.RelTree) :
    Pipe.Turned ρ (graphOf l ts) (graphOf (l.map (Symbol.ren ρ)) (ts.map (renTree ρ))) := by
  constructor
  · unfold graphOf
    simp only
    rw [List.filter_map, List.map_map, List.map_map]
    rfl
  · intro n
    unfold graphOf
    simp only
    rw [lookup_ren hρ]
    cases Sec.lookup l n with
    | none => rfl
    | some s =>
      simp only [Option.map_some, subsOf_ren hρ]
      rw [show (s.ren ρ).info = s.info from rfl, entryOf_ren]

theorem refsKnown_ren (hρ : ∀ {a b}, ρ a = ρ b → a = b) (l : List Symbol) :
    ∀ (ds : List PlanDetail) (seen : List Str),
    refsKnown (l.map (Symbol.ren ρ)) (seen.map ρ) (ds.map (renPart ρ)) = refsKnown l seen ds
  | [], _ => rfl
  | d :: ds, seen => by
    cases d with
    | pipelines ps =>
      simp only [List.map_cons, renPart, refsKnown]
      rw [← refsKnown_ren hρ l ds]
      congr 1
      rw [List.map_append, ← List.map_flatten, List.map_map, List.map_map]
      rfl
    | relation t =>
      simp only [List.map_cons, renPart, refsKnown]
      rw [refsKnown_ren hρ l ds, refsOf_ren, List.all_map]
      congr 2
      funext n
      simp only [Function.comp, lookup_ren hρ, Pipe.contains_ren hρ, Option.isSome_map]
    | schema id cs => simp only [List.map_cons, renPart, refsKnown]; exact refsKnown_ren hρ l ds seen
    | source t => simp only [List.map_cons, renPart, refsKnown]; exact refsKnown_ren hρ l ds seen
    | root ns => simp only [List.map_cons, renPart, refsKnown]; exact refsKnown_ren hρ l ds seen
    | space t => simp only [List.map_cons, renPart, refsKnown]; exact refsKnown_ren hρ l ds seen

variable {g g' : Pipe.Table}

theorem parentIn_ren (hρ : ∀ {a b}, ρ a = ρ b → a = b) (h : Pipe.Turned ρ g g') (n : Str) :
    parentIn g' (ρ n) = (parentIn g n).map ρ := by
  unfold parentIn
  rw [h.order, ← List.map_reverse, List.find?_map]
  congr 2
  funext m
  simp only [Function.comp, h.data]
  exact Pipe.contains_ren hρ _ _

theorem parentOf_ren (hρ : ∀ {a b}, ρ a = ρ b → a = b) (h : Pipe.Turned ρ g g') :
    ∀ (fuel : Nat) (n : Str), parentOf g' fuel (ρ n) = (parentOf g fuel n).map ρ
  | 0, _ => rfl
  | fuel + 1, n => by
    unfold parentOf
    rw [parentIn_ren hρ h]
    cases parentIn g n with
    | some m => rfl
    | none =>
      simp only [Option.map_none, h.data, Pipe.Data.ren]
      cases (g.data n).start with
      | none => rfl
      | some m => exact parentOf_ren hρ h fuel m

theorem outersOf_ren (hρ : ∀ {a b}, ρ a = ρ b → a = b) (h : Pipe.Turned ρ g g') :
    ∀ (fuel : Nat) (n : Str), outersOf g' fuel (ρ n) = (outersOf g fuel n).map ρ
  | 0, _ => rfl
  | fuel + 1, n => by
    unfold outersOf
    rw [parentOf_ren hρ h, h.order, List.length_map]
    cases parentOf g (g.order.length + 1) n with
    | none => rfl
    | some m => simp only [Option.map_some, List.map_cons, outersOf_ren hρ h fuel m]

/-! ## The relations -/

def Done.ren (ρ : Str → Str) (d : Done) : Done :=
  ⟨d.data.ren ρ, d.names.map ρ, ⟨d.rel.body.ren ρ, d.rel.emit⟩⟩

def Relations.ren (ρ : Str → Str) (l : Relations) : Relations := l.map fun e => (ρ e.1, e.2.ren ρ)

theorem Relations.find_ren (hρ : ∀ {a b}, ρ a = ρ b → a = b) (l : Relations) (n : Str) :
    (l.ren ρ).find (ρ n) = (l.find n).map (Done.ren ρ) := by
  unfold Relations.find Relations.ren
  rw [List.find?_map]
  have : (fun e : Str × Done => decide (e.1 = ρ n)) ∘ (fun e : Str × Done => (ρ e.1, e.2.ren ρ)) =
      fun e => decide (e.1 = n) := by
    funext e
    by_cases h : e.1 = n
    · simp [h]
    · have : ρ e.1 ≠ ρ n := fun x => h (hρ x)
      simp [h, this]
  rw [this]
  cases List.find? (fun e : Str × Done => decide (e.1 = n)) l <;> rfl

theorem Relations.fields_ren (hρ : ∀ {a b}, ρ a = ρ b → a = b) (l : Relations) (n : Str) :
    (l.ren ρ).fields (ρ n) = (l.fields n).ren ρ := by
  unfold Relations.fields
  rw [Relations.find_ren hρ]
  cases l.find n <;> rfl

theorem Relations.namesOf_ren (hρ : ∀ {a b}, ρ a = ρ b → a = b) (l : Relations) (n : Str) :
    (l.ren ρ).namesOf (ρ n) = (l.namesOf n).map ρ := by
  unfold Relations.namesOf
  rw [Relations.find_ren hρ]
  cases l.find n <;> rfl

theorem inputsOf_ren (hρ : ∀ {a b}, ρ a = ρ b → a = b) (h : Pipe.Turned ρ g g') (done : Relations)
    (n : Str) : inputsOf g' (done.ren ρ) (ρ n) = (inputsOf g done n).map (Schema.Field.ren ρ) := by
  unfold inputsOf
  rw [← Schema.inputFields_ren, h.data]
  congr 1
  simp only [Pipe.Data.ren, List.map_append, List.map_map]
  have e : (done.ren ρ).fields ∘ ρ = Schema.RelData.ren ρ ∘ done.fields := by
    funext m
    exact Relations.fields_ren hρ done m
  congr 1
  · cases (g.data n).cont with
    | none => rfl
    | some m => simp [Relations.fields_ren hρ]
  · rw [← e]

theorem freshNames_ren : ∀ (ds : List Rel.Detail) (u : Counters),
    freshNames u (ds.map (renDetail ρ)) = freshNames u ds
  | [], _ => rfl
  | d :: ds, u => by
    cases d with
    | expression e n => cases n <;> simp only [List.map_cons, renDetail, Option.map, freshNames, freshNames_ren ds]
    | _ => simp only [List.map_cons, renDetail, freshNames, freshNames_ren ds]

/-- Names that are kept. -/
def AllKept (ρ : Str → Str) (l : List Str) : Prop := ∀ n ∈ l, ρ n = n

/-- The names the reader makes up are kept. -/
def MadeKept (ρ : Str → Str) : Prop :=
  ρ intermediate = intermediate ∧ ∀ k, ρ (intermediate ++ natText k) = intermediate ++ natText k

theorem uniqueName_kept (hm : MadeKept ρ) (u : Counters) :
    ρ (u.getUniqueName intermediate).2 = (u.getUniqueName intermediate).2 := by
  unfold Sym.Table.getUniqueName
  split
  · exact hm.1
  · exact hm.2 _

theorem freshNames_kept (hq : Spelling ρ) (hm : MadeKept ρ) : ∀ (ds : List Rel.Detail) (u : Counters),
    AllKept ρ (freshNames u ds).2
  | [], _ => by intro n hn; cases hn
  | d :: ds, u => by
    have ih := fun u => freshNames_kept hq hm ds u
    cases d with
    | expression e n =>
      cases n with
      | none =>
        intro n hn
        simp only [freshNames, List.mem_cons] at hn
        rcases hn with rfl | hn
        · exact uniqueName_kept hm u
        · exact ih _ n hn
      | some x =>
        intro n hn
        simp only [freshNames, List.mem_cons] at hn
        rcases hn with rfl | hn
        · exact hq.empty
        · exact ih _ n hn
    | _ => exact ih u

theorem freshOf_kept (hq : Spelling ρ) (hm : MadeKept ρ) (first : Bool) (u : Counters) (t : Rel.RelTree) :
    AllKept ρ (freshOf first u t).2 := by
  unfold freshOf
  split
  · exact freshNames_kept hq hm _ _
  · intro n hn; cases hn

theorem freshOf_ren (first : Bool) (u : Counters) (t : Rel.RelTree) :
    freshOf first u (renTree ρ t) = freshOf first u t := by
  unfold freshOf renTree
  simp only [freshNames_ren]

theorem relationNamed_ren (hρ : ∀ {a b}, ρ a = ρ b → a = b) (h : Pipe.Turned ρ g g') (l : List Symbol)
    (n : Str) : relationNamed (l.map (Symbol.ren ρ)) g' (ρ n) = relationNamed l g n := by
  unfold relationNamed
  rw [lookup_ren hρ]
  cases Sec.lookup l n with
  | some s => rfl
  | none => simp only [Option.map_none, h.get]; cases g.get n <;> rfl

theorem anchorOf_ren (hρ : ∀ {a b}, ρ a = ρ b → a = b) (st : Sec.State) (n : Str) :
    anchorOf (st.ren ρ) (ρ n) = anchorOf st n := by
  unfold anchorOf
  rw [show (st.ren ρ).symbols = st.symbols.map (Symbol.ren ρ) from rfl, lookup_ren hρ]
  have e : ((st.ren ρ).ext.table.funs.find? fun f => f.symbol = ρ n).map (·.anchor) =
      (st.ext.table.funs.find? fun f => f.symbol = n).map (·.anchor) := by
    rw [show (st.ren ρ).ext.table.funs = st.ext.table.funs.map (Ext.FunSym.ren ρ) from rfl,
      List.find?_map, Option.map_map]
    have : ((fun f : Ext.FunSym => decide (f.symbol = ρ n)) ∘ Ext.FunSym.ren ρ) =
        fun f => decide (f.symbol = n) := by
      funext f
      by_cases h : f.symbol = n
      · simp [Ext.FunSym.ren, h]
      · have : ρ f.symbol ≠ ρ n := fun x => h (hρ x)
        simp [Ext.FunSym.ren, h, this]
    rw [this]
    rfl
  rw [e]
  cases Sec.lookup st.symbols n <;> rfl

variable {st : Sec.State} {lib : Literal.Lib}

theorem readerContext_ren (hq : Spelling ρ) (h : Pipe.Turned ρ g g')
    (hs : Steady ρ st.symbols) (done : Relations) {fresh : List Str} (hf : AllKept ρ fresh) (name : Str) :
    Rel.TurnsAll ρ (readerContext lib st g done fresh name)
      (readerContext lib (st.ren ρ) g' (done.ren ρ) fresh (ρ name)) := by
  have hρ : ∀ {a b}, ρ a = ρ b → a = b := hq.different
  constructor
  · exact hq
  · rfl
  · intro n
    exact anchorOf_ren hρ st n
  · intro n
    exact relationNamed_ren hρ h _ n
  · rfl
  · exact h.isSubquery hρ name
  · exact inputsOf_ren hρ h done name
  · exact inputsOf_ren hρ h done name
  · show (outersOf g' (g'.order.length + 1) (ρ name)).map (done.ren ρ).fields = _
    rw [h.order, List.length_map, outersOf_ren hρ h, List.map_map]
    show _ = ((outersOf g (g.order.length + 1) name).map done.fields).map (Schema.RelData.ren ρ)
    rw [List.map_map]
    apply List.map_congr_left
    intro m _
    exact Relations.fields_ren hρ done m
  · intro n
    exact sourceSymbol_ren hρ n
  · intro n
    exact columnFields_ren hq hs n
  · intro k
    show (fresh[k]?).getD [] = ρ ((fresh[k]?).getD [])
    cases hk : fresh[k]? with
    | none => exact hq.empty.symm
    | some n => exact (hf n (List.mem_of_getElem? hk)).symm

/-- The relations that can have the other names. -/
def KeptTrees (ρ : Str → Str) (ts : List Rel.RelTree) : Prop :=
  ∀ t ∈ ts, ∀ d ∈ t.details, Rel.KeptDetail ρ d

theorem readRelation_ren (hq : Spelling ρ) (h : Pipe.Turned ρ g g')
    (hs : Steady ρ st.symbols) (first : Bool) (done : Relations) {fresh : List Str}
    (hf : AllKept ρ fresh) {t : Rel.RelTree} (ht : ∀ d ∈ t.details, Rel.KeptDetail ρ d) :
    readRelation lib (st.ren ρ) g' first (done.ren ρ) fresh (renTree ρ t) =
      (readRelation lib st g first done fresh t).map (Done.ren ρ) := by
  unfold readRelation
  simp only [renTree, renRef]
  cases Enum.readRelationType t.type with
  | none => rfl
  | some k =>
    simp only [Relations.namesOf_ren hq.different]
    rw [Rel.readPass_ren (readerContext_ren hq h hs done hf t.ref.id) ht]
    cases Rel.readPass first (readerContext lib st g done fresh t.ref.id) k t.details
      (done.namesOf t.ref.id) with
    | throw e => rfl
    | ub => rfl
    | ok r =>
      simp only [Outcome.map, Outcome.bind_ok, Rel.renStep]
      cases r.2.isEmpty <;> rfl

theorem readRelations_ren (hq : Spelling ρ) (hm : MadeKept ρ) (h : Pipe.Turned ρ g g')
    (hs : Steady ρ st.symbols) (first : Bool) : ∀ (ts : List Rel.RelTree) (u : Counters)
    (done : Relations), KeptTrees ρ ts →
    readRelations lib (st.ren ρ) g' first u (done.ren ρ) (ts.map (renTree ρ)) =
      (readRelations lib st g first u done ts).map (Relations.ren ρ)
  | [], _, _, _ => rfl
  | t :: ts, u, done, hk => by
    simp only [List.map_cons]
    unfold readRelations
    rw [freshOf_ren, readRelation_ren hq h hs first done (freshOf_kept hq hm first u t) (hk t (by simp))]
    cases readRelation lib st g first done (freshOf first u t).2 t with
    | throw e => rfl
    | ub => rfl
    | ok r =>
      have hk' : KeptTrees ρ ts := fun x hx => hk x (by simp [hx])
      exact readRelations_ren hq hm h hs first ts _ ((t.ref.id, r) :: done) hk'

theorem readPasses_ren (hq : Spelling ρ) (hm : MadeKept ρ) (h : Pipe.Turned ρ g g')
    (hs : Steady ρ st.symbols) {ts : List Rel.RelTree} (hk : KeptTrees ρ ts) :
    readPasses lib (st.ren ρ) g' (ts.map (renTree ρ)) =
      (readPasses lib st g ts).map (Relations.ren ρ) := by
  unfold readPasses
  have := readRelations_ren (lib := lib) hq hm h hs true ts Sym.Table.empty [] hk
  rw [show Relations.ren ρ [] = [] from rfl] at this
  rw [this]
  cases readRelations lib st g true Sym.Table.empty [] ts with
  | throw e => rfl
  | ub => rfl
  | ok done => exact readRelations_ren hq hm h hs false ts Sym.Table.empty done hk

/-! ## The plan -/

variable {l : List Symbol}

theorem ownOf_ren (hρ : ∀ {a b}, ρ a = ρ b → a = b) (hs : Steady ρ l) (r : Rel.PbRel) :
    ownOf (l.map (Symbol.ren ρ)) ⟨r.body.ren ρ, r.emit⟩ = ownOf l r := by
  obtain ⟨b, em⟩ := r
  have hb := relabelBody_ren (ρ := ρ) (fun _ => some []) b
  cases b with
  | read s t f e p =>
    have hr : blankBody (.read none none (f.map (renP ρ)) (e.map (renP ρ)) p) =
        blankBody (.read none none f e p) := by
      unfold blankBody relabelBody
      simp only [relabelOpt_ren, queriesOpt_ren]
    have h1 : (t.map ρ).bind (schemaOf (l.map (Symbol.ren ρ))) = t.bind (schemaOf l) := by
      cases t with
      | none => rfl
      | some n => exact schemaOf_ren hρ hs n
    simp only [ownOf, Rel.Body.ren, hr, h1]
    cases s with
    | none => rfl
    | some n => simp only [Option.map_some, sourceOf_ren hρ hs]
  | _ =>
    simp only at hb
    simp only [Rel.Body.ren] at hb
    simp only [ownOf, Rel.Body.ren, blankBody, hb]

mutual
theorem attach_ren (hρ : ∀ {a b}, ρ a = ρ b → a = b) (hs : Steady ρ l) (done : Relations) :
    ∀ r : Pipe.Rel, attach (l.map (Symbol.ren ρ)) (done.ren ρ) (r.ren ρ) = attach l done r
  | .node k n ins subs => by
    simp only [Pipe.Rel.ren, attach]
    rw [attachL_ren hρ hs done ins, attachL_ren hρ hs done subs, Pipe.Rel.renL_eq, List.length_map,
      Relations.find_ren hρ]
    have e : ownOf (l.map (Symbol.ren ρ))
        ((((done.find n).map (Done.ren ρ)).map (·.rel)).getD ⟨.other, []⟩) =
        ownOf l (((done.find n).map (·.rel)).getD ⟨.other, []⟩) := by
      cases done.find n with
      | none => rfl
      | some d => exact ownOf_ren hρ hs d.rel
    rw [e]
theorem attachL_ren (hρ : ∀ {a b}, ρ a = ρ b → a = b) (hs : Steady ρ l) (done : Relations) :
    ∀ rs : List Pipe.Rel,
      attachL (l.map (Symbol.ren ρ)) (done.ren ρ) (Pipe.Rel.renL ρ rs) = attachL l done rs
  | [] => by simp only [Pipe.Rel.renL, attachL]
  | r :: rs => by
    simp only [Pipe.Rel.renL, attachL, attach_ren hρ hs done r, attachL_ren hρ hs done rs]
end

theorem relations_ren (ds : List PlanDetail) :
    (ds.map (renPart ρ)).filterMap relationOf = (ds.filterMap relationOf).map (renTree ρ) := by
  induction ds with
  | nil => rfl
  | cons d ds ih => cases d <;> simp only [List.map_cons, renPart, relationOf, List.filterMap_cons, ih]

theorem pipelines_ren (ds : List PlanDetail) :
    ((ds.map (renPart ρ)).filterMap pipelinesOf).flatten =
      (ds.filterMap pipelinesOf).flatten.map (·.map (Pipe.Ref.ren ρ)) := by
  induction ds with
  | nil => rfl
  | cons d ds ih =>
    cases d <;> simp only [List.map_cons, renPart, pipelinesOf, List.filterMap_cons, ih,
      List.flatten_cons, List.map_append]
    rfl

theorem Renames.kept {ds : List PlanDetail} (h : Renames ρ ds) :
    KeptTrees ρ (ds.filterMap relationOf) := by
  intro t ht d hd
  obtain ⟨x, hx, he⟩ := List.mem_filterMap.mp ht
  have : x = .relation t := by cases x <;> simp [relationOf] at he; rw [he]
  subst this
  have hc := h.calm _ hx
  simp only [calmPart, List.all_eq_true] at hc
  exact fun e he => hc d hd e he

/-- The plan of a text with other names is the same. -/
theorem fromDetails_ren {ds : List PlanDetail} (h : Renames ρ ds) (lib : Literal.Lib) (fuel : Nat) :
    fromDetails lib fuel (ds.map (renPart ρ)) = fromDetails lib fuel ds := by
  have hρ : ∀ {a b}, ρ a = ρ b → a = b := h.spelling.different
  unfold fromDetails
  rw [visitPlan_ren hρ h.root.1 h.root.2 h.others]
  cases hv : Sec.visitPlan ds with
  | throw e => rfl
  | ub => rfl
  | ok st =>
    have hs : Steady ρ st.symbols := visitPlan_steady hv h.others
    simp only [Outcome.map, Outcome.bind_ok]
    rw [show (st.ren ρ).errs = st.errs from rfl]
    split
    · rw [relations_ren, pipelines_ren,
        show (st.ren ρ).symbols = st.symbols.map (Symbol.ren ρ) from rfl]
      have hg := Pipe.visitAll_ren hρ (ps := (ds.filterMap pipelinesOf).flatten)
        (s := ⟨graphOf st.symbols (ds.filterMap relationOf), []⟩)
        (s' := ⟨graphOf (st.symbols.map (Symbol.ren ρ)) ((ds.filterMap relationOf).map (renTree ρ)), []⟩)
        ⟨graphOf_ren hρ _ _, rfl⟩
      revert hg
      generalize Pipe.visitAll _ (Pipe.State.mk (graphOf st.symbols _) []) = o
      generalize Pipe.visitAll _ (Pipe.State.mk (graphOf (st.symbols.map _) _) []) = o'
      intro hg
      cases o <;> cases o' <;> simp only [Pipe.Likes] at hg
      · rename_i s s'
        simp only [Outcome.bind_ok]
        have hk := refsKnown_ren hρ st.symbols ds []
        rw [show ([] : List Str).map ρ = [] from rfl] at hk
        rw [hk, hg.errors, List.isEmpty_map, readPasses_ren h.spelling h.madeUp hg.table hs h.kept,
          hg.table.binaryPlan hρ, hg.table.namedRels hρ, rootNamesOf_ren]
        split
        · cases readPasses lib st s.table (ds.filterMap relationOf) with
          | throw e => rfl
          | ub => rfl
          | ok done =>
            simp only [Outcome.map, Outcome.bind_ok]
            cases Pipe.binaryPlan s.table fuel with
            | throw e => rfl
            | ub => rfl
            | ok rs =>
              simp only [Outcome.bind_ok, attachL_ren hρ hs]
              rw [show (st.ren ρ).ext.table = st.ext.table.ren ρ from rfl, Ext.binaryFunctions_ren]
              rfl
        · rfl
      · rw [hg]; rfl
      · rfl
    · rfl

end Verif.Whole
