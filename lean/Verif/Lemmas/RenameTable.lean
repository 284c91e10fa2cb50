import Verif.Lemmas.RenameRel
import Verif.Lemmas.OrderTable

/-! # The symbol table of a text with other names -/

namespace Verif.Ext

open Verif Verif.Whole

def FunSym.ren (ρ : Str → Str) (f : FunSym) : FunSym := { f with symbol := ρ f.symbol }

def Table.ren (ρ : Str → Str) (t : Table) : Table := { t with funs := t.funs.map (FunSym.ren ρ) }

def State.ren (ρ : Str → Str) (s : State) : State := { s with table := s.table.ren ρ }

variable {ρ : Str → Str}

theorem renFunction_name (f : FunctionTree) : (renFunction ρ f).name = f.name := by
  unfold renFunction
  split <;> rfl

theorem renFunction_alias (f : FunctionTree) :
    (renFunction ρ f).alias.getD (shortName f.name) = ρ (f.alias.getD (shortName f.name)) := by
  unfold renFunction
  split
  · rename_i h
    exact h.symm
  · rfl

theorem visitFunction_ren (space : Option Nat) (s : State) (f : FunctionTree) :
    visitFunction space (s.ren ρ) (renFunction ρ f) = (visitFunction space s f).ren ρ := by
  unfold visitFunction
  simp only [renFunction_name, renFunction_alias]
  simp [State.ren, Table.ren, FunSym.ren]

theorem visitFunctions_ren (space : Option Nat) : ∀ (fs : List FunctionTree) (s : State),
    (fs.map (renFunction ρ)).foldl (visitFunction space) (s.ren ρ) =
      (fs.foldl (visitFunction space) s).ren ρ
  | [], _ => rfl
  | f :: fs, s => by
    simp only [List.map_cons, List.foldl_cons, visitFunction_ren]
    exact visitFunctions_ren space fs _

theorem visitSpace_ren (s : State) (t : SpaceTree) :
    visitSpace (s.ren ρ) ⟨t.uri, t.functions.map (renFunction ρ)⟩ = (visitSpace s t).ren ρ := by
  unfold visitSpace
  cases t.uri with
  | none => exact visitFunctions_ren none _ _
  | some u =>
    exact visitFunctions_ren (ρ := ρ) (some (s.numSpaces + 1)) t.functions
      { s with
        numSpaces := s.numSpaces + 1
        table := { s.table with spaces := s.table.spaces ++ [⟨u, s.numSpaces + 1⟩] } }

theorem binaryFunctions_ren (t : Table) : binaryFunctions (t.ren ρ) = binaryFunctions t := by
  have h1 : usedNumbers (t.funs.map (FunSym.ren ρ)) = usedNumbers t.funs := by
    unfold usedNumbers
    rw [List.foldl_map]
    rfl
  unfold binaryFunctions
  simp only [Table.ren, h1, List.filter_map, List.map_map]
  rfl

end Verif.Ext

namespace Verif.Sec

open Verif Verif.Tree Verif.Literal Verif.Expr Verif.Whole

def Symbol.ren (ρ : Str → Str) (s : Symbol) : Symbol := { s with name := ρ s.name }

def State.ren (ρ : Str → Str) (st : State) : State :=
  { st with symbols := st.symbols.map (Symbol.ren ρ), ext := st.ext.ren ρ }

variable {ρ : Str → Str}

theorem lookup_ren (hρ : ∀ {a b}, ρ a = ρ b → a = b) (l : List Symbol) (n : Str) :
    lookup (l.map (Symbol.ren ρ)) (ρ n) = (lookup l n).map (Symbol.ren ρ) := by
  unfold lookup
  rw [List.find?_map]
  congr 2
  funext s
  by_cases h : s.name = n
  · simp [Symbol.ren, h]
  · have : ρ s.name ≠ ρ n := fun e => h (hρ e)
    simp [Symbol.ren, h, this]

theorem readColumns_ren (loc : Nat) : ∀ cs : List (Str × TypeTree), (∀ c ∈ cs, ρ c.1 = c.1) →
    readColumns loc cs = (readColumns loc cs).map fun r => (r.1.map (Symbol.ren ρ), r.2)
  | [], _ => rfl
  | c :: cs, h => by
    unfold readColumns
    have ih := readColumns_ren loc cs fun x hx => h x (by simp [hx])
    cases readType c.2 with
    | ok t =>
      cases hc : readColumns loc cs with
      | ok r =>
        rw [hc] at ih
        simp only [Outcome.map, Outcome.ok.injEq] at ih
        have e := congrArg Prod.fst ih
        simp only at e
        simp only [Outcome.map, Outcome.bind_ok, List.map_cons, ← e, Symbol.ren, h c (by simp)]
      | throw e => rfl
      | ub => rfl
    | throw e => rfl
    | ub => rfl

theorem applyDetails_ren (hρ : ∀ {a b}, ρ a = ρ b → a = b) (name : Str) (ds : List FileDetail) :
    ∀ l : List Symbol, applyDetails (ρ name) ds (l.map (Symbol.ren ρ)) =
      (applyDetails name ds l).map (·.map (Symbol.ren ρ))
  | [] => by
    unfold applyDetails
    simp only [List.map_nil]
    split <;> rfl
  | s :: l => by
    simp only [List.map_cons]
    unfold applyDetails
    simp only [show (Symbol.ren ρ s).name = ρ s.name from rfl,
      show (Symbol.ren ρ s).info = s.info from rfl]
    rw [applyDetails_ren hρ name ds l]
    by_cases h : s.name = name
    · rw [if_pos h, if_pos (congrArg ρ h)]
      split
      · rfl
      · rename_i g _ _
        generalize List.foldl (fun (o : Outcome File) d => o.bind (applyDetail d)) _ _ = o
        cases o <;> rfl
      · rfl
    · rw [if_neg h, if_neg fun e => h (hρ e)]
      cases applyDetails name ds l <;> rfl

theorem addFiles_ren (hρ : ∀ {a b}, ρ a = ρ b → a = b) (loc : Nat) :
    ∀ (fs : List FileTree) (l : List Symbol), (∀ f ∈ fs, ρ f.text = f.text) →
    addFiles loc fs (l.map (Symbol.ren ρ)) = (addFiles loc fs l).map (·.map (Symbol.ren ρ))
  | [], _, _ => rfl
  | x :: fs, l, h => by
    unfold addFiles
    have hx := h x (by simp)
    have e : l.map (Symbol.ren ρ) ++ [(⟨x.text, loc, .file File.empty⟩ : Symbol)] =
        (l ++ [(⟨x.text, loc, .file File.empty⟩ : Symbol)]).map (Symbol.ren ρ) := by
      simp [Symbol.ren, hx]
    rw [e]
    have := applyDetails_ren hρ x.text x.details (l ++ [⟨x.text, loc, .file File.empty⟩])
    rw [hx] at this
    rw [this]
    cases applyDetails x.text x.details (l ++ [⟨x.text, loc, .file File.empty⟩]) with
    | ok l' => exact addFiles_ren hρ loc fs l' fun f hf => h f (by simp [hf])
    | throw e => rfl
    | ub => rfl

theorem visitDefinition_ren (hρ : ∀ {a b}, ρ a = ρ b → a = b) (loc : Nat) (st : State)
    (d : PlanDetail) (h : ∀ n ∈ otherNames d, ρ n = n) :
    visitDefinition loc (st.ren ρ) (renPart ρ d) = (visitDefinition loc st d).map (State.ren ρ) := by
  cases d with
  | schema id cs =>
    simp only [renPart, visitDefinition]
    have hc := readColumns_ren (ρ := ρ) loc cs fun c hc => h c.1 (by
      simp only [otherNames, List.mem_map]
      exact ⟨c, hc, rfl⟩)
    cases hr : readColumns loc cs with
    | ok r =>
      rw [hr] at hc
      simp only [Outcome.map, Outcome.ok.injEq] at hc
      have e := congrArg Prod.fst hc
      simp only at e
      simp [Outcome.map, State.ren, Symbol.ren]
      exact e
    | throw e => rfl
    | ub => rfl
  | source t =>
    have key : addSource loc (st.symbols.map (Symbol.ren ρ)) (renSource ρ t) =
        (addSource loc st.symbols t).map (·.map (Symbol.ren ρ)) := by
      cases t with
      | localFiles id fs =>
        unfold addSource renSource
        simp only
        rw [← addFiles_ren hρ loc fs _ fun f hf => h f.text (by
          simp only [otherNames, List.mem_map]
          exact ⟨f, hf, rfl⟩)]
        simp [Symbol.ren]
      | namedTable id ss =>
        simp only [addSource, renSource, Outcome.map, Symbol.ren, List.map_append, List.map_cons,
          List.map_map, Outcome.ok.injEq, List.append_cancel_left_eq, List.cons.injEq, true_and]
        apply List.map_congr_left
        intro s hs
        have := h (extractFromString s) (by
          simp only [otherNames, List.mem_map]
          exact ⟨s, hs, rfl⟩)
        simp [Function.comp, Symbol.ren, this]
      | virtualTable id => simp [addSource, renSource, Outcome.map, Symbol.ren]
      | extensionTable id => simp [addSource, renSource, Outcome.map, Symbol.ren]
    show (addSource loc (st.symbols.map (Symbol.ren ρ)) (renSource ρ t)).map _ = _
    rw [key]
    show _ = ((addSource loc st.symbols t).map _).map _
    cases addSource loc st.symbols t <;> rfl
  | space t =>
    have e : spaceSymbols loc ⟨t.uri, t.functions.map (renFunction ρ)⟩ =
        (spaceSymbols loc t).map (Symbol.ren ρ) := by
      simp only [spaceSymbols, List.map_append, List.map_map]
      congr 1
      · apply List.map_congr_left
        intro u hu
        simp [Symbol.ren, h u (by simpa [otherNames] using hu)]
      · apply List.map_congr_left
        intro f _
        simp only [Function.comp, Symbol.ren, Ext.renFunction_name, Ext.renFunction_alias]
    have e2 : ((t.functions.map (renFunction ρ)).filter fun f => Ext.lacksType f.name).map
          (fun _ => Err.untyped) =
        (t.functions.filter fun f => Ext.lacksType f.name).map fun _ => Err.untyped := by
      simp [List.filter_map, Function.comp_def, Ext.renFunction_name]
    simp only [renPart, visitDefinition, Outcome.map, State.ren, e, e2, Ext.visitSpace_ren,
      List.map_append]
  | pipelines ps => rfl
  | relation t => rfl
  | root ns => rfl

theorem visitRelation_ren (hρ : ∀ {a b}, ρ a = ρ b → a = b) (loc : Nat) (st : State) (d : PlanDetail) :
    visitRelation loc (st.ren ρ) (renPart ρ d) = (visitRelation loc st d).ren ρ := by
  cases d with
  | relation t =>
    unfold visitRelation
    simp only [renPart, renTree, renRef, State.ren, lookup_ren hρ]
    cases lookup st.symbols t.ref.id <;> simp [Symbol.ren]
  | _ => rfl

theorem visitRoot_ren (hρ : ∀ {a b}, ρ a = ρ b → a = b) (h1 : ρ rootName = rootName)
    (h2 : ρ rootNamesName = rootNamesName) (loc : Nat) (st : State) (d : PlanDetail) :
    visitRoot loc (st.ren ρ) (renPart ρ d) = (visitRoot loc st d).ren ρ := by
  have l1 := lookup_ren hρ st.symbols rootName
  have l2 := lookup_ren hρ st.symbols rootNamesName
  rw [h1] at l1
  rw [h2] at l2
  cases d with
  | root ns =>
    unfold visitRoot
    simp only [renPart, State.ren, l1, l2]
    cases lookup st.symbols rootNamesName with
    | some s => rfl
    | none => cases lookup st.symbols rootName <;> simp [Symbol.ren, h1, h2]
  | _ => rfl

theorem visitDefinitions_ren (hρ : ∀ {a b}, ρ a = ρ b → a = b) : ∀ (ds : List PlanDetail) (loc : Nat)
    (st : State), (∀ d ∈ ds, ∀ n ∈ otherNames d, ρ n = n) →
    visitDefinitions loc (ds.map (renPart ρ)) (st.ren ρ) =
      (visitDefinitions loc ds st).map (State.ren ρ)
  | [], _, _, _ => rfl
  | d :: ds, loc, st, h => by
    simp only [List.map_cons]
    unfold visitDefinitions
    rw [visitDefinition_ren hρ loc st d (h d (by simp))]
    cases visitDefinition loc st d with
    | ok st' => exact visitDefinitions_ren hρ ds (loc + 1) st' fun x hx => h x (by simp [hx])
    | throw e => rfl
    | ub => rfl

theorem visitRelations_ren (hρ : ∀ {a b}, ρ a = ρ b → a = b) : ∀ (ds : List PlanDetail) (loc : Nat)
    (st : State), visitRelations loc (ds.map (renPart ρ)) (st.ren ρ) = (visitRelations loc ds st).ren ρ
  | [], _, _ => rfl
  | d :: ds, loc, st => by
    simp only [List.map_cons]
    unfold visitRelations
    rw [visitRelation_ren hρ]
    exact visitRelations_ren hρ ds _ _

theorem visitRoots_ren (hρ : ∀ {a b}, ρ a = ρ b → a = b) (h1 : ρ rootName = rootName)
    (h2 : ρ rootNamesName = rootNamesName) : ∀ (ds : List PlanDetail) (loc : Nat)
    (st : State), visitRoots loc (ds.map (renPart ρ)) (st.ren ρ) = (visitRoots loc ds st).ren ρ
  | [], _, _ => rfl
  | d :: ds, loc, st => by
    simp only [List.map_cons]
    unfold visitRoots
    rw [visitRoot_ren hρ h1 h2]
    exact visitRoots_ren hρ h1 h2 ds _ _

theorem visitPlan_ren (hρ : ∀ {a b}, ρ a = ρ b → a = b) (h1 : ρ rootName = rootName)
    (h2 : ρ rootNamesName = rootNamesName) {ds : List PlanDetail}
    (h : ∀ d ∈ ds, ∀ n ∈ otherNames d, ρ n = n) :
    visitPlan (ds.map (renPart ρ)) = (visitPlan ds).map (State.ren ρ) := by
  unfold visitPlan
  have := visitDefinitions_ren hρ ds 0 {} h
  rw [show State.ren ρ {} = {} from rfl] at this
  rw [this]
  cases visitDefinitions 0 ds {} with
  | ok st => simp only [Outcome.map, visitRelations_ren hρ, visitRoots_ren hρ h1 h2]
  | throw e => rfl
  | ub => rfl

/-! ## Names that are kept -/

/-- The symbols whose names the readers look at. -/
def steady : Info → Bool
  | .column _ => true
  | .table => true
  | _ => false

def Steady (ρ : Str → Str) (l : List Symbol) : Prop := ∀ s ∈ l, steady s.info = true → ρ s.name = s.name

theorem Steady.append {a b : List Symbol} (ha : Steady ρ a) (hb : Steady ρ b) : Steady ρ (a ++ b) := by
  intro s hs
  rcases List.mem_append.mp hs with h | h
  · exact ha s h
  · exact hb s h

theorem applyDetails_steady {name : Str} {ds : List FileDetail} :
    ∀ {l l' : List Symbol}, applyDetails name ds l = .ok l' → Steady ρ l → Steady ρ l'
  | [], l', h, _ => by
    unfold applyDetails at h
    split at h
    · cases h; intro s hs; cases hs
    · cases h
  | x :: l, l', h, hl => by
    have hr : Steady ρ l := fun s hs => hl s (by simp [hs])
    unfold applyDetails at h
    split at h
    · split at h
      · cases h; exact hl
      · obtain ⟨g, -, rfl⟩ := Outcome.of_map h
        intro s hs
        rcases List.mem_cons.mp hs with rfl | hs
        · intro e; cases e
        · exact hr s hs
      · cases h
    · obtain ⟨r, h0, rfl⟩ := Outcome.of_map h
      intro s hs
      rcases List.mem_cons.mp hs with rfl | hs
      · exact hl s (by simp)
      · exact applyDetails_steady h0 hr s hs

theorem addFiles_steady {loc : Nat} : ∀ {fs : List FileTree} {l l' : List Symbol},
    addFiles loc fs l = .ok l' → Steady ρ l → Steady ρ l'
  | [], l, l', h, hl => by cases h; exact hl
  | f :: fs, l, l', h, hl => by
    unfold addFiles at h
    obtain ⟨r, h1, h2⟩ := Outcome.of_bind h
    refine addFiles_steady h2 (applyDetails_steady h1 (hl.append ?_))
    intro s hs e
    rw [List.mem_singleton.mp hs] at e
    cases e

theorem readColumns_steady {loc : Nat} : ∀ {cs : List (Str × TypeTree)} {r : List Symbol × List RErr},
    readColumns loc cs = .ok r → (∀ c ∈ cs, ρ c.1 = c.1) → Steady ρ r.1
  | [], r, h, _ => by cases h; intro s hs; cases hs
  | c :: cs, r, h, hc => by
    unfold readColumns at h
    obtain ⟨t, -, h⟩ := Outcome.of_bind h
    obtain ⟨q, h0, rfl⟩ := Outcome.of_map h
    intro s hs
    rcases List.mem_cons.mp hs with rfl | hs
    · exact fun _ => hc c (by simp)
    · exact readColumns_steady h0 (fun x hx => hc x (by simp [hx])) s hs

theorem visitDefinition_steady {loc : Nat} {st st' : State} {d : PlanDetail}
    (h : visitDefinition loc st d = .ok st') (hd : ∀ n ∈ otherNames d, ρ n = n)
    (hl : Steady ρ st.symbols) : Steady ρ st'.symbols := by
  cases d with
  | schema id cs =>
    simp only [visitDefinition] at h
    obtain ⟨r, h0, rfl⟩ := Outcome.of_map h
    refine hl.append ?_
    intro s hs
    rcases List.mem_cons.mp hs with rfl | hs
    · intro e; cases e
    · refine readColumns_steady h0 (fun c hc => hd c.1 ?_) s hs
      simp only [otherNames, List.mem_map]
      exact ⟨c, hc, rfl⟩
  | source t =>
    simp only [visitDefinition] at h
    obtain ⟨l, h0, rfl⟩ := Outcome.of_map h
    cases t with
    | localFiles id fs =>
      refine addFiles_steady h0 (hl.append ?_)
      intro s hs e
      rw [List.mem_singleton.mp hs] at e
      cases e
    | namedTable id ss =>
      cases h0
      refine hl.append ?_
      intro s hs
      rcases List.mem_cons.mp hs with rfl | hs
      · intro e; cases e
      · obtain ⟨x, hx, rfl⟩ := List.mem_map.mp hs
        refine fun _ => hd _ ?_
        simp only [otherNames, List.mem_map]
        exact ⟨x, hx, rfl⟩
    | virtualTable id =>
      cases h0
      refine hl.append ?_
      intro s hs e
      rw [List.mem_singleton.mp hs] at e
      cases e
    | extensionTable id =>
      cases h0
      refine hl.append ?_
      intro s hs e
      rw [List.mem_singleton.mp hs] at e
      cases e
  | space t =>
    cases h
    refine hl.append ?_
    intro s hs e
    simp only [spaceSymbols, List.mem_append, List.mem_map] at hs
    rcases hs with ⟨u, hu, rfl⟩ | ⟨f, hf, rfl⟩ <;> cases e
  | pipelines ps => cases h; exact hl
  | relation t => cases h; exact hl
  | root ns => cases h; exact hl

theorem visitDefinitions_steady : ∀ {ds : List PlanDetail} {loc : Nat} {st st' : State},
    visitDefinitions loc ds st = .ok st' → (∀ d ∈ ds, ∀ n ∈ otherNames d, ρ n = n) →
    Steady ρ st.symbols → Steady ρ st'.symbols
  | [], _, _, _, h, _, hl => by cases h; exact hl
  | d :: ds, loc, st, st', h, hd, hl => by
    unfold visitDefinitions at h
    obtain ⟨r, h1, h2⟩ := Outcome.of_bind h
    exact visitDefinitions_steady h2 (fun x hx => hd x (by simp [hx]))
      (visitDefinition_steady h1 (hd d (by simp)) hl)

theorem visitRelations_steady : ∀ {ds : List PlanDetail} {loc : Nat} {st : State},
    Steady ρ st.symbols → Steady ρ (visitRelations loc ds st).symbols
  | [], _, _, hl => hl
  | d :: ds, loc, st, hl => by
    unfold visitRelations
    apply visitRelations_steady
    cases d <;> simp only [visitRelation] <;> try exact hl
    split
    · exact hl
    · refine hl.append ?_
      intro s hs e
      rw [List.mem_singleton.mp hs] at e
      cases e

theorem visitRoots_steady : ∀ {ds : List PlanDetail} {loc : Nat} {st : State},
    Steady ρ st.symbols → Steady ρ (visitRoots loc ds st).symbols
  | [], _, _, hl => hl
  | d :: ds, loc, st, hl => by
    unfold visitRoots
    apply visitRoots_steady
    cases d <;> simp only [visitRoot] <;> try exact hl
    split
    · exact hl
    · split
      · exact hl
      · refine hl.append ?_
        intro s hs e
        rcases List.mem_cons.mp hs with rfl | hs
        · cases e
        · rw [List.mem_singleton.mp hs] at e
          cases e

theorem visitPlan_steady {ds : List PlanDetail} {st : State} (h : visitPlan ds = .ok st)
    (hd : ∀ d ∈ ds, ∀ n ∈ otherNames d, ρ n = n) : Steady ρ st.symbols := by
  unfold visitPlan at h
  obtain ⟨r, h0, rfl⟩ := Outcome.of_map h
  exact visitRoots_steady (visitRelations_steady (visitDefinitions_steady h0 hd fun s hs => by cases hs))

/-! ## Looking up -/

variable {l : List Symbol}

theorem filterMap_ren {α : Type} {f : Symbol → Option α}
    (h : ∀ s ∈ l, f (s.ren ρ) = f s) : (l.map (Symbol.ren ρ)).filterMap f = l.filterMap f := by
  induction l with
  | nil => rfl
  | cons s l ih =>
    simp only [List.map_cons, List.filterMap_cons, h s (by simp), ih fun x hx => h x (by simp [hx])]

theorem columnsAt_ren (hs : Steady ρ l) (loc : Nat) :
    columnsAt (l.map (Symbol.ren ρ)) loc = columnsAt l loc := by
  unfold columnsAt
  apply filterMap_ren
  intro s h
  have := hs s h
  obtain ⟨n, k, i⟩ := s
  cases i <;> try rfl
  simp only [Symbol.ren, this rfl]

theorem tablesAt_ren (hs : Steady ρ l) (loc : Nat) :
    tablesAt (l.map (Symbol.ren ρ)) loc = tablesAt l loc := by
  unfold tablesAt
  apply filterMap_ren
  intro s h
  have := hs s h
  obtain ⟨n, k, i⟩ := s
  cases i <;> try rfl
  simp only [Symbol.ren, this rfl]

theorem filesAt_ren (l : List Symbol) (loc : Nat) :
    filesAt (l.map (Symbol.ren ρ)) loc = filesAt l loc := by
  unfold filesAt
  apply filterMap_ren
  intro s h
  rfl

theorem schemaAt_ren (l : List Symbol) (loc : Nat) :
    schemaAt (l.map (Symbol.ren ρ)) loc = (schemaAt l loc).map ρ := by
  unfold schemaAt
  induction l with
  | nil => rfl
  | cons s l ih =>
    simp only [List.map_cons, List.findSome?_cons]
    rw [ih]
    obtain ⟨n, k, i⟩ := s
    cases i <;> try rfl
    simp only [Symbol.ren]
    by_cases hk : k = loc
    · simp [hk]
    · simp [hk]

theorem columnsAt_kept (hs : Steady ρ l) (loc : Nat) : ∀ c ∈ columnsAt l loc, ρ c.1 = c.1 := by
  intro c hc
  unfold columnsAt at hc
  obtain ⟨s, h1, h2⟩ := List.mem_filterMap.mp hc
  have := hs s h1
  obtain ⟨n, k, i⟩ := s
  cases i <;> simp only at h2 <;> try (simp at h2; done)
  split at h2 <;> simp at h2
  subst h2
  exact this rfl

theorem rootNamesOf_ren (l : List Symbol) : rootNamesOf (l.map (Symbol.ren ρ)) = rootNamesOf l := by
  unfold rootNamesOf
  rw [List.findSome?_map]
  rfl

theorem schemaOf_ren (hρ : ∀ {a b}, ρ a = ρ b → a = b) (hs : Steady ρ l) (n : Str) :
    schemaOf (l.map (Symbol.ren ρ)) (ρ n) = schemaOf l n := by
  unfold schemaOf
  rw [lookup_ren hρ]
  cases lookup l n with
  | none => rfl
  | some s => simp only [Option.map_some]; rw [show (s.ren ρ).loc = s.loc from rfl, columnsAt_ren hs]

theorem columnFields_ren (h : Spelling ρ) (hs : Steady ρ l) (n : Str) :
    columnFields (l.map (Symbol.ren ρ)) (ρ n) =
      (columnFields l n).map (·.map (Schema.Field.ren ρ)) := by
  unfold columnFields
  rw [lookup_ren h.different]
  cases lookup l n with
  | none => rfl
  | some s =>
    simp only [Option.map_some]
    rw [show (s.ren ρ).loc = s.loc from rfl, columnsAt_ren hs, schemaAt_ren]
    congr 1
    apply List.ext_getElem? 
    intro i
    simp only [List.getElem?_mapIdx, List.getElem?_map]
    cases hc : (columnsAt l s.loc)[i]? with
    | none => rfl
    | some c =>
      have := columnsAt_kept hs s.loc c (List.mem_of_getElem? hc)
      simp [Schema.Field.ren, Schema.Origin.ren, h.empty, this]

theorem sourceOf_ren (hρ : ∀ {a b}, ρ a = ρ b → a = b) (hs : Steady ρ l) (n : Str) :
    sourceOf (l.map (Symbol.ren ρ)) (ρ n) = sourceOf l n := by
  unfold sourceOf
  rw [lookup_ren hρ]
  cases lookup l n with
  | none => rfl
  | some s =>
    simp only [Option.map_some]
    rw [show (s.ren ρ).loc = s.loc from rfl, filesAt_ren, tablesAt_ren hs]
    rfl

theorem sourceSymbol_ren (hρ : ∀ {a b}, ρ a = ρ b → a = b) (n : Str) :
    sourceSymbol (l.map (Symbol.ren ρ)) (ρ n) = sourceSymbol l n := by
  unfold sourceSymbol
  rw [lookup_ren hρ]
  cases lookup l n <;> rfl

end Verif.Sec
