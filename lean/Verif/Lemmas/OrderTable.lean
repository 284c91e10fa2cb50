import Verif.Lemmas.OrderRead

/-! # The symbol tables of texts whose parts are in another order -/

namespace Verif.Sec

open Verif Verif.Tree Verif.Literal Verif.Expr

/-! ## Locations -/

/-- The parts with their locations. -/
def number : Nat → List PlanDetail → List (Nat × PlanDetail)
  | _, [] => []
  | n, d :: ds => (n, d) :: number (n + 1) ds

def defsAt : List (Nat × PlanDetail) → State → Outcome State
  | [], st => .ok st
  | p :: l, st => (visitDefinition p.1 st p.2).bind (defsAt l)

def relsAt : List (Nat × PlanDetail) → State → State
  | [], st => st
  | p :: l, st => relsAt l (visitRelation p.1 st p.2)

def rootsAt : List (Nat × PlanDetail) → State → State
  | [], st => st
  | p :: l, st => rootsAt l (visitRoot p.1 st p.2)

/-- `visitPlan` with locations. -/
def planAt (l : List (Nat × PlanDetail)) : Outcome State :=
  (defsAt l {}).map fun st => rootsAt l (relsAt l st)

theorem defsAt_number : ∀ (ds : List PlanDetail) (n : Nat) (st : State),
    defsAt (number n ds) st = visitDefinitions n ds st
  | [], _, _ => rfl
  | d :: ds, n, st => by
    unfold number defsAt visitDefinitions
    congr 1
    funext st
    exact defsAt_number ds (n + 1) st

theorem relsAt_number : ∀ (ds : List PlanDetail) (n : Nat) (st : State),
    relsAt (number n ds) st = visitRelations n ds st
  | [], _, _ => rfl
  | d :: ds, n, st => by unfold number relsAt visitRelations; exact relsAt_number ds (n + 1) _

theorem rootsAt_number : ∀ (ds : List PlanDetail) (n : Nat) (st : State),
    rootsAt (number n ds) st = visitRoots n ds st
  | [], _, _ => rfl
  | d :: ds, n, st => by unfold number rootsAt visitRoots; exact rootsAt_number ds (n + 1) _

theorem planAt_number (ds : List PlanDetail) : planAt (number 0 ds) = visitPlan ds := by
  unfold planAt visitPlan
  rw [defsAt_number]
  simp only [relsAt_number, rootsAt_number]

theorem number_append : ∀ (a b : List PlanDetail) (n : Nat),
    number n (a ++ b) = number n a ++ number (n + a.length) b
  | [], b, n => rfl
  | d :: a, b, n => by
    simp only [List.cons_append, number, List.length_cons]
    rw [number_append a b (n + 1), show n + 1 + a.length = n + (a.length + 1) by omega]

theorem number_lt : ∀ {a : List PlanDetail} {n : Nat} {p : Nat × PlanDetail}, p ∈ number n a →
    n ≤ p.1 ∧ p.1 < n + a.length
  | [], _, _, h => by cases h
  | d :: a, n, p, h => by
    rcases List.mem_cons.mp h with rfl | h
    · simp
    · have := number_lt h
      simp only [List.length_cons]
      omega

/-! ## Other locations -/

def Symbol.move (f : Nat → Nat) (s : Symbol) : Symbol := { s with loc := f s.loc }

def State.move (f : Nat → Nat) (st : State) : State := { st with symbols := st.symbols.map (·.move f) }

theorem lookup_move (f : Nat → Nat) (l : List Symbol) (n : Str) :
    lookup (l.map (·.move f)) n = (lookup l n).map (·.move f) := by
  unfold lookup
  rw [List.find?_map]
  rfl

theorem readColumns_move (f : Nat → Nat) (loc : Nat) : ∀ cs : List (Str × TypeTree),
    readColumns (f loc) cs = (readColumns loc cs).map fun r => (r.1.map (·.move f), r.2)
  | [] => rfl
  | c :: cs => by
    unfold readColumns
    rw [readColumns_move f loc cs]
    cases readType c.2 with
    | ok t => cases readColumns loc cs <;> rfl
    | throw e => rfl
    | ub => rfl

theorem applyDetails_move (f : Nat → Nat) (name : Str) (ds : List FileDetail) :
    ∀ l : List Symbol, applyDetails name ds (l.map (·.move f)) =
      (applyDetails name ds l).map (·.map (·.move f))
  | [] => by
    unfold applyDetails
    simp only [List.map_nil]
    split <;> rfl
  | s :: l => by
    simp only [List.map_cons]
    unfold applyDetails
    simp only [show (Symbol.move f s).name = s.name from rfl,
      show (Symbol.move f s).info = s.info from rfl]
    rw [applyDetails_move f name ds l]
    split
    · split
      · rfl
      · rename_i g _ _
        generalize List.foldl (fun (o : Outcome File) d => o.bind (applyDetail d)) _ _ = o
        cases o <;> rfl
      · rfl
    · cases applyDetails name ds l <;> rfl

theorem addFiles_move (f : Nat → Nat) (loc : Nat) : ∀ (fs : List FileTree) (l : List Symbol),
    addFiles (f loc) fs (l.map (·.move f)) = (addFiles loc fs l).map (·.map (·.move f))
  | [], _ => rfl
  | x :: fs, l => by
    unfold addFiles
    have e : l.map (fun s => s.move f) ++ [(⟨x.text, f loc, .file File.empty⟩ : Symbol)] =
        (l ++ [(⟨x.text, loc, .file File.empty⟩ : Symbol)]).map (fun s => s.move f) := by
      simp [Symbol.move]
    rw [e, applyDetails_move]
    cases applyDetails x.text x.details (l ++ [⟨x.text, loc, .file File.empty⟩]) with
    | ok l' => exact addFiles_move f loc fs l'
    | throw e => rfl
    | ub => rfl

theorem visitDefinition_move (f : Nat → Nat) (loc : Nat) (st : State) (d : PlanDetail) :
    visitDefinition (f loc) (st.move f) d = (visitDefinition loc st d).map (State.move f) := by
  cases d with
  | schema id cs =>
    simp only [visitDefinition]
    rw [readColumns_move]
    cases readColumns loc cs with
    | ok r => simp [Outcome.map, State.move, Symbol.move]
    | throw e => rfl
    | ub => rfl
  | source t =>
    have key : addSource (f loc) (st.symbols.map (·.move f)) t =
        (addSource loc st.symbols t).map (·.map (·.move f)) := by
      cases t with
      | localFiles id fs =>
        unfold addSource
        rw [← addFiles_move]
        congr 1
        simp [Symbol.move]
      | namedTable id ss => simp [addSource, Outcome.map, Symbol.move]
      | virtualTable id => simp [addSource, Outcome.map, Symbol.move]
      | extensionTable id => simp [addSource, Outcome.map, Symbol.move]
    show (addSource (f loc) (st.symbols.map (·.move f)) t).map _ = _
    rw [key]
    show _ = ((addSource loc st.symbols t).map _).map _
    cases addSource loc st.symbols t <;> rfl
  | space t =>
    simp only [visitDefinition, Outcome.map, State.move, spaceSymbols, List.map_append, List.map_map]
    rfl
  | pipelines ps => rfl
  | relation t => rfl
  | root ns => rfl

theorem visitRelation_move (f : Nat → Nat) (loc : Nat) (st : State) (d : PlanDetail) :
    visitRelation (f loc) (st.move f) d = (visitRelation loc st d).move f := by
  cases d with
  | relation t =>
    unfold visitRelation
    simp only [State.move, lookup_move]
    cases lookup st.symbols t.ref.id <;> simp [Symbol.move]
  | _ => rfl

theorem visitRoot_move (f : Nat → Nat) (loc : Nat) (st : State) (d : PlanDetail) :
    visitRoot (f loc) (st.move f) d = (visitRoot loc st d).move f := by
  cases d with
  | root ns =>
    unfold visitRoot
    simp only [State.move, lookup_move]
    cases lookup st.symbols rootNamesName with
    | some s => rfl
    | none => cases lookup st.symbols rootName <;> simp [Symbol.move]
  | _ => rfl

def moved (f : Nat → Nat) (p : Nat × PlanDetail) : Nat × PlanDetail := (f p.1, p.2)

theorem defsAt_move (f : Nat → Nat) : ∀ (l : List (Nat × PlanDetail)) (st : State),
    defsAt (l.map (moved f)) (st.move f) = (defsAt l st).map (State.move f)
  | [], _ => rfl
  | p :: l, st => by
    simp only [List.map_cons]
    unfold defsAt
    rw [show (moved f p).1 = f p.1 from rfl, show (moved f p).2 = p.2 from rfl, visitDefinition_move]
    cases visitDefinition p.1 st p.2 with
    | ok st' => exact defsAt_move f l st'
    | throw e => rfl
    | ub => rfl

theorem relsAt_move (f : Nat → Nat) : ∀ (l : List (Nat × PlanDetail)) (st : State),
    relsAt (l.map (moved f)) (st.move f) = (relsAt l st).move f
  | [], _ => rfl
  | p :: l, st => by
    simp only [List.map_cons]
    unfold relsAt
    rw [show (moved f p).1 = f p.1 from rfl, show (moved f p).2 = p.2 from rfl, visitRelation_move]
    exact relsAt_move f l _

theorem rootsAt_move (f : Nat → Nat) : ∀ (l : List (Nat × PlanDetail)) (st : State),
    rootsAt (l.map (moved f)) (st.move f) = (rootsAt l st).move f
  | [], _ => rfl
  | p :: l, st => by
    simp only [List.map_cons]
    unfold rootsAt
    rw [show (moved f p).1 = f p.1 from rfl, show (moved f p).2 = p.2 from rfl, visitRoot_move]
    exact rootsAt_move f l _

theorem planAt_move (f : Nat → Nat) (l : List (Nat × PlanDetail)) :
    planAt (l.map (moved f)) = (planAt l).map (State.move f) := by
  unfold planAt
  have := defsAt_move f l {}
  rw [show State.move f {} = {} from rfl] at this
  rw [this]
  cases defsAt l {} with
  | ok st => simp only [Outcome.map, relsAt_move, rootsAt_move]
  | throw e => rfl
  | ub => rfl

end Verif.Sec

namespace Verif.Whole

open Verif Verif.Sec

/-- Other locations are not noticed. -/
theorem matching_move {f : Nat → Nat} (hf : ∀ {a b}, f a = f b → a = b) (bases : List Str)
    (st : Sec.State) : Matching bases st (st.move f) := by
  have hc : ∀ loc, columnsAt (st.symbols.map (·.move f)) (f loc) = columnsAt st.symbols loc := by
    intro loc
    unfold columnsAt
    rw [List.filterMap_map]
    congr 1
    funext s
    obtain ⟨n, k, i⟩ := s
    cases i <;> try rfl
    by_cases h : k = loc
    · simp [h, Symbol.move]
    · have h' : f k ≠ f loc := fun e => h (hf e)
      simp [h, h', Symbol.move]
  have ht : ∀ loc, tablesAt (st.symbols.map (·.move f)) (f loc) = tablesAt st.symbols loc := by
    intro loc
    unfold tablesAt
    rw [List.filterMap_map]
    congr 1
    funext s
    obtain ⟨n, k, i⟩ := s
    cases i <;> try rfl
    by_cases h : k = loc
    · simp [h, Symbol.move]
    · have h' : f k ≠ f loc := fun e => h (hf e)
      simp [h, h', Symbol.move]
  have hl : ∀ loc, filesAt (st.symbols.map (·.move f)) (f loc) = filesAt st.symbols loc := by
    intro loc
    unfold filesAt
    rw [List.filterMap_map]
    congr 1
    funext s
    obtain ⟨n, k, i⟩ := s
    cases i <;> try rfl
    by_cases h : k = loc
    · simp [h, Symbol.move]
    · have h' : f k ≠ f loc := fun e => h (hf e)
      simp [h, h', Symbol.move]
  have hs : ∀ loc, schemaAt (st.symbols.map (·.move f)) (f loc) = schemaAt st.symbols loc := by
    intro loc
    unfold schemaAt
    rw [List.findSome?_map]
    congr 1
    funext s
    obtain ⟨n, k, i⟩ := s
    cases i <;> try rfl
    by_cases h : k = loc
    · simp [h, Symbol.move]
    · have h' : f k ≠ f loc := fun e => h (hf e)
      simp [h, h', Symbol.move]
  have e : (st.move f).symbols = st.symbols.map (·.move f) := rfl
  constructor
  · intro n
    rw [e, lookup_move]
    left
    cases Sec.lookup st.symbols n <;> rfl
  · intro n _
    unfold Sec.schemaOf
    rw [e, lookup_move]
    cases Sec.lookup st.symbols n with
    | none => rfl
    | some s => simp only [Option.map_some]; rw [show (s.move f).loc = f s.loc from rfl, hc]
  · intro n _
    unfold Sec.columnFields
    rw [e, lookup_move]
    cases Sec.lookup st.symbols n with
    | none => rfl
    | some s => simp only [Option.map_some]; rw [show (s.move f).loc = f s.loc from rfl, hc, hs]
  · intro n
    unfold Sec.sourceOf
    rw [e, lookup_move]
    cases Sec.lookup st.symbols n with
    | none => rfl
    | some s =>
      simp only [Option.map_some]
      rw [show (s.move f).loc = f s.loc from rfl, hl, ht]
      rfl
  · rw [e, List.filter_map, List.map_map]
    rfl
  · rfl
  · rfl

end Verif.Whole

namespace Verif.Sec

open Verif Verif.Tree Verif.Literal Verif.Expr Verif.Whole

/-! ## The symbols of one definition -/

/-- The names of the files of a source. -/
def fileNames : PlanDetail → List Str
  | .source (.localFiles _ fs) => fs.map (·.text)
  | _ => []

/-- What a definition does to the extensions. -/
def extOf (e : Ext.State) : PlanDetail → Ext.State
  | .space t => Ext.visitSpace e t
  | _ => e

/-- The state with the symbols of a definition. -/
def State.with (st r : State) (d : PlanDetail) : State :=
  ⟨st.symbols ++ r.symbols, extOf st.ext d, st.errs ++ r.errs⟩

theorem applyDetails_append {name : Str} {ds : List FileDetail} {l : List Symbol} :
    ∀ {s : List Symbol}, name ∉ s.map (·.name) →
      applyDetails name ds (s ++ l) = (applyDetails name ds l).map (s ++ ·)
  | [], _ => by cases h : applyDetails name ds l <;> simp [h, Outcome.map]
  | x :: s, h => by
    simp only [List.map_cons, List.mem_cons, not_or] at h
    have e : applyDetails name ds (x :: (s ++ l)) = (applyDetails name ds (s ++ l)).map fun r => x :: r := by
      conv => lhs; unfold applyDetails
      rw [if_neg fun e => h.1 e.symm]
    show applyDetails name ds (x :: (s ++ l)) = _
    rw [e, applyDetails_append h.2]
    cases applyDetails name ds l <;> rfl

theorem addFiles_append {loc : Nat} {s : List Symbol} : ∀ {fs : List FileTree} {l : List Symbol},
    (∀ f ∈ fs, f.text ∉ s.map (·.name)) →
      addFiles loc fs (s ++ l) = (addFiles loc fs l).map (s ++ ·)
  | [], _, _ => rfl
  | f :: fs, l, h => by
    unfold addFiles
    rw [List.append_assoc, applyDetails_append (h f (by simp))]
    cases applyDetails f.text f.details (l ++ [⟨f.text, loc, .file File.empty⟩]) with
    | ok l' => exact addFiles_append fun g hg => h g (by simp [hg])
    | throw e => rfl
    | ub => rfl

/-- The symbols of a definition do not depend on those before it. -/
theorem visitDefinition_append {loc : Nat} {st : State} {d : PlanDetail}
    (h : ∀ n ∈ fileNames d, n ∉ st.symbols.map (·.name)) :
    visitDefinition loc st d = (visitDefinition loc {} d).map fun r => st.with r d := by
  cases d with
  | schema id cs =>
    simp only [visitDefinition]
    cases readColumns loc cs <;> simp [Outcome.map, State.with, extOf]
  | source t =>
    have key : addSource loc st.symbols t = (addSource loc [] t).map (st.symbols ++ ·) := by
      cases t with
      | localFiles id fs =>
        unfold addSource
        exact addFiles_append (l := [⟨id, loc, .source .files⟩]) fun f hf =>
          h f.text (List.mem_map.mpr ⟨f, hf, rfl⟩)
      | namedTable id ss => rfl
      | virtualTable id => rfl
      | extensionTable id => rfl
    simp only [visitDefinition]
    rw [key]
    cases addSource loc [] t <;> simp [Outcome.map, State.with, extOf]
  | space t => simp [visitDefinition, Outcome.map, State.with, extOf]
  | pipelines ps => simp [visitDefinition, Outcome.map, State.with, extOf]
  | relation t => simp [visitDefinition, Outcome.map, State.with, extOf]
  | root ns => simp [visitDefinition, Outcome.map, State.with, extOf]

/-- A symbol of a definition. -/
def Own (loc : Nat) (d : PlanDetail) (s : Symbol) : Prop :=
  (s.name, !minor s.info) ∈ given d ∧ s.loc = loc ∧ isTop s.info = false

theorem applyDetails_own {loc : Nat} {d : PlanDetail} {name : Str} {ds : List FileDetail} :
    ∀ {l l' : List Symbol}, applyDetails name ds l = .ok l' → (∀ s ∈ l, Own loc d s) →
      ∀ s ∈ l', Own loc d s
  | [], l', h, _ => by
    unfold applyDetails at h
    split at h
    · cases h; simp
    · cases h
  | x :: l, l', h, hl => by
    unfold applyDetails at h
    split at h
    · split at h
      · cases h; exact hl
      · rename_i f hi _
        obtain ⟨g, -, h⟩ := Outcome.of_map h
        subst h
        intro s hs
        rcases List.mem_cons.mp hs with rfl | hs
        · have := hl x (by simp)
          unfold Own at this ⊢
          rw [hi] at this
          exact this
        · exact hl s (by simp [hs])
      · cases h
    · obtain ⟨r, h1, h⟩ := Outcome.of_map h
      subst h
      intro s hs
      rcases List.mem_cons.mp hs with rfl | hs
      · exact hl s (by simp)
      · exact applyDetails_own h1 (fun y hy => hl y (by simp [hy])) s hs

theorem addFiles_own {loc : Nat} {d : PlanDetail} : ∀ {fs : List FileTree} {l l' : List Symbol},
    addFiles loc fs l = .ok l' → (∀ s ∈ l, Own loc d s) → (∀ f ∈ fs, (f.text, true) ∈ given d) →
      ∀ s ∈ l', Own loc d s
  | [], l, l', h, hl, _ => by cases h; exact hl
  | f :: fs, l, l', h, hl, hf => by
    unfold addFiles at h
    obtain ⟨a, h1, h2⟩ := Outcome.of_bind h
    refine addFiles_own h2 (applyDetails_own h1 ?_) fun g hg => hf g (by simp [hg])
    intro s hs
    rcases List.mem_append.mp hs with hs | hs
    · exact hl s hs
    · rw [List.mem_singleton.mp hs]
      exact ⟨hf f (by simp), rfl, rfl⟩

theorem readColumns_own {loc : Nat} : ∀ {cs : List (Str × TypeTree)} {r : List Symbol × List RErr},
    readColumns loc cs = .ok r → ∀ s ∈ r.1,
      (∃ c ∈ cs, s.name = c.1) ∧ s.loc = loc ∧ minor s.info = true ∧ isTop s.info = false
  | [], r, h => by cases h; simp
  | c :: cs, r, h => by
    unfold readColumns at h
    obtain ⟨t, h1, h⟩ := Outcome.of_bind h
    obtain ⟨a, h2, h⟩ := Outcome.of_map h
    subst h
    intro s hs
    rcases List.mem_cons.mp hs with rfl | hs
    · exact ⟨⟨c, by simp, rfl⟩, rfl, rfl, rfl⟩
    · obtain ⟨⟨x, hx, e⟩, h3⟩ := readColumns_own h2 s hs
      exact ⟨⟨x, by simp [hx], e⟩, h3⟩

theorem visitDefinition_own {loc : Nat} {d : PlanDetail} {r : State}
    (h : visitDefinition loc {} d = .ok r) : ∀ s ∈ r.symbols, Own loc d s := by
  cases d with
  | schema id cs =>
    simp only [visitDefinition] at h
    obtain ⟨a, h1, h⟩ := Outcome.of_map h
    subst h
    intro s hs
    simp only [List.nil_append, List.mem_cons] at hs
    rcases hs with rfl | hs
    · exact ⟨by simp [given, minor], rfl, rfl⟩
    · obtain ⟨⟨c, hc, e⟩, h2, h3, h4⟩ := readColumns_own h1 s hs
      refine ⟨?_, h2, h4⟩
      rw [h3, e]
      exact List.mem_cons_of_mem _ (List.mem_map.mpr ⟨c, hc, rfl⟩)
  | source t =>
    simp only [visitDefinition] at h
    obtain ⟨a, h1, h⟩ := Outcome.of_map h
    subst h
    cases t with
    | localFiles id fs =>
      unfold addSource at h1
      refine addFiles_own h1 ?_ fun f hf => List.mem_cons_of_mem _ (List.mem_map.mpr ⟨f, hf, rfl⟩)
      intro s hs
      simp only [List.nil_append, List.mem_singleton] at hs
      subst hs
      exact ⟨by simp [given, minor], rfl, rfl⟩
    | namedTable id ss =>
      cases h1
      intro s hs
      simp only [List.nil_append, List.mem_cons, List.mem_map] at hs
      rcases hs with rfl | ⟨x, hx, rfl⟩
      · exact ⟨by simp [given, minor], rfl, rfl⟩
      · exact ⟨List.mem_cons_of_mem _ (List.mem_map.mpr ⟨x, hx, rfl⟩), rfl, rfl⟩
    | virtualTable id =>
      cases h1
      intro s hs
      simp only [List.nil_append, List.mem_singleton] at hs
      subst hs
      exact ⟨by simp [given, minor], rfl, rfl⟩
    | extensionTable id =>
      cases h1
      intro s hs
      simp only [List.nil_append, List.mem_singleton] at hs
      subst hs
      exact ⟨by simp [given, minor], rfl, rfl⟩
  | space t =>
    cases h
    intro s hs
    simp only [spaceSymbols, List.nil_append, List.mem_append, List.mem_map] at hs
    rcases hs with ⟨u, hu, rfl⟩ | ⟨f, hf, rfl⟩
    · exact ⟨List.mem_append_left _ (List.mem_map.mpr ⟨u, hu, rfl⟩), rfl, rfl⟩
    · exact ⟨List.mem_append_right _ (List.mem_map.mpr ⟨f, hf, rfl⟩), rfl, rfl⟩
  | pipelines ps => cases h; intro s hs; cases hs
  | relation t => cases h; intro s hs; cases hs
  | root ns => cases h; intro s hs; cases hs

/-! ## The symbols of all definitions -/

/-- The symbols and errors of the definitions, one after the other. -/
inductive Blocks : List (Nat × PlanDetail) → List Symbol → List Err → Prop
  | nil : Blocks [] [] []
  | cons {p l ss es r} : visitDefinition p.1 {} p.2 = .ok r → Blocks l ss es →
    Blocks (p :: l) (r.symbols ++ ss) (r.errs ++ es)

/-- No file has the name of something before it. -/
def FilesNew (before : List Str) : List (Nat × PlanDetail) → Prop
  | [] => True
  | p :: l => (∀ n ∈ fileNames p.2, n ∉ before) ∧ FilesNew (before ++ (given p.2).map (·.1)) l

theorem FilesNew.mono {a b : List Str} : ∀ {l : List (Nat × PlanDetail)}, (∀ n ∈ a, n ∈ b) →
    FilesNew b l → FilesNew a l
  | [], _, _ => trivial
  | p :: l, h, hf => by
    refine ⟨fun n hn ha => hf.1 n hn (h n ha), hf.2.mono fun n hn => ?_⟩
    rcases List.mem_append.mp hn with hn | hn
    · exact List.mem_append_left _ (h n hn)
    · exact List.mem_append_right _ hn

def extsOf (e : Ext.State) (l : List (Nat × PlanDetail)) : Ext.State :=
  l.foldl (fun e p => extOf e p.2) e

theorem defsAt_blocks : ∀ {l : List (Nat × PlanDetail)} {st : State},
    FilesNew (st.symbols.map (·.name)) l → ∀ {st' : State},
    (defsAt l st = .ok st' ↔ ∃ ss es, Blocks l ss es ∧
      st' = ⟨st.symbols ++ ss, extsOf st.ext l, st.errs ++ es⟩)
  | [], st, _, st' => by
    constructor
    · intro h
      cases h
      exact ⟨[], [], .nil, by simp [extsOf]⟩
    · rintro ⟨ss, es, hb, rfl⟩
      cases hb
      simp [defsAt, extsOf]
  | p :: l, st, hf, st' => by
    have ha := visitDefinition_append (loc := p.1) (st := st) (d := p.2) hf.1
    constructor
    · intro h
      unfold defsAt at h
      obtain ⟨a, h1, h2⟩ := Outcome.of_bind h
      rw [ha] at h1
      obtain ⟨r, h3, h1⟩ := Outcome.of_map h1
      subst h1
      have hfr : FilesNew ((st.with r p.2).symbols.map (·.name)) l := by
        refine hf.2.mono fun n hn => ?_
        simp only [State.with, List.map_append, List.mem_append] at hn ⊢
        rcases hn with hn | hn
        · exact .inl hn
        · right
          obtain ⟨s, hs, rfl⟩ := List.mem_map.mp hn
          exact List.mem_map.mpr ⟨_, (visitDefinition_own h3 s hs).1, rfl⟩
      obtain ⟨ss, es, hb, e⟩ := (defsAt_blocks hfr).mp h2
      exact ⟨_, _, .cons h3 hb, by rw [e]; simp [State.with, extsOf]⟩
    · rintro ⟨ss, es, hb, e⟩
      cases hb with
      | cons h3 hb =>
        rename_i ss es r
        have hfr : FilesNew ((st.with r p.2).symbols.map (·.name)) l := by
          refine hf.2.mono fun n hn => ?_
          simp only [State.with, List.map_append, List.mem_append] at hn ⊢
          rcases hn with hn | hn
          · exact .inl hn
          · right
            obtain ⟨s, hs, rfl⟩ := List.mem_map.mp hn
            exact List.mem_map.mpr ⟨_, (visitDefinition_own h3 s hs).1, rfl⟩
        unfold defsAt
        rw [ha, h3]
        refine (defsAt_blocks hfr).mpr ⟨ss, es, hb, ?_⟩
        rw [e]
        simp [State.with, extsOf]

theorem Blocks.split : ∀ {a b : List (Nat × PlanDetail)} {ss : List Symbol} {es : List Err},
    Blocks (a ++ b) ss es → ∃ s1 e1 s2 e2, Blocks a s1 e1 ∧ Blocks b s2 e2 ∧ ss = s1 ++ s2 ∧
      es = e1 ++ e2
  | [], b, ss, es, h => ⟨[], [], ss, es, .nil, h, rfl, rfl⟩
  | p :: a, b, _, _, .cons h1 h2 => by
    obtain ⟨s1, e1, s2, e2, h3, h4, rfl, rfl⟩ := h2.split
    exact ⟨_, _, s2, e2, .cons h1 h3, h4, by simp, by simp⟩

theorem Blocks.append {b : List (Nat × PlanDetail)} {s2 : List Symbol} {e2 : List Err}
    (hb : Blocks b s2 e2) : ∀ {a : List (Nat × PlanDetail)} {s1 : List Symbol} {e1 : List Err},
    Blocks a s1 e1 → Blocks (a ++ b) (s1 ++ s2) (e1 ++ e2)
  | [], _, _, .nil => hb
  | p :: a, _, _, .cons h1 h2 => by
    rw [List.append_assoc, List.append_assoc]
    exact .cons h1 (Blocks.append hb h2)

end Verif.Sec
