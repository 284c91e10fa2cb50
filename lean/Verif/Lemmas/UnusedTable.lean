import Verif.Lemmas.UnusedRead

/-! # The symbol table with the symbols of one more definition -/

namespace Verif.Sec

open Verif Verif.Tree Verif.Literal Verif.Expr Verif.Whole

/-- The list with others in it before the element with a number. -/
def ins : Nat → List Symbol → List Symbol → List Symbol
  | 0, x, l => x ++ l
  | k + 1, x, s :: l => s :: ins k x l
  | _ + 1, x, [] => x

def State.ins (k : Nat) (x : List Symbol) (st : State) : State :=
  { st with symbols := Sec.ins k x st.symbols }

theorem ins_append {x m : List Symbol} : ∀ {k : Nat} {l : List Symbol}, k ≤ l.length →
    ins k x (l ++ m) = ins k x l ++ m
  | 0, l, _ => by simp [ins]
  | k + 1, s :: l, h => by
    show s :: ins k x (l ++ m) = _
    rw [ins_append (by simpa using h)]
    rfl
  | k + 1, [], h => by simp at h

theorem ins_length (x : List Symbol) : ∀ l : List Symbol, ins l.length x l = l ++ x
  | [] => by simp [ins]
  | s :: l => by
    show s :: ins l.length x l = _
    rw [ins_length x l]
    rfl

theorem mem_ins {x : List Symbol} {s : Symbol} : ∀ {k : Nat} {l : List Symbol}, s ∈ ins k x l →
    s ∈ x ∨ s ∈ l
  | 0, l, h => List.mem_append.mp h
  | k + 1, t :: l, h => by
    rcases List.mem_cons.mp h with rfl | h
    · exact .inr (by simp)
    · rcases mem_ins h with h | h
      · exact .inl h
      · exact .inr (by simp [h])
  | k + 1, [], h => .inl h

theorem lookup_absent {x : List Symbol} {n : Str} (h : n ∉ x.map (·.name)) : lookup x n = none := by
  unfold lookup
  rw [List.find?_eq_none]
  intro s hs
  have : s.name ≠ n := fun e => h (List.mem_map.mpr ⟨s, hs, e⟩)
  simpa using this

theorem lookup_ins {x : List Symbol} {n : Str} (h : n ∉ x.map (·.name)) :
    ∀ (k : Nat) (l : List Symbol), lookup (ins k x l) n = lookup l n
  | 0, l => by
    have := lookup_absent h
    unfold lookup at this ⊢
    simp [ins, List.find?_append, this]
  | k + 1, s :: l => by
    have ih := lookup_ins h k l
    unfold lookup at ih ⊢
    simp only [ins, List.find?_cons, ih]
  | k + 1, [] => lookup_absent h

theorem filterMap_ins {α : Type} {x : List Symbol} {f : Symbol → Option α} (h : ∀ s ∈ x, f s = none) :
    ∀ (k : Nat) (l : List Symbol), (ins k x l).filterMap f = l.filterMap f
  | 0, l => by
    have : x.filterMap f = [] := List.filterMap_eq_nil_iff.mpr h
    simp [ins, this]
  | k + 1, s :: l => by simp only [ins, List.filterMap_cons, filterMap_ins h k l]
  | k + 1, [] => List.filterMap_eq_nil_iff.mpr h

theorem filter_ins {x : List Symbol} {f : Symbol → Bool} (h : ∀ s ∈ x, f s = false) :
    ∀ (k : Nat) (l : List Symbol), (ins k x l).filter f = l.filter f
  | 0, l => by
    have : x.filter f = [] := by
      rw [List.filter_eq_nil_iff]; intro s hs; simp [h s hs]
    simp [ins, this]
  | k + 1, s :: l => by simp only [ins, List.filter_cons, filter_ins h k l]
  | k + 1, [] => by
    show x.filter f = []
    rw [List.filter_eq_nil_iff]; intro s hs; simp [h s hs]

theorem findSome_ins {α : Type} {x : List Symbol} {f : Symbol → Option α} (h : ∀ s ∈ x, f s = none) :
    ∀ (k : Nat) (l : List Symbol), (ins k x l).findSome? f = l.findSome? f
  | 0, l => by
    have : x.findSome? f = none := List.findSome?_eq_none_iff.mpr h
    simp [ins, this]
  | k + 1, s :: l => by simp only [ins, List.findSome?_cons, findSome_ins h k l]
  | k + 1, [] => List.findSome?_eq_none_iff.mpr h

/-! ## Reading on -/

theorem applyDetails_ins {name : Str} {ds : List FileDetail} {x : List Symbol}
    (h : name ∉ x.map (·.name)) : ∀ {k : Nat} {l : List Symbol}, k ≤ l.length →
      applyDetails name ds (ins k x l) = (applyDetails name ds l).map (ins k x)
  | 0, l, _ => by
    show applyDetails name ds (x ++ l) = _
    rw [applyDetails_append h]
    rfl
  | k + 1, s :: l, hk => by
    show applyDetails name ds (s :: ins k x l) = _
    unfold applyDetails
    rw [applyDetails_ins h (by simpa using hk)]
    split
    · split
      · rfl
      · generalize List.foldl (fun (o : Outcome File) d => o.bind (applyDetail d)) _ _ = o
        cases o <;> rfl
      · rfl
    · cases applyDetails name ds l <;> rfl
  | k + 1, [], hk => by simp at hk

theorem applyDetails_length {name : Str} {ds : List FileDetail} : ∀ {l l' : List Symbol},
    applyDetails name ds l = .ok l' → l'.length = l.length
  | [], l', h => by
    unfold applyDetails at h
    split at h
    · cases h; rfl
    · cases h
  | s :: l, l', h => by
    unfold applyDetails at h
    split at h
    · split at h
      · cases h; rfl
      · obtain ⟨g, -, h⟩ := Outcome.of_map h
        subst h; rfl
      · cases h
    · obtain ⟨r, h1, h⟩ := Outcome.of_map h
      subst h
      simp [applyDetails_length h1]

theorem addFiles_ins {loc : Nat} {x : List Symbol} : ∀ {fs : List FileTree} {k : Nat}
    {l : List Symbol}, (∀ f ∈ fs, f.text ∉ x.map (·.name)) → k ≤ l.length →
      addFiles loc fs (ins k x l) = (addFiles loc fs l).map (ins k x)
  | [], _, _, _, _ => rfl
  | f :: fs, k, l, h, hk => by
    unfold addFiles
    rw [← ins_append hk, applyDetails_ins (h f (by simp)) (by simp; omega)]
    cases ha : applyDetails f.text f.details (l ++ [⟨f.text, loc, .file File.empty⟩]) with
    | ok l' =>
      refine addFiles_ins (fun g hg => h g (by simp [hg])) ?_
      have := applyDetails_length ha
      simp at this
      omega
    | throw e => rfl
    | ub => rfl

theorem addFiles_length {loc : Nat} : ∀ {fs : List FileTree} {l l' : List Symbol},
    addFiles loc fs l = .ok l' → l.length ≤ l'.length
  | [], l, l', h => by cases h; exact Nat.le_refl _
  | f :: fs, l, l', h => by
    unfold addFiles at h
    obtain ⟨a, h1, h2⟩ := Outcome.of_bind h
    have := applyDetails_length h1
    have h3 := addFiles_length h2
    simp at this
    omega

theorem visitDefinition_length {loc : Nat} {st st' : State} {d : PlanDetail}
    (h : visitDefinition loc st d = .ok st') : st.symbols.length ≤ st'.symbols.length := by
  cases d with
  | schema id cs =>
    simp only [visitDefinition] at h
    obtain ⟨r, -, h⟩ := Outcome.of_map h
    subst h; simp
  | source t =>
    simp only [visitDefinition] at h
    obtain ⟨l, h1, h⟩ := Outcome.of_map h
    subst h
    cases t with
    | localFiles id fs =>
      unfold addSource at h1
      have := addFiles_length h1
      simp at this ⊢
      omega
    | namedTable id ss => cases h1; simp
    | virtualTable id => cases h1; simp
    | extensionTable id => cases h1; simp
  | space t => cases h; simp
  | pipelines ps => cases h; exact Nat.le_refl _
  | relation t => cases h; exact Nat.le_refl _
  | root ns => cases h; exact Nat.le_refl _

theorem visitDefinition_ins {loc k : Nat} {x : List Symbol} {st : State} {d : PlanDetail}
    (h : ∀ n ∈ fileNames d, n ∉ x.map (·.name)) (hk : k ≤ st.symbols.length) :
    visitDefinition loc (st.ins k x) d = (visitDefinition loc st d).map (State.ins k x) := by
  cases d with
  | schema id cs =>
    simp only [visitDefinition]
    cases readColumns loc cs <;> simp [Outcome.map, State.ins, ins_append hk]
  | source t =>
    have key : addSource loc (ins k x st.symbols) t = (addSource loc st.symbols t).map (ins k x) := by
      cases t with
      | localFiles id fs =>
        show addFiles loc fs (ins k x st.symbols ++ [⟨id, loc, .source .files⟩]) =
          (addFiles loc fs (st.symbols ++ [⟨id, loc, .source .files⟩])).map (ins k x)
        rw [← ins_append hk]
        exact addFiles_ins (fun f hf => h f.text (List.mem_map.mpr ⟨f, hf, rfl⟩)) (by simp; omega)
      | namedTable id ss => simp [addSource, Outcome.map, ins_append hk]
      | virtualTable id => simp [addSource, Outcome.map, ins_append hk]
      | extensionTable id => simp [addSource, Outcome.map, ins_append hk]
    show (addSource loc (ins k x st.symbols) t).map _ = ((addSource loc st.symbols t).map _).map _
    rw [key]
    cases addSource loc st.symbols t <;> rfl
  | space t => simp [visitDefinition, Outcome.map, State.ins, ins_append hk]
  | pipelines ps => rfl
  | relation t => rfl
  | root ns => rfl

theorem defsAt_ins {k : Nat} {x : List Symbol} : ∀ {l : List (Nat × PlanDetail)} {st : State},
    (∀ p ∈ l, ∀ n ∈ fileNames p.2, n ∉ x.map (·.name)) → k ≤ st.symbols.length →
      defsAt l (st.ins k x) = (defsAt l st).map (State.ins k x)
  | [], _, _, _ => rfl
  | p :: l, st, h, hk => by
    unfold defsAt
    rw [visitDefinition_ins (h p (by simp)) hk]
    cases hv : visitDefinition p.1 st p.2 with
    | ok st' =>
      exact defsAt_ins (fun q hq => h q (by simp [hq])) (Nat.le_trans hk (visitDefinition_length hv))
    | throw e => rfl
    | ub => rfl

theorem visitRelation_ins {loc k : Nat} {x : List Symbol} {st : State} {d : PlanDetail}
    (h : ∀ t, d = .relation t → t.ref.id ∉ x.map (·.name)) (hk : k ≤ st.symbols.length) :
    visitRelation loc (st.ins k x) d = (visitRelation loc st d).ins k x := by
  cases d with
  | relation t =>
    unfold visitRelation
    simp only [State.ins, lookup_ins (h t rfl)]
    cases lookup st.symbols t.ref.id <;> simp [ins_append hk]
  | _ => rfl

theorem visitRelation_length {loc : Nat} {st : State} {d : PlanDetail} :
    st.symbols.length ≤ (visitRelation loc st d).symbols.length := by
  cases d with
  | relation t =>
    unfold visitRelation
    simp only
    cases lookup st.symbols t.ref.id <;> simp
  | _ => exact Nat.le_refl _

theorem relsAt_ins {k : Nat} {x : List Symbol} : ∀ {l : List (Nat × PlanDetail)} {st : State},
    (∀ p ∈ l, ∀ t, p.2 = .relation t → t.ref.id ∉ x.map (·.name)) → k ≤ st.symbols.length →
      relsAt l (st.ins k x) = (relsAt l st).ins k x
  | [], _, _, _ => rfl
  | p :: l, st, h, hk => by
    unfold relsAt
    rw [visitRelation_ins (h p (by simp)) hk]
    exact relsAt_ins (fun q hq => h q (by simp [hq])) (Nat.le_trans hk visitRelation_length)

theorem relsAt_length : ∀ {l : List (Nat × PlanDetail)} {st : State},
    st.symbols.length ≤ (relsAt l st).symbols.length
  | [], _ => Nat.le_refl _
  | p :: l, st => by
    unfold relsAt
    exact Nat.le_trans visitRelation_length relsAt_length

theorem defsAt_length : ∀ {l : List (Nat × PlanDetail)} {st st' : State}, defsAt l st = .ok st' →
    st.symbols.length ≤ st'.symbols.length
  | [], _, _, h => by cases h; exact Nat.le_refl _
  | p :: l, st, st', h => by
    unfold defsAt at h
    obtain ⟨a, h1, h2⟩ := Outcome.of_bind h
    exact Nat.le_trans (visitDefinition_length h1) (defsAt_length h2)

theorem visitRoot_ins {loc k : Nat} {x : List Symbol} {st : State} {d : PlanDetail}
    (h1 : rootName ∉ x.map (·.name)) (h2 : rootNamesName ∉ x.map (·.name))
    (hk : k ≤ st.symbols.length) :
    visitRoot loc (st.ins k x) d = (visitRoot loc st d).ins k x := by
  cases d with
  | root ns =>
    unfold visitRoot
    simp only [State.ins, lookup_ins h1, lookup_ins h2]
    cases lookup st.symbols rootNamesName with
    | some s => rfl
    | none => cases lookup st.symbols rootName <;> simp [ins_append hk]
  | _ => rfl

theorem visitRoot_length {loc : Nat} {st : State} {d : PlanDetail} :
    st.symbols.length ≤ (visitRoot loc st d).symbols.length := by
  cases d with
  | root ns =>
    unfold visitRoot
    cases lookup st.symbols rootNamesName with
    | some s => exact Nat.le_refl _
    | none => cases lookup st.symbols rootName <;> simp
  | _ => exact Nat.le_refl _

theorem rootsAt_ins {k : Nat} {x : List Symbol}
    (h1 : rootName ∉ x.map (·.name)) (h2 : rootNamesName ∉ x.map (·.name)) :
    ∀ {l : List (Nat × PlanDetail)} {st : State}, k ≤ st.symbols.length →
      rootsAt l (st.ins k x) = (rootsAt l st).ins k x
  | [], _, _ => rfl
  | p :: l, st, hk => by
    unfold rootsAt
    rw [visitRoot_ins h1 h2 hk]
    exact rootsAt_ins h1 h2 (Nat.le_trans hk visitRoot_length)

theorem defsAt_append : ∀ (a b : List (Nat × PlanDetail)) (st : State),
    defsAt (a ++ b) st = (defsAt a st).bind (defsAt b)
  | [], _, _ => rfl
  | p :: a, b, st => by
    show (visitDefinition p.1 st p.2).bind (defsAt (a ++ b)) = ((visitDefinition p.1 st p.2).bind _).bind _
    cases visitDefinition p.1 st p.2 with
    | ok st' => exact defsAt_append a b st'
    | throw e => rfl
    | ub => rfl

theorem relsAt_append : ∀ (a b : List (Nat × PlanDetail)) (st : State),
    relsAt (a ++ b) st = relsAt b (relsAt a st)
  | [], _, _ => rfl
  | p :: a, b, st => relsAt_append a b _

theorem rootsAt_append : ∀ (a b : List (Nat × PlanDetail)) (st : State),
    rootsAt (a ++ b) st = rootsAt b (rootsAt a st)
  | [], _, _ => rfl
  | p :: a, b, st => rootsAt_append a b _

/-- The names of the symbols after the definitions. -/
def Named (ns : List Str) (l : List Symbol) : Prop := ∀ s ∈ l, s.name ∈ ns

theorem applyDetails_names {name : Str} {ds : List FileDetail} : ∀ {l l' : List Symbol},
    applyDetails name ds l = .ok l' → l'.map (·.name) = l.map (·.name)
  | [], l', h => by
    unfold applyDetails at h
    split at h
    · cases h; rfl
    · cases h
  | s :: l, l', h => by
    unfold applyDetails at h
    split at h
    · split at h
      · cases h; rfl
      · obtain ⟨g, -, h⟩ := Outcome.of_map h
        subst h; rfl
      · cases h
    · obtain ⟨r, h1, h⟩ := Outcome.of_map h
      subst h
      simp [applyDetails_names h1]

theorem addFiles_names {loc : Nat} : ∀ {fs : List FileTree} {l l' : List Symbol},
    addFiles loc fs l = .ok l' → l'.map (·.name) = l.map (·.name) ++ fs.map (·.text)
  | [], l, l', h => by cases h; simp
  | f :: fs, l, l', h => by
    unfold addFiles at h
    obtain ⟨a, h1, h2⟩ := Outcome.of_bind h
    rw [addFiles_names h2, applyDetails_names h1]
    simp

theorem readColumns_names {loc : Nat} : ∀ {cs : List (Str × TypeTree)}
    {r : List Symbol × List RErr}, readColumns loc cs = .ok r → r.1.map (·.name) = cs.map (·.1)
  | [], r, h => by cases h; rfl
  | c :: cs, r, h => by
    unfold readColumns at h
    obtain ⟨t, -, h⟩ := Outcome.of_bind h
    obtain ⟨a, h2, h⟩ := Outcome.of_map h
    subst h
    simp [readColumns_names h2]

theorem visitDefinition_names {loc : Nat} {st st' : State} {d : PlanDetail}
    (h : visitDefinition loc st d = .ok st') :
    st'.symbols.map (·.name) = st.symbols.map (·.name) ++ namesGiven d := by
  cases d with
  | schema id cs =>
    simp only [visitDefinition] at h
    obtain ⟨r, h1, h⟩ := Outcome.of_map h
    subst h
    simp [readColumns_names h1, namesGiven, given]
  | source t =>
    simp only [visitDefinition] at h
    obtain ⟨l, h1, h⟩ := Outcome.of_map h
    subst h
    cases t with
    | localFiles id fs =>
      unfold addSource at h1
      simp [addFiles_names h1, namesGiven, given]
    | namedTable id ss => cases h1; simp [namesGiven, given]
    | virtualTable id => cases h1; simp [namesGiven, given]
    | extensionTable id => cases h1; simp [namesGiven, given]
  | space t => cases h; simp [namesGiven, given, spaceSymbols, Function.comp_def]
  | pipelines ps => cases h; simp [namesGiven, given]
  | relation t => cases h; simp [namesGiven, given]
  | root ns => cases h; simp [namesGiven, given]

theorem defsAt_names : ∀ {l : List (Nat × PlanDetail)} {st st' : State}, defsAt l st = .ok st' →
    st'.symbols.map (·.name) = st.symbols.map (·.name) ++ l.flatMap fun p => namesGiven p.2
  | [], _, _, h => by cases h; simp
  | p :: l, st, st', h => by
    unfold defsAt at h
    obtain ⟨a, h1, h2⟩ := Outcome.of_bind h
    rw [defsAt_names h2, visitDefinition_names h1]
    simp

/-- The table of a text with one more definition. -/
theorem planAt_ins {l1 l2 : List (Nat × PlanDetail)} {k : Nat} {d : PlanDetail} {r : State}
    (hr : visitDefinition k {} d = .ok r) (he : r.errs = []) (hd : isData d = true)
    (hb : ∀ n ∈ fileNames d, ∀ p ∈ l1, n ∉ namesGiven p.2)
    (ha : ∀ p ∈ l2, ∀ n ∈ fileNames p.2, n ∉ r.symbols.map (·.name))
    (ht : ∀ p ∈ l1 ++ l2, ∀ t, p.2 = .relation t → t.ref.id ∉ r.symbols.map (·.name))
    (h1 : rootName ∉ r.symbols.map (·.name)) (h2 : rootNamesName ∉ r.symbols.map (·.name)) :
    ∃ m, planAt (l1 ++ (k, d) :: l2) = (planAt (l1 ++ l2)).map (State.ins m r.symbols) := by
  unfold planAt
  rw [defsAt_append, defsAt_append]
  cases h : defsAt l1 {} with
  | throw e => exact ⟨0, rfl⟩
  | ub => exact ⟨0, rfl⟩
  | ok st =>
    refine ⟨st.symbols.length, ?_⟩
    have hv : visitDefinition k st d = .ok (st.ins st.symbols.length r.symbols) := by
      rw [visitDefinition_append, hr]
      · have hx : extOf st.ext d = st.ext := by cases d <;> first | rfl | cases hd
        simp [Outcome.map, State.with, State.ins, ins_length, he, hx]
      · intro n hn hs
        rw [defsAt_names h] at hs
        simp only [List.map_nil, List.nil_append, List.mem_flatMap] at hs
        obtain ⟨p, hp, hs⟩ := hs
        exact hb n hn p hp hs
    have hrel : ∀ loc st, visitRelation loc st d = st := by
      intro loc st; cases d <;> first | rfl | cases hd
    have hroot : ∀ loc st, visitRoot loc st d = st := by
      intro loc st; cases d <;> first | rfl | cases hd
    have hl : ∀ s, relsAt (l1 ++ (k, d) :: l2) s = relsAt (l1 ++ l2) s := by
      intro s
      rw [relsAt_append, relsAt_append]
      simp only [relsAt, hrel]
    have hl' : ∀ s, rootsAt (l1 ++ (k, d) :: l2) s = rootsAt (l1 ++ l2) s := by
      intro s
      rw [rootsAt_append, rootsAt_append]
      simp only [rootsAt, hroot]
    show ((visitDefinition k st d).bind (defsAt l2)).map _ = ((defsAt l2 st).map _).map _
    rw [hv]
    show (defsAt l2 (st.ins st.symbols.length r.symbols)).map _ = _
    rw [defsAt_ins ha (Nat.le_refl _)]
    cases h3 : defsAt l2 st with
    | throw e => rfl
    | ub => rfl
    | ok st' =>
      have hm := defsAt_length h3
      simp only [Outcome.map, hl, hl']
      rw [relsAt_ins ht hm, rootsAt_ins h1 h2 (Nat.le_trans hm relsAt_length)]

/-! ## Which symbols are relations -/

/-- The relations and the root have names of these. -/
def Tops (ns : List Str) (l : List Symbol) : Prop := ∀ s ∈ l, isTop s.info = true → s.name ∈ ns

theorem applyDetails_tops {ns : List Str} {name : Str} {ds : List FileDetail} :
    ∀ {l l' : List Symbol}, applyDetails name ds l = .ok l' → Tops ns l → Tops ns l'
  | [], l', h, hl => by
    unfold applyDetails at h
    split at h
    · cases h; exact hl
    · cases h
  | x :: l, l', h, hl => by
    unfold applyDetails at h
    split at h
    · split at h
      · cases h; exact hl
      · obtain ⟨g, -, h⟩ := Outcome.of_map h
        subst h
        intro s hs ht
        rcases List.mem_cons.mp hs with rfl | hs
        · cases ht
        · exact hl s (by simp [hs]) ht
      · cases h
    · obtain ⟨r, h1, h⟩ := Outcome.of_map h
      subst h
      intro s hs ht
      rcases List.mem_cons.mp hs with rfl | hs
      · exact hl s (by simp) ht
      · exact applyDetails_tops h1 (fun y hy => hl y (by simp [hy])) s hs ht

theorem Tops.append {ns : List Str} {a b : List Symbol} (ha : Tops ns a) (hb : Tops ns b) :
    Tops ns (a ++ b) := by
  intro s hs
  rcases List.mem_append.mp hs with h | h
  · exact ha s h
  · exact hb s h

theorem addFiles_tops {ns : List Str} {loc : Nat} : ∀ {fs : List FileTree} {l l' : List Symbol},
    addFiles loc fs l = .ok l' → Tops ns l → Tops ns l'
  | [], l, l', h, hl => by cases h; exact hl
  | f :: fs, l, l', h, hl => by
    unfold addFiles at h
    obtain ⟨a, h1, h2⟩ := Outcome.of_bind h
    refine addFiles_tops h2 (applyDetails_tops h1 (hl.append ?_))
    intro s hs ht
    rw [List.mem_singleton.mp hs] at ht
    cases ht

theorem visitDefinition_tops {ns : List Str} {loc : Nat} {st st' : State} {d : PlanDetail}
    (h : visitDefinition loc st d = .ok st') (hl : Tops ns st.symbols) : Tops ns st'.symbols := by
  have hplain : ∀ l : List Symbol, (∀ s ∈ l, isTop s.info = false) → Tops ns l := by
    intro l h s hs ht
    rw [h s hs] at ht
    cases ht
  cases d with
  | schema id cs =>
    simp only [visitDefinition] at h
    obtain ⟨r, h1, h⟩ := Outcome.of_map h
    subst h
    refine hl.append (hplain _ ?_)
    intro s hs
    rcases List.mem_cons.mp hs with rfl | hs
    · rfl
    · exact (readColumns_own h1 s hs).2.2.2
  | source t =>
    simp only [visitDefinition] at h
    obtain ⟨l, h1, h⟩ := Outcome.of_map h
    subst h
    cases t with
    | localFiles id fs =>
      unfold addSource at h1
      refine addFiles_tops h1 (hl.append (hplain _ ?_))
      intro s hs
      rw [List.mem_singleton.mp hs]; rfl
    | namedTable id ss =>
      cases h1
      refine hl.append (hplain _ ?_)
      intro s hs
      rcases List.mem_cons.mp hs with rfl | hs
      · rfl
      · obtain ⟨y, -, rfl⟩ := List.mem_map.mp hs
        rfl
    | virtualTable id =>
      cases h1
      refine hl.append (hplain _ ?_)
      intro s hs
      rw [List.mem_singleton.mp hs]; rfl
    | extensionTable id =>
      cases h1
      refine hl.append (hplain _ ?_)
      intro s hs
      rw [List.mem_singleton.mp hs]; rfl
  | space t =>
    cases h
    refine hl.append (hplain _ ?_)
    intro s hs
    simp only [spaceSymbols, List.mem_append, List.mem_map] at hs
    rcases hs with ⟨u, hu, rfl⟩ | ⟨f, hf, rfl⟩ <;> rfl
  | pipelines ps => cases h; exact hl
  | relation t => cases h; exact hl
  | root ns => cases h; exact hl

theorem defsAt_tops {ns : List Str} : ∀ {l : List (Nat × PlanDetail)} {st st' : State},
    defsAt l st = .ok st' → Tops ns st.symbols → Tops ns st'.symbols
  | [], _, _, h, hl => by cases h; exact hl
  | p :: l, st, st', h, hl => by
    unfold defsAt at h
    obtain ⟨a, h1, h2⟩ := Outcome.of_bind h
    exact defsAt_tops h2 (visitDefinition_tops h1 hl)

theorem relsAt_tops {ns : List Str} : ∀ {l : List (Nat × PlanDetail)} {st : State},
    (∀ p ∈ l, ∀ t, p.2 = .relation t → t.ref.id ∈ ns) → Tops ns st.symbols →
      Tops ns (relsAt l st).symbols
  | [], _, _, hl => hl
  | p :: l, st, h, hl => by
    unfold relsAt
    refine relsAt_tops (fun q hq => h q (by simp [hq])) ?_
    obtain ⟨n, d⟩ := p
    cases d with
    | relation t =>
      unfold visitRelation
      simp only
      split
      · exact hl
      · refine hl.append ?_
        intro s hs _
        rw [List.mem_singleton.mp hs]
        exact h (n, .relation t) (by simp) t rfl
    | _ => exact hl

theorem rootsAt_tops {ns : List Str} (h1 : rootName ∈ ns) (h2 : rootNamesName ∈ ns) :
    ∀ {l : List (Nat × PlanDetail)} {st : State}, Tops ns st.symbols →
      Tops ns (rootsAt l st).symbols
  | [], _, hl => hl
  | p :: l, st, hl => by
    unfold rootsAt
    refine rootsAt_tops h1 h2 ?_
    obtain ⟨n, d⟩ := p
    cases d with
    | root ns =>
      unfold visitRoot
      simp only
      split
      · exact hl
      · split
        · exact hl
        · refine hl.append ?_
          intro s hs _
          simp only [List.mem_cons, List.not_mem_nil, or_false] at hs
          rcases hs with rfl | rfl
          · exact h1
          · exact h2
    | _ => exact hl

theorem planAt_tops {ns : List Str} {l : List (Nat × PlanDetail)} {st : State}
    (h1 : rootName ∈ ns) (h2 : rootNamesName ∈ ns)
    (h : ∀ p ∈ l, ∀ t, p.2 = .relation t → t.ref.id ∈ ns) (hp : planAt l = .ok st) :
    Tops ns st.symbols := by
  unfold planAt at hp
  obtain ⟨a, h3, hp⟩ := Outcome.of_map hp
  subst hp
  exact rootsAt_tops h1 h2 (relsAt_tops h (defsAt_tops h3 fun s hs => by cases hs))

end Verif.Sec
