import Verif.Lemmas.SectionsTables

/-! # The symbol table that is read from the sections of a plan -/

namespace Verif.Sec

open Verif Verif.TyPb Verif.Tree Verif.Literal Verif.Lex Verif.Parse Verif.Expr
open Verif.Rel (Line GoodLine linesText linesToks openTok closeTok semiTok goesOn)

/-! ## Definitions -/

/-- The symbols of a definition at a place. -/
def groupOf (loc : Nat) : Def → List Symbol
  | .schema n s => ⟨n, loc, .schema⟩ :: (s.names.zip s.types).map fun c => ⟨c.1, loc, .column c.2⟩
  | .source n (.named ns) => ⟨n, loc, .source .named⟩ :: ns.map fun m => ⟨m, loc, .table⟩
  | .source n (.files fs) =>
    ⟨n, loc, .source .files⟩ :: fs.map fun f => ⟨fileKey f, loc, .file f⟩
  | .source n .virtual => [⟨n, loc, .source .virtual⟩]
  | .source n .extension => [⟨n, loc, .source .extension⟩]
  | .space b => spaceSymbols loc (Ext.treeOf b)

def groups : Nat → List Def → List Symbol
  | _, [] => []
  | k, d :: ds => groupOf k d ++ groups (k + 1) ds

/-- What a definition adds to the functions. -/
def extAfter (e : Ext.State) : Def → Ext.State
  | .space b => Ext.visitSpace e (Ext.treeOf b)
  | _ => e

/-- The text of a definition. -/
def defText : Def → Outcome Str
  | .schema n s => .ok (schemaText n s)
  | .source n s => sourceText n s
  | .space b => .ok (Ext.blockText b)

/-- The details that are definitions. -/
def IsDef : PlanDetail → Prop
  | .schema _ _ => True
  | .source _ => True
  | .space _ => True
  | _ => False

theorem readable_block {b : Ext.Block} (h : BlockOk b) : Ext.Readable b :=
  ⟨h.uri, h.symbols, h.names⟩

/-- A name does not begin with a brace. -/
theorem name_ne_brace {n x : Str} (h : Ext.IsName n) : n ≠ '{' :: x := by
  rintro rfl
  obtain ⟨ts, h1, h2⟩ := h
  have h3 := lexes_sign '{' .leftBrace (by simp [signs]) rfl Any x trivial
  rw [show ['{'] ++ x = '{' :: x from rfl, h1] at h3
  cases hx : lex x with
  | none => rw [hx] at h3; cases h3
  | some r =>
    rw [hx] at h3
    injection h3 with h3
    subst h3
    cases h2

theorem name_ne_fileKey {n : Str} (h : Ext.IsName n) (f : File) : n ≠ fileKey f :=
  name_ne_brace h

theorem Fresh.files : ∀ {ds : List Def} {seen : List Str}, Fresh seen ds → FreshFiles seen ds
  | [], _, _ => trivial
  | d :: ds, seen, h => by
    refine ⟨fun k hk => h.1 k ?_, Fresh.files h.2⟩
    cases d with
    | source n s => cases s <;> simp_all [Def.fileKeys, Def.keys]
    | _ => simp [Def.fileKeys] at hk

/-- A line of the plan for a definition. -/
structure DefLine (d : Def) (l : Line PlanDetail) : Prop where
  good : GoodLine parsePlanDetail l
  text : defText d = .ok l.text
  isDef : IsDef l.detail
  visit : ∀ loc st, (∀ k ∈ d.fileKeys, k ∉ st.symbols.map (·.name)) →
    visitDefinition loc st l.detail =
      .ok ⟨st.symbols ++ groupOf loc d, extAfter st.ext d, st.errs⟩

theorem exists_defLine {d : Def} (h : DefOk d) : ∃ l, DefLine d l := by
  cases h with
  | @schema n s h =>
    obtain ⟨l, cs, h1, h2, h3, h4⟩ := good_schema h
    refine ⟨l, h1, by rw [h2]; rfl, by rw [h3]; trivial, fun loc st _ => ?_⟩
    rw [h3, visitDefinition, h4]
    simp [Outcome.map, groupOf, extAfter]
  | @source n s hn h =>
    cases h with
    | named names hne hq =>
      cases names with
      | nil => exact absurd rfl hne
      | cons m ms =>
        obtain ⟨l, h1, h2, h3⟩ := good_table hn hq
        refine ⟨l, h1, h2, by rw [h3]; trivial, fun loc st _ => ?_⟩
        rw [h3, visitDefinition, addSource_table]
        rfl
    | files f hf =>
      have hr := hf.reads
      obtain ⟨l, h1, h2, h3⟩ := good_file hn hr.path.1 hr.path.2 hr.format
      refine ⟨l, h1, h2, by rw [h3]; trivial, fun loc st hk => ?_⟩
      rw [h3, visitDefinition, addSource_file hr loc st.symbols (by
        intro x hx e
        exact hk (fileKey f) (by simp [Def.fileKeys]) (List.mem_map.mpr ⟨x, hx, e⟩))
        (name_ne_fileKey hn f), hf.kept]
      rfl
  | @space b h =>
    refine ⟨_, good_space (readable_block h), rfl, trivial, fun loc st _ => ?_⟩
    have hu : (Ext.treeOf b).functions.filter (fun f => Ext.lacksType f.name) = [] := by
      rw [List.filter_eq_nil_iff]
      intro f hf
      obtain ⟨g, hg, rfl⟩ := List.mem_map.mp hf
      simp [h.typed g hg]
    rw [visitDefinition, hu]
    simp [groupOf, extAfter]

theorem take_zip {α β : Type} : ∀ (a : List α) (b : List β),
    (a.zip b).map (·.1) = a.take b.length
  | [], _ => by simp
  | _ :: _, [] => by simp
  | x :: a, y :: b => by simp [take_zip a b]

theorem take_zip' {α β : Type} : ∀ (a : List α) (b : List β),
    (a.zip b).map (·.2) = b.take a.length
  | [], _ => by simp
  | _ :: _, [] => by simp
  | x :: a, y :: b => by simp [take_zip' a b]

theorem groupOf_names (loc : Nat) (d : Def) : (groupOf loc d).map (·.name) = d.names := by
  cases d with
  | schema n s =>
    simp only [groupOf, Def.names, kept, List.map_cons, List.map_map, Function.comp_def]
    rw [← take_zip]
  | source n s => cases s <;> simp [groupOf, Def.names, Function.comp_def]
  | space b =>
    cases hb : b.uri <;>
      simp [groupOf, Def.names, spaceSymbols, Ext.treeOf, Function.comp_def, hb]

theorem groupOf_loc (loc : Nat) (d : Def) : ∀ x ∈ groupOf loc d, x.loc = loc := by
  intro x hx
  cases d with
  | schema n s =>
    simp only [groupOf, List.mem_cons, List.mem_map] at hx
    rcases hx with rfl | ⟨c, _, rfl⟩ <;> rfl
  | source n s =>
    cases s <;> simp only [groupOf, List.mem_cons, List.mem_map, List.not_mem_nil, or_false] at hx
    · rcases hx with rfl | ⟨c, _, rfl⟩ <;> rfl
    · rcases hx with rfl | ⟨c, _, rfl⟩ <;> rfl
    · rw [hx]
    · rw [hx]
  | space b =>
    simp only [groupOf, spaceSymbols, List.mem_append, List.mem_map] at hx
    rcases hx with ⟨c, _, rfl⟩ | ⟨c, _, rfl⟩ <;> rfl

theorem groups_loc : ∀ (ds : List Def) (k : Nat), ∀ x ∈ groups k ds, k ≤ x.loc
  | [], _, x, hx => by simp [groups] at hx
  | d :: ds, k, x, hx => by
    rcases List.mem_append.mp hx with hx | hx
    · rw [groupOf_loc k d x hx]; exact Nat.le_refl _
    · have := groups_loc ds (k + 1) x hx; omega

/-- What is looked up by location is found in the definition at that location. -/
theorem filterMap_groups {β : Type} (F : Symbol → Option β) : ∀ (ds : List Def) (k i : Nat)
    (d : Def), ds[i]? = some d → (∀ x, x.loc ≠ k + i → F x = none) →
    (groups k ds).filterMap F = (groupOf (k + i) d).filterMap F
  | [], _, _, _, h, _ => by simp at h
  | e :: ds, k, 0, d, h, hF => by
    simp only [List.getElem?_cons_zero, Option.some.injEq] at h
    subst h
    have : (groups (k + 1) ds).filterMap F = [] := by
      rw [List.filterMap_eq_nil_iff]
      intro x hx
      have := groups_loc ds (k + 1) x hx
      exact hF x (by omega)
    simp [groups, List.filterMap_append, this]
  | e :: ds, k, i + 1, d, h, hF => by
    rw [List.getElem?_cons_succ] at h
    have ih := filterMap_groups F ds (k + 1) i d h (fun x hx => hF x (by omega))
    have : (groupOf k e).filterMap F = [] := by
      rw [List.filterMap_eq_nil_iff]
      intro x hx
      exact hF x (by rw [groupOf_loc k e x hx]; omega)
    rw [groups, List.filterMap_append, this, List.nil_append, ih]
    congr 2
    omega

/-! ## Looking up -/

theorem fresh_keys : ∀ (ds : List Def) (seen : List Str), Fresh seen ds →
    ∀ d ∈ ds, ∀ k ∈ d.keys, k ∉ seen
  | [], _, _, d, hd, _, _ => by simp at hd
  | e :: ds, seen, h, d, hd, k, hk => by
    rcases List.mem_cons.mp hd with rfl | hd
    · exact h.1 k hk
    · have := fresh_keys ds _ h.2 d hd k hk
      intro hs
      exact this (List.mem_append.mpr (.inl hs))

theorem lookup_append_left {a b : List Symbol} {n : Str} {s : Symbol} (h : lookup a n = some s) :
    lookup (a ++ b) n = some s := by
  unfold lookup at *
  rw [List.find?_append, h]
  rfl

theorem lookup_append_right {a b : List Symbol} {n : Str} (h : n ∉ a.map (·.name)) :
    lookup (a ++ b) n = lookup b n := by
  unfold lookup
  rw [List.find?_append]
  have : a.find? (fun s => decide (s.name = n)) = none := by
    rw [List.find?_eq_none]
    intro x hx
    simp only [decide_eq_true_eq]
    intro e
    exact h (List.mem_map.mpr ⟨x, hx, e⟩)
  rw [this]
  rfl

theorem lookup_none {a : List Symbol} {n : Str} (h : n ∉ a.map (·.name)) : lookup a n = none := by
  have := lookup_append_right (b := []) h
  rw [List.append_nil] at this
  rw [this]
  rfl

/-- The first symbol of a definition is found by its name. -/
theorem lookup_groups : ∀ (ds : List Def) (seen : List Str) (k i : Nat) (d : Def),
    Fresh seen ds → ds[i]? = some d → ∀ x xs, groupOf (k + i) d = x :: xs → x.name ∈ d.keys →
    lookup (groups k ds) x.name = some x
  | [], _, _, _, _, _, h, _, _, _, _ => by simp at h
  | e :: ds, seen, k, 0, d, hf, h, x, xs, hg, hk => by
    simp only [List.getElem?_cons_zero, Option.some.injEq] at h
    subst h
    rw [Nat.add_zero] at hg
    rw [groups, hg]
    simp [lookup]
  | e :: ds, seen, k, i + 1, d, hf, h, x, xs, hg, hk => by
    rw [List.getElem?_cons_succ] at h
    have hg' : groupOf (k + 1 + i) d = x :: xs := by
      rw [← hg]; congr 1; omega
    have ih := lookup_groups ds _ (k + 1) i d hf.2 h x xs hg' hk
    have hn := fresh_keys ds _ hf.2 d (List.mem_of_getElem? h) _ hk
    rw [groups, lookup_append_right, ih]
    rw [groupOf_names]
    exact fun hm => hn (List.mem_append.mpr (.inr hm))

theorem groups_names : ∀ (ds : List Def) (k : Nat) (n : Str),
    n ∈ (groups k ds).map (·.name) → ∃ d ∈ ds, n ∈ d.names
  | [], _, n, h => by simp [groups] at h
  | d :: ds, k, n, h => by
    rw [groups, List.map_append, groupOf_names] at h
    rcases List.mem_append.mp h with h | h
    · exact ⟨d, by simp, h⟩
    · obtain ⟨e, he, hn⟩ := groups_names ds (k + 1) n h
      exact ⟨e, by simp [he], hn⟩

/-! ## The three passes -/

theorem visitDefinitions_neutral : ∀ (xs ys : List PlanDetail) (k : Nat) (st : State),
    (∀ x ∈ xs, ¬ IsDef x) →
    visitDefinitions k (xs ++ ys) st = visitDefinitions (k + xs.length) ys st
  | [], _, _, _, _ => rfl
  | x :: xs, ys, k, st, h => by
    have hx : visitDefinition k st x = .ok st := by
      have := h x (by simp)
      cases x <;> first | rfl | exact absurd trivial this
    rw [List.cons_append, visitDefinitions, hx]
    simp only [Outcome.bind]
    rw [visitDefinitions_neutral xs ys (k + 1) st fun y hy => h y (by simp [hy])]
    congr 1
    simp only [List.length_cons]; omega

theorem visitDefinitions_defs (line : Def → Line PlanDetail) : ∀ (ds : List Def) (k : Nat)
    (st : State), (∀ d ∈ ds, DefLine d (line d)) → FreshFiles (st.symbols.map (·.name)) ds →
    visitDefinitions k (ds.map fun d => (line d).detail) st =
      .ok ⟨st.symbols ++ groups k ds, ds.foldl extAfter st.ext, st.errs⟩
  | [], _, st, _, _ => by simp [visitDefinitions, groups]
  | d :: ds, k, st, h, hf => by
    rw [List.map_cons, visitDefinitions, (h d (by simp)).visit k st hf.1]
    simp only [Outcome.bind]
    rw [visitDefinitions_defs line ds (k + 1) _ (fun e he => h e (by simp [he])) (by
      simp only [List.map_append, groupOf_names]; exact hf.2)]
    simp [groups]

theorem visitRelations_append : ∀ (xs ys : List PlanDetail) (k : Nat) (st : State),
    visitRelations k (xs ++ ys) st =
      visitRelations (k + xs.length) ys (visitRelations k xs st)
  | [], _, _, _ => rfl
  | x :: xs, ys, k, st => by
    rw [List.cons_append, visitRelations, visitRelations, visitRelations_append xs ys (k + 1)]
    congr 1
    simp only [List.length_cons]; omega

theorem visitRoots_append : ∀ (xs ys : List PlanDetail) (k : Nat) (st : State),
    visitRoots k (xs ++ ys) st = visitRoots (k + xs.length) ys (visitRoots k xs st)
  | [], _, _, _ => rfl
  | x :: xs, ys, k, st => by
    rw [List.cons_append, visitRoots, visitRoots, visitRoots_append xs ys (k + 1)]
    congr 1
    simp only [List.length_cons]; omega

/-- No relation. -/
def NoRelation : PlanDetail → Prop
  | .relation _ => False
  | _ => True

/-- No root. -/
def NoRoot : PlanDetail → Prop
  | .root _ => False
  | _ => True

theorem visitRelations_neutral : ∀ (xs : List PlanDetail) (k : Nat) (st : State),
    (∀ x ∈ xs, NoRelation x) → visitRelations k xs st = st
  | [], _, _, _ => rfl
  | x :: xs, k, st, h => by
    have hx : visitRelation k st x = st := by
      have := h x (by simp)
      cases x <;> first | rfl | exact this.elim
    rw [visitRelations, hx, visitRelations_neutral xs (k + 1) st fun y hy => h y (by simp [hy])]

theorem visitRoots_neutral : ∀ (xs : List PlanDetail) (k : Nat) (st : State),
    (∀ x ∈ xs, NoRoot x) → visitRoots k xs st = st
  | [], _, _, _ => rfl
  | x :: xs, k, st, h => by
    have hx : visitRoot k st x = st := by
      have := h x (by simp)
      cases x <;> first | rfl | exact this.elim
    rw [visitRoots, hx, visitRoots_neutral xs (k + 1) st fun y hy => h y (by simp [hy])]

/-- The symbols of relations. -/
def relSymbols : Nat → List Rel.RelTree → List Symbol
  | _, [] => []
  | k, t :: ts =>
    ⟨t.ref.id, k, .relation (Enum.readRelationType t.type)⟩ :: relSymbols (k + 1) ts

theorem relSymbols_names : ∀ (ts : List Rel.RelTree) (k : Nat),
    (relSymbols k ts).map (·.name) = ts.map fun t => t.ref.id
  | [], _ => rfl
  | t :: ts, k => by simp [relSymbols, relSymbols_names ts]

theorem visitRelations_trees : ∀ (ts : List Rel.RelTree) (k : Nat) (st : State),
    (∀ t ∈ ts, (Enum.readRelationType t.type).isSome) →
    (∀ t ∈ ts, t.ref.id ∉ st.symbols.map (·.name)) → (ts.map fun t => t.ref.id).Nodup →
    visitRelations k (ts.map .relation) st =
      ⟨st.symbols ++ relSymbols k ts, st.ext, st.errs⟩
  | [], _, st, _, _, _ => by simp [visitRelations, relSymbols]
  | t :: ts, k, st, h1, h2, h3 => by
    have hx : visitRelation k st (.relation t) =
        ⟨st.symbols ++ [⟨t.ref.id, k, .relation (Enum.readRelationType t.type)⟩], st.ext,
          st.errs⟩ := by
      have hl := lookup_none (h2 t (by simp))
      have ht := h1 t (by simp)
      obtain ⟨y, hy⟩ := Option.isSome_iff_exists.mp ht
      simp only [visitRelation, hl, hy, List.append_nil]
    rw [List.map_cons, List.nodup_cons] at h3
    rw [List.map_cons, visitRelations, hx, visitRelations_trees ts (k + 1) _
      (fun u hu => h1 u (by simp [hu])) (by
        intro u hu
        simp only [List.map_append, List.map_cons, List.map_nil, List.mem_append,
          List.mem_singleton, not_or]
        refine ⟨h2 u (by simp [hu]), fun e => h3.1 ?_⟩
        rw [← e]
        exact List.mem_map.mpr ⟨u, hu, rfl⟩) h3.2]
    simp [relSymbols]

end Verif.Sec
