import Verif.Lemmas.WholeCols
import Verif.Lemmas.WholeQueries
import Verif.Lemmas.WholeLoose

/-! # The fields of the relations of a tree with names, for the converter -/

namespace Verif.Whole

open Verif Verif.Expr Verif.Schema

/-! ## Columns of a relation -/

/-- The column of an input that is referred to. -/
def colAt (f : List Col) (i : Int) : Col := (f[i.toNat]?).getD default

/-- The columns of the expressions of a project, from number `k` on. -/
def projectCols (n : Names) (f : List Col) (k : Nat) : List PbExpr → List Col
  | [] => []
  | e :: es =>
    (match Rel.fieldOf e with
      | some i => colAt f i
      | none => .computed n.rel k ((n.computed[k]?).getD [])) :: projectCols n f (k + 1) es

def measureCols (n : Names) (m : Nat) : List Col :=
  (List.range m).map fun k => .measure n.rel k ((n.measures[k]?).getD [])

/-- The columns a relation makes. -/
def newCols (n : Names) (f : List Col) : Rel.Body → List Col
  | .project es => projectCols n f 0 es
  | .aggregate gs ms => (grouped gs.flatten).map (colAt f) ++ measureCols n ms.length
  | _ => []

def tableCols (n : Names) (o : Own) : List Col :=
  o.columns.zipIdx.map fun c => .column n.rel (n.schema.getD []) c.2 c.1

/-- The columns of a relation. -/
def outCols (n : Names) (o : Own) (f : List Col) : List Col :=
  match o.body with
  | .read _ _ _ _ _ => tableCols n o
  | .project _ =>
    if o.emit = [] then f ++ newCols n f o.body else pick (f ++ newCols n f o.body) o.emit
  | .aggregate _ _ => if o.emit = [] then newCols n f o.body else pick (newCols n f o.body) o.emit
  | _ => f

mutual
def cols : NRel → List Col
  | .node n o kids => outCols n o (inputsIn o.body (colsL kids)).flatten
def colsL : List NRel → List (List Col)
  | [] => []
  | r :: rs => cols r :: colsL rs
end

/-- The columns of the inputs of a relation. -/
def inCols (o : Own) (kids : List NRel) : List Col := (inputsIn o.body (colsL kids)).flatten

mutual
/-- The tree without names. -/
def erase : NRel → BRel
  | .node _ o ins => .node o (eraseL ins)
def eraseL : List NRel → List BRel
  | [] => []
  | r :: rs => erase r :: eraseL rs
end

theorem eraseL_length : ∀ rs, (eraseL rs).length = rs.length
  | [] => rfl
  | _ :: rs => by simp [eraseL, eraseL_length rs]

/-! ## Kinds -/

theorem colAt_kind (f : List Col) (i : Int) :
    (colAt f i).isColumn = ((f.map Col.isColumn)[i.toNat]?).getD false := by
  unfold colAt
  rw [List.getElem?_map]
  cases f[i.toNat]? <;> rfl

theorem pick_map {α β : Type} (g : α → β) (l : List α) (is : List Int) :
    (pick l is).map g = pick (l.map g) is := by
  unfold pick
  rw [List.map_filterMap]
  congr 1
  funext i
  rw [List.getElem?_map]

theorem projectCols_kinds (n : Names) (f : List Col) : ∀ es k,
    (projectCols n f k es).map Col.isColumn = madeKinds (f.map Col.isColumn) (.project es)
  | [], _ => rfl
  | e :: es, k => by
    have ih := projectCols_kinds n f es (k + 1)
    simp only [madeKinds] at ih ⊢
    simp only [projectCols, List.map_cons, ih]
    congr 1
    cases Rel.fieldOf e with
    | some i => exact colAt_kind f i
    | none => rfl

theorem projectCols_length (n : Names) (f : List Col) : ∀ es k,
    (projectCols n f k es).length = es.length
  | [], _ => rfl
  | e :: es, k => by simp [projectCols, projectCols_length n f es (k + 1)]

theorem newCols_kinds (n : Names) (f : List Col) (b : Rel.Body) :
    (newCols n f b).map Col.isColumn = madeKinds (f.map Col.isColumn) b := by
  cases b with
  | project es => exact projectCols_kinds n f es 0
  | aggregate gs ms =>
    simp only [newCols, madeKinds, List.map_append, List.map_map, measureCols]
    congr 1
    · unfold grouped
      rw [List.map_filterMap]
      congr 1
      funext e
      cases Rel.fieldOf e with
      | some i => simp only [Option.map_some, Function.comp, colAt_kind]
      | none => rfl
    · apply List.ext_getElem <;> simp [Col.isColumn]
  | _ => rfl

theorem outCols_kinds (n : Names) (o : Own) (f : List Col) :
    (outCols n o f).map Col.isColumn = outKinds (f.map Col.isColumn) o := by
  have hk := newCols_kinds n f o.body
  obtain ⟨body, emit, schema, source⟩ := o
  unfold outCols outKinds
  cases body with
  | read s t c b p =>
    simp only [tableCols, Own.columns, List.map_map]
    apply List.ext_getElem <;> simp [Col.isColumn]
  | project es =>
    simp only at hk ⊢
    split
    · rw [List.map_append, hk]
    · rw [pick_map, List.map_append, hk]
  | aggregate gs ms =>
    simp only at hk ⊢
    split
    · rw [hk]
    · rw [pick_map, hk]
  | _ => rfl

mutual
theorem cols_kinds : ∀ r, (cols r).map Col.isColumn = kinds (erase r)
  | .node n o kids => by
    rw [cols, erase, kinds, outCols_kinds, List.map_flatten, ← inputsIn_map, colsL_kinds kids]
theorem colsL_kinds : ∀ rs, (colsL rs).map (List.map Col.isColumn) = kindsL (eraseL rs)
  | [] => rfl
  | r :: rs => by rw [colsL, eraseL, kindsL, List.map_cons, cols_kinds r, colsL_kinds rs]
end

theorem inCols_kinds (o : Own) (kids : List NRel) :
    (inCols o kids).map Col.isColumn = inKinds o (eraseL kids) := by
  unfold inCols inKinds
  rw [List.map_flatten, ← inputsIn_map, colsL_kinds kids]

theorem inCols_length (o : Own) (kids : List NRel) :
    (inCols o kids).length = (inKinds o (eraseL kids)).length := by
  rw [← inCols_kinds, List.length_map]

theorem newCols_length (n : Names) (o : Own) (kids : List NRel) :
    (newCols n (inCols o kids) o.body).length =
      (madeKinds (inKinds o (eraseL kids)) o.body).length := by
  rw [← inCols_kinds, ← newCols_kinds n, List.length_map]

theorem colsL_map : ∀ rs : List NRel, colsL rs = rs.map cols
  | [] => rfl
  | r :: rs => by rw [colsL, colsL_map rs]; rfl

theorem inCols_flatMap (o : Own) (kids : List NRel) :
    inCols o kids = (inputsIn o.body kids).flatMap cols := by
  unfold inCols
  rw [colsL_map, inputsIn_map]
  rfl

/-! ## Fields in the table of the converter -/

/-- The fields of a relation. -/
def convData (n : Names) (o : Own) (f : List Col) : RelData :=
  match o.body with
  | .read _ _ _ _ _ => ⟨false, (tableCols n o).map Col.conv, [], []⟩
  | .project _ =>
    ⟨false, f.map Col.conv, (newCols n f o.body).map Col.conv,
      (pick (f ++ newCols n f o.body) o.emit).map Col.conv⟩
  | .aggregate _ _ =>
    ⟨true, f.map Col.conv, (newCols n f o.body).map Col.conv, (outCols n o f).map Col.conv⟩
  | _ => ⟨false, f.map Col.conv, [], []⟩

mutual
def topData : NRel → RelData
  | .node n o kids => convData n o (inCols o kids)
end

mutual
/-- The relations of the tree, the inputs before the relation itself. -/
def nodeList : NRel → List Node
  | .node n o kids => nodeListL kids ++ [⟨n, o, convData n o (inCols o kids)⟩]
def nodeListL : List NRel → List Node
  | [] => []
  | r :: rs => nodeList r ++ nodeListL rs
end

variable {lib : Literal.Lib} {fn : Known}

theorem pick_at? {α : Type} (l : List α) {is : List Int} (h : ∀ i ∈ is, 0 ≤ i) :
    is.filterMap (at? l) = pick l is := by
  unfold pick
  induction is with
  | nil => rfl
  | cons i is ih =>
    have h0 := h i (by simp)
    rw [List.filterMap_cons, List.filterMap_cons, ih fun j hj => h j (by simp [hj]), at?,
      if_neg (by omega)]

theorem pick_ne_nil {α : Type} {l : List α} {is : List Int} (hne : is ≠ [])
    (h : ∀ i ∈ is, i.toNat < l.length) : pick l is ≠ [] := by
  cases is with
  | nil => exact absurd rfl hne
  | cons i is =>
    intro hp
    have hi := h i (by simp)
    unfold pick at hp
    rw [List.filterMap_cons, List.getElem?_eq_getElem hi] at hp
    simp at hp

theorem colAt_some {f : List Col} {i : Int} (h0 : 0 ≤ i) (h : i < f.length) :
    f[i.toNat]? = some (colAt f i) := by
  unfold colAt
  rw [List.getElem?_eq_getElem (by omega)]
  rfl

theorem vecAt_conv {f : List Col} {i : Int} (h0 : 0 ≤ i) (h : i < f.length)
    (hl : f.length < 2147483648) :
    asSize i < (f.map Col.conv).length ∧
      vecAt (f.map Col.conv) (asSize i) = .ok (colAt f i).conv := by
  apply vecAt_asSize
  · unfold at?
    rw [if_neg (by omega), List.getElem?_map, colAt_some h0 h]
    rfl
  · simpa using hl

/-- The expressions of a project. -/
theorem projectBinary_cols (n : Names) (f : List Col) (hl : f.length < 2147483648) :
    ∀ (es : List PbExpr) (k : Nat) (acc : List Field),
      (∀ e ∈ es, ∀ i, Rel.fieldOf e = some i → 0 ≤ i ∧ i < f.length) →
      projectBinary n.naming n.rel (f.map Col.conv) k (es.map itemOf) (acc, []) =
        .ok (acc ++ (projectCols n f k es).map Col.conv, [])
  | [], k, acc, _ => by simp [projectBinary, projectCols]
  | e :: es, k, acc, h => by
    have ih := fun acc => projectBinary_cols n f hl es (k + 1) acc
      (fun e he => h e (List.mem_cons_of_mem _ he))
    rw [List.map_cons, itemOf, reference_said]
    cases hf : Rel.fieldOf e with
    | some i =>
      obtain ⟨h0, h1⟩ := h e (by simp) i hf
      obtain ⟨hs, hv⟩ := vecAt_conv h0 h1 hl
      simp only [projectBinary, if_pos hs, hv, Outcome.bind, ih]
      simp [projectCols, hf]
    | none =>
      simp only [projectBinary, ih]
      simp [projectCols, hf, Names.naming, Col.conv]

/-- What the converter makes of a grouping expression. -/
theorem groupOf_fits {e : PbExpr} {ref ref' : Int → Prop}
    (h : Said lib fn ref e ∨ ∃ n, e = .field (.field n false) .root ∧ ref' n) :
    groupOf e = match Rel.fieldOf e with
      | some i => .ref i
      | none => .other [] := by
  rcases h with h | ⟨n, rfl, -⟩
  · cases e with
    | field seg base =>
      cases seg with
      | other => simp [Said, Told] at h
      | field n b => rfl
    | masked b => simp [Said, Told] at h
    | noReference b => simp [Said, Told] at h
    | _ => rfl
  · rfl

theorem groupBinary_cols (f : List Col) (hl : f.length < 2147483648) {ref ref' : Int → Prop} :
    ∀ (es : List PbExpr) (acc : List Field),
      (∀ e ∈ es, Said lib fn ref e ∨ ∃ n, e = .field (.field n false) .root ∧ ref' n) →
      (∀ i ∈ grouped es, 0 ≤ i ∧ i < f.length) →
      groupBinary (f.map Col.conv) (es.map groupOf) (acc, []) =
        .ok (acc ++ ((grouped es).map (colAt f)).map Col.conv, [])
  | [], acc, _, _ => by simp [groupBinary, grouped]
  | e :: es, acc, h, hi => by
    have hg : grouped (e :: es) = (Rel.fieldOf e).toList ++ grouped es := by
      unfold grouped
      rw [List.filterMap_cons]
      cases Rel.fieldOf e <;> rfl
    rw [hg] at hi ⊢
    have ih := fun acc => groupBinary_cols f hl es acc
      (fun e he => h e (List.mem_cons_of_mem _ he)) (fun i him => hi i (by simp [him]))
    rw [List.map_cons, groupOf_fits (h e (by simp))]
    cases hf : Rel.fieldOf e with
    | some i =>
      obtain ⟨h0, h1⟩ := hi i (by simp [hf])
      obtain ⟨hs, hv⟩ := vecAt_conv h0 h1 hl
      simp only [groupBinary]
      rw [if_neg (by omega), hv]
      simp only [Outcome.bind, ih]
      simp
    | none =>
      simp only [groupBinary, ih]
      simp

theorem measureFields_cols (n : Names) (m : Nat) :
    measureFields n.naming n.rel m = (measureCols n m).map Col.conv := by
  simp only [measureFields, measureCols, List.map_map]
  rfl

/-- The references of a project. -/
theorem project_refs {f : List Bool} {emit : List Int} {es : List PbExpr}
    (h : BodyFits lib fn f emit (.project es)) :
    ∀ e ∈ es, ∀ i, Rel.fieldOf e = some i → 0 ≤ i ∧ i < f.length := by
  intro e he i hi
  exact (said_field (h.1 e he).1 (h.1 e he).2.2 hi).2

theorem grouped_mem {g : List PbExpr} {i : Int} (h : i ∈ grouped g) :
    ∃ e ∈ g, Rel.fieldOf e = some i := by
  unfold grouped at h
  simpa using h

/-- The references of an aggregate. -/
theorem aggregate_refs {f : List Bool} {emit : List Int} {g : List PbExpr} {ms : List Rel.PbMeasure}
    (h : BodyFits lib fn f emit (.aggregate [g] ms)) :
    ∀ i ∈ grouped g, 0 ≤ i ∧ i < f.length := by
  intro i hi
  obtain ⟨e, he, hi⟩ := grouped_mem hi
  rcases h.1 e he with hs | ⟨n, rfl, hn⟩
  · exact (said_field hs.1 hs.2.2 hi).2.1
  · simp only [Rel.fieldOf, Option.some.injEq] at hi
    exact hi ▸ hn

theorem apply_in {d : RelData} {is : List Int} (hd : Unmapped d)
    (hl : (unmapped d).length < 2147483648)
    (hi : ∀ i ∈ is, 0 ≤ i ∧ i < (unmapped d).length) (hne : is ≠ []) :
    applyBinary d is = .ok ({ d with output := pick (unmapped d) is }, []) := by
  rw [applyBinary_eq_text hd, applyText_eq hd hne
    (fun i h => ⟨by have := hi i h; omega, by have := hi i h; omega⟩) hl,
    pick_at? _ fun i h => (hi i h).1]
  congr 2
  rw [List.filter_eq_nil_iff]
  intro i h
  have := hi i h
  simp [InRange, this]

/-- The fields the converter gives to a relation. -/
theorem stepBinary_cols {n : Names} {o : Own} {f : List Col} {ins : List RelData}
    (hb : BodyFits lib fn (f.map Col.isColumn) o.emit o.body)
    (hl : f.length + (newCols n f o.body).length < 2147483648)
    (hi : inputFields ins = f.map Col.conv) :
    stepBinary n.naming n.rel (opOf n o) o.emit ins = .ok (convData n o f, []) := by
  have hlen : (f.map Col.isColumn).length = f.length := by simp
  obtain ⟨body, emit, schema, source⟩ := o
  have hpass : ∀ d : RelData, emit = [] → applyBinary d emit = .ok (d, []) := by
    rintro d rfl
    rfl
  cases body with
  | read s t c b p =>
    have he : emit = [] := by
      simp only [BodyFits] at hb
      split at hb <;> simp_all
    simp only [stepBinary, opOf, localBinary, Outcome.bind, hpass _ he, convData, tableCols,
      Own.columns, columnFields, List.map_map, List.append_nil]
    rfl
  | filter c => simp only [stepBinary, opOf, localBinary, Outcome.bind, hpass _ hb.1, hi, convData,
      List.append_nil]
  | fetch a c =>
    have he : emit = [] := by
      simp only [BodyFits] at hb
      split at hb <;> simp_all
    simp only [stepBinary, opOf, localBinary, Outcome.bind, hpass _ he, hi, convData,
      List.append_nil]
  | sort ss => simp only [stepBinary, opOf, localBinary, Outcome.bind, hpass _ hb.1, hi, convData,
      List.append_nil]
  | join t c p =>
    have he : emit = [] := by
      simp only [BodyFits] at hb
      split at hb <;> simp_all
    simp only [stepBinary, opOf, localBinary, Outcome.bind, hpass _ he, hi, convData,
      List.append_nil]
  | cross => simp only [stepBinary, opOf, localBinary, Outcome.bind, hpass _ hb, hi, convData,
      List.append_nil]
  | other => simp [BodyFits] at hb
  | project es =>
    simp only [newCols] at hl
    rw [projectCols_length] at hl
    have hp := projectBinary_cols n f (by omega) es 0 []
      (fun e he i h => by have := project_refs hb e he i h; rwa [hlen] at this)
    simp only [stepBinary, opOf, localBinary, hi, hp, Outcome.bind, List.nil_append, convData,
      newCols]
    by_cases he : emit = []
    · rw [hpass _ he, he]
      simp [pick]
    · rw [apply_in (by simp [Unmapped]) (by
        simp only [unmapped, Bool.false_eq_true, if_false, List.length_append, List.length_map]
        rw [projectCols_length]; omega)
        (fun i h => by
          have := hb.2.2.1 i h
          rw [hlen] at this
          simp only [unmapped, Bool.false_eq_true, if_false, List.length_append, List.length_map]
          rw [projectCols_length]
          obtain ⟨h0, h1⟩ := this
          exact ⟨h0, by exact_mod_cast h1⟩) he]
      simp only [unmapped, Bool.false_eq_true, if_false, pick_map, List.map_append]
  | aggregate gs ms =>
    have hg : ∃ g, gs = [g] := by
      simp only [BodyFits] at hb
      split at hb <;> simp_all
    obtain ⟨g, rfl⟩ := hg
    simp only [newCols, List.flatten_cons, List.flatten_nil, List.append_nil, List.length_append,
      List.length_map] at hl
    have hgr := groupBinary_cols (lib := lib) (fn := fn) f (by omega) g [] (fun e he => (hb.1 e he).imp (·.1) id)
      (fun i h => by have := aggregate_refs hb i h; rwa [hlen] at this)
    simp only [stepBinary, opOf, localBinary, hi, List.flatten_cons, List.flatten_nil,
      List.append_nil, hgr, Outcome.bind, List.nil_append, measureFields_cols, List.length_map,
      convData, newCols, outCols, List.map_append]
    by_cases he : emit = []
    · rw [hpass _ he, if_pos he]
      simp
    · rw [if_neg he, apply_in (by simp [Unmapped]) (by
        simp only [unmapped, if_true, List.length_append, List.length_map]
        omega)
        (fun i h => by
          have := hb.2.2.2.2.2 i h
          refine ⟨this.1, ?_⟩
          have hk := newCols_kinds n f (.aggregate [g] ms)
          obtain ⟨h2, -⟩ := List.getElem?_eq_some_iff.mp this.2
          rw [← hk] at h2
          simp only [newCols, List.flatten_cons, List.flatten_nil, List.append_nil,
            List.length_append, List.length_map] at h2
          simp only [unmapped, if_true, List.length_append, List.length_map]
          omega) he]
      simp only [unmapped, if_true, pick_map, List.map_append]

theorem exposed_conv {n : Names} {o : Own} {f : List Col}
    (hb : BodyFits lib fn (f.map Col.isColumn) o.emit o.body) :
    exposed (convData n o f) = (outCols n o f).map Col.conv := by
  have hk := newCols_kinds n f o.body
  have hlen : (f.map Col.isColumn).length = f.length := by simp
  obtain ⟨body, emit, schema, source⟩ := o
  unfold convData outCols exposed
  cases body with
  | project es =>
    simp only
    by_cases he : emit = []
    · simp [he, pick]
    · have hp : pick (f ++ newCols n f (.project es)) emit ≠ [] := by
        apply pick_ne_nil he
        intro i h
        have := hb.2.2.1 i h
        rw [hlen] at this
        simp only [newCols, List.length_append, projectCols_length]
        obtain ⟨h0, h1⟩ := this
        omega
      rw [if_neg (by simpa using hp), if_neg he]
  | aggregate gs ms =>
    have hg : ∃ g, gs = [g] := by
      simp only [BodyFits] at hb
      split at hb <;> simp_all
    obtain ⟨g, rfl⟩ := hg
    simp only
    by_cases he : emit = []
    · rw [if_pos he, if_neg]
      have := hb.2.2.2.1
      simp only [newCols, List.flatten_cons, List.flatten_nil, List.append_nil, measureCols]
      rcases this with h | h
      · cases hgr : grouped g with
        | nil => exact absurd hgr h
        | cons a b => simp
      · cases ms with
        | nil => exact absurd rfl h
        | cons a b => simp [List.range_succ]
    · rw [if_neg he, if_neg]
      have hp : pick (newCols n f (.aggregate [g] ms)) emit ≠ [] := by
        apply pick_ne_nil he
        intro i h
        have := hb.2.2.2.2.2 i h
        obtain ⟨h2, -⟩ := List.getElem?_eq_some_iff.mp this.2
        rw [← hk, List.length_map] at h2
        exact h2
      simpa using hp
  | _ => simp

theorem inputFields_cons (d : RelData) (ds : List RelData) :
    inputFields (d :: ds) = exposed d ++ inputFields ds := by simp [inputFields]

mutual
theorem nodes_ok : ∀ r, TreeLoose lib fn (erase r) →
    nodes r = .ok (nodeList r, topData r) ∧ exposed (topData r) = (cols r).map Col.conv
  | .node n o ins, h => by
    rw [erase, TreeLoose] at h
    obtain ⟨hb, -, -, hl, hi⟩ := h
    rw [← newCols_length n, ← inCols_length] at hl
    rw [← inCols_kinds] at hb
    obtain ⟨ds, h1, h2⟩ := nodesL_ok ins hi
    have h3 : inputFields (inputsIn o.body ds) = (inCols o ins).map Col.conv := by
      rw [inputFields, List.flatMap_def, ← inputsIn_map, h2, inCols, List.map_flatten, inputsIn_map]
    refine ⟨?_, ?_⟩
    · simp only [nodes, h1, Outcome.bind, stepBinary_cols hb hl h3]
      simp [nodeList, topData]
    · rw [topData, cols, exposed_conv hb]
      rfl
theorem nodesL_ok : ∀ rs, TreesLoose lib fn (eraseL rs) →
    ∃ ds, nodesL rs = .ok (nodeListL rs, ds) ∧
      ds.map exposed = (colsL rs).map (List.map Col.conv)
  | [], _ => ⟨[], rfl, rfl⟩
  | r :: rs, h => by
    rw [eraseL, TreesLoose] at h
    obtain ⟨h1, h2⟩ := nodes_ok r h.1
    obtain ⟨ds, h3, h4⟩ := nodesL_ok rs h.2
    refine ⟨topData r :: ds, ?_, ?_⟩
    · simp only [nodesL, h1, h3, Outcome.bind, Outcome.map]
      simp [nodeListL]
    · rw [List.map_cons, h2, h4, colsL, List.map_cons]
end

/-! ## The names of subqueries -/

theorem projectCols_relabel {g : Nat → Option Str} (n : Names) (f : List Col) :
    ∀ (es : List PbExpr) (k j : Nat),
      projectCols n f k (relabelList g j es) = projectCols n f k es
  | [], _, _ => rfl
  | e :: es, k, j => by
    rw [relabelList, projectCols, projectCols, fieldOf_relabel, projectCols_relabel n f es]

theorem newCols_relabel (g : Nat → Option Str) (n : Names) (f : List Col) (b : Rel.Body) :
    newCols n f (relabelBody g b) = newCols n f b := by
  cases b <;> simp only [relabelBody, newCols]
  case project es => exact projectCols_relabel n f es 0 0
  case aggregate gs ms => rw [relabelGroups_flatten, grouped_relabel, relabelMeasures_length]

theorem fill_columns (o : Own) (m : Names) : (o.fill m).columns = o.columns := rfl

theorem outCols_fill (n m : Names) (o : Own) (f : List Col) :
    outCols n (o.fill m) f = outCols n o f := by
  have h := newCols_relabel (total (nth m.queries)) n f o.body
  obtain ⟨b, emit, schema, source⟩ := o
  cases b <;> simp only [Own.fill, fillBody, relabelBody, outCols] at h ⊢ <;>
    first | rfl | (rw [h]; done) | (rw [h]; rfl)

theorem convData_fill (n m : Names) (o : Own) (f : List Col) :
    convData n (o.fill m) f = convData n o f := by
  have h := newCols_relabel (total (nth m.queries)) n f o.body
  have h' := outCols_fill n m o f
  obtain ⟨b, emit, schema, source⟩ := o
  cases b <;> simp only [Own.fill, fillBody, relabelBody, convData] at h h' ⊢ <;>
    first | rw [h] | rfl
  rw [h']

end Verif.Whole
