import Verif.Lemmas.WholeLabels
import Verif.Prop.Relation

/-! # The relations of a tree can be read -/

namespace Verif.Whole

open Verif Verif.TyPb Verif.Expr Verif.Schema

/-- The functions in both tables, and the reader's symbols. -/
structure Env where
  lib : Literal.Lib
  /-- The new numbers of the functions. -/
  ρ : Nat → Nat
  printName : Nat → Option Str
  readName : Nat → Option Str
  anchor : Str → Option Nat
  relation : Str → Option Bool
  source : Str → Option Rel.SourceSymbol
  schema : Str → Option (List Field)

/-- Where a relation is: the names its expressions get in the first pass, whether it is itself the
relation of a subquery, and the fields of the relations around it, for the printer and the
reader. -/
structure Place where
  names : Nat → Str
  inside : Bool
  up : List RelData
  outer : List RelData

/-- The functions of `fn` have the same names in both tables, and its relations are known. -/
structure EnvFits (e : Env) (fn : Known) : Prop where
  name : ∀ a, fn a → e.readName (e.ρ a) = e.printName a
  ok : ∀ a, fn a → ∃ s, e.readName (e.ρ a) = some s ∧ Ext.IsName s ∧
    s.map toLower ≠ "ifthen".toList ∧ e.anchor s = some (e.ρ a)
  rel : ∀ n, fn.rel n → e.relation n = some true ∧ Ext.IsName n ∧ ¬ "_enum".toList <:+ n

/-- The fields that may be mentioned of the relations around are found there by the reader, and the
columns `cs` do not hide them. -/
def PlaceFits (p : Place) (fn : Known) (cs : List Col) : Prop :=
  ∀ k n, fn.outer k n → ∃ c : Col, c.Ok ∧ 0 ≤ n ∧ n < 2147483648 ∧
    lookup p.up k n.toNat = some c.text ∧ find false p.outer c.text = some (k, n.toNat) ∧
    ∀ x ∈ cs, x.text ≠ c.text

theorem PlaceFits.less {p : Place} {fn : Known} {cs cs' : List Col} (h : PlaceFits p fn cs)
    (hs : ∀ x ∈ cs', x ∈ cs) : PlaceFits p fn cs' := by
  intro k n ho
  obtain ⟨c, h1, h2, h3, h4, h5, h6⟩ := h k n ho
  exact ⟨c, h1, h2, h3, h4, h5, fun x hx => h6 x (hs x hx)⟩

/-- What a relation is printed and read with. -/
def ctx (e : Env) (n : Names) (o : Own) (f : List Col) (fresh : Place) : Rel.RelContext where
  expr := ⟨e.lib, convData n o f :: fresh.up, [], e.readName, e.anchor, e.relation⟩
  name := n.rel
  alternative := fun _ => none
  measureName := fun k => n.measures[k]?
  inside := fresh.inside
  inputs := f.map Col.read
  firstInputs := f.map Col.read
  outer := fresh.outer
  source := e.source
  schema := e.schema
  fresh := fresh.names

/-- The reader knows the source and the schema of a read. -/
def TablesKnown (e : Env) (n : Names) (o : Own) : Prop :=
  isRead o.body = true → ∃ s t, n.source = some s ∧ n.schema = some t ∧
    (e.source s = some .named ∨ e.source s = some .files) ∧
    e.schema t = some ((tableCols n o).map Col.read)

/-- The number the reader finds for a number of an output mapping. -/
def readEmit (n : Names) (f : List Col) (b : Rel.Body) (i : Int) : Int :=
  match b with
  | .project _ =>
    ((findHere true ⟨false, f.map Col.read, (newCols n f b).map Col.read, []⟩
      (colAt (f ++ newCols n f b) i).text).getD 0 : Nat)
  | _ => i

/-- The relation that is read. -/
def newRel (e : Env) (n : Names) (o : Own) (f : List Col) : Rel.PbRel :=
  ⟨renumberBody e.ρ (withNames n o.body), o.emit.map (readEmit n f o.body)⟩

/-- The fields of the relation that is read. -/
def readFields (n : Names) (o : Own) (f : List Col) : RelData :=
  match o.body with
  | .read _ _ _ _ _ => ⟨false, f.map Col.read, [], (tableCols n o).map Col.read⟩
  | .project _ =>
    ⟨false, f.map Col.read, (newCols n f o.body).map Col.read,
      (pick (f ++ newCols n f o.body) o.emit).map Col.read⟩
  | .aggregate _ _ =>
    ⟨true, f.map Col.read, (newCols n f o.body).map Col.read, (outCols n o f).map Col.read⟩
  | _ => ⟨false, f.map Col.read, [], []⟩

variable {e : Env} {fn : Known} {n : Names} {o : Own} {f : List Col} {fresh : Place}
  {lib : Literal.Lib}

theorem agree_at (he : EnvFits e fn) (d : RelData) {c : Context} (hl : c.lib = e.lib)
    (hs : c.scopes = convData n o f :: fresh.up) (hn : c.functionName = e.printName) :
    Agree e.ρ fn c ((ctx e n o f fresh).at d) where
  lib := hl.symm
  scopes := hs.symm
  name := fun a ha => by rw [hn]; exact he.name a ha
  ok := fun a ha => he.ok a ha
  rel := fun m hm => ⟨⟨m, rfl, (he.rel m hm).2.1, (he.rel m hm).1⟩, (he.rel m hm).2.2⟩

/-- The context of the converter, for one relation. -/
def convCtx (e : Env) (n : Names) (o : Own) (f : List Col) (up : List RelData) : Context :=
  ⟨e.lib, convData n o f :: up, [], e.printName, fun _ => none, fun _ => none⟩

theorem agree_conv (he : EnvFits e fn) (d : RelData) :
    Agree e.ρ fn (convCtx e n o f fresh.up) ((ctx e n o f fresh).at d) := agree_at he d rfl rfl rfl

theorem agree_print (he : EnvFits e fn) :
    Agree e.ρ fn (convCtx e n o f fresh.up) (ctx e n o f fresh).expr where
  lib := rfl
  scopes := rfl
  name := fun a ha => he.name a ha
  ok := fun a ha => he.ok a ha
  rel := fun m hm => ⟨⟨m, rfl, (he.rel m hm).2.1, (he.rel m hm).1⟩, (he.rel m hm).2.2⟩

/-- References to fields of the inputs that no generated field hides. -/
def RefOk (f g : List Col) (i : Int) : Prop :=
  InWidth f.length i ∧ ((colAt f i).isColumn = true ∨ ∀ x ∈ g, x.text ≠ (colAt f i).text)

theorem refsOk {g : List Col} {ag : Bool} {out : List Field} (hf : ∀ x ∈ f, x.Ok)
    (hg : ∀ x ∈ g, x.Ok) (ha : Apart f) (hl : f.length + g.length < 2147483648)
    (hd : (convData n o f).fields = f.map Col.conv) (hp : PlaceFits fresh fn (f ++ g)) :
    RefsOk fn (RefOk f g) ((ctx e n o f fresh).at ⟨ag, f.map Col.read, g.map Col.read, out⟩) := by
  refine ⟨fun i hi => ?_, fun k i ho => ?_⟩
  rotate_left
  · obtain ⟨c, hc, h0, h1, h2, h3, h4⟩ := hp k i ho
    refine ⟨⟨h0, h1, .inr ⟨k, rfl⟩, c.text, h2, hc.isColumn_text, ?_⟩, ?_⟩
    · show find false (⟨ag, f.map Col.read, g.map Col.read, out⟩ :: fresh.outer) _ = _
      rw [find, findHere_apart hf hg hc h4, h3]
      rfl
    · intro s hs
      have : s = c.text := by
        have hs' : lookup fresh.up k i.toNat = some s := hs
        rw [h2] at hs'
        exact (Option.some.inj hs').symm
      rw [this]
      exact hc.notEnum
  obtain ⟨⟨h0, h1⟩, h2⟩ := hi
  have hc := colAt_some h0 h1
  have hlk : Schema.lookup (convData n o f :: fresh.up) 0 i.toNat = some (colAt f i).text := by
    rw [Schema.lookup, hd, List.getElem?_append_left (by simp; omega), List.getElem?_map, hc]
    simp [nameOf_conv]
  refine ⟨⟨h0, by omega, .inl rfl, (colAt f i).text, hlk,
    (hf _ (colAt_mem h0 h1)).isColumn_text, ?_⟩, ?_⟩
  · have := find_field (emit := false) (ag := ag) (out := out) hf hg hl ha.nodup hc h2 (by simp)
    show find false (⟨ag, f.map Col.read, g.map Col.read, out⟩ :: fresh.outer) _ = _
    rw [find, this]
    rfl
  · intro s hs
    have : s = (colAt f i).text := by
      rw [show ((ctx e n o f fresh).at ⟨ag, f.map Col.read, g.map Col.read, out⟩).scopes =
        convData n o f :: fresh.up from rfl, hlk] at hs
      exact (Option.some.inj hs).symm
    rw [this]
    exact (hf _ (colAt_mem h0 h1)).notEnum

/-- Expressions over the inputs. -/
theorem exprOk {g : List Col} {ag : Bool} {out : List Field} (he : EnvFits e fn)
    (hp : PlaceFits fresh fn (f ++ g)) (hf : ∀ x ∈ f, x.Ok)
    (hg : ∀ x ∈ g, x.Ok) (ha : Apart f) (hl : f.length + g.length < 2147483648)
    (hd : (convData n o f).fields = f.map Col.conv) {ref : Int → Prop}
    (hr : ∀ i, ref i → RefOk f g i) {x : PbExpr} (hx : Said e.lib fn ref x) :
    Rel.ExprOk (ctx e n o f fresh) ⟨ag, f.map Col.read, g.map Col.read, out⟩ (renumber e.ρ x) := by
  have := readable_said (agree_conv (n := n) (o := o) (f := f) (fresh := fresh) he
    ⟨ag, f.map Col.read, g.map Col.read, out⟩) rfl
    (refsOk (e := e) (n := n) (o := o) (fresh := fresh) hf hg ha hl hd hp) x (said_mono hr x hx)
  exact ⟨this.1, this.2.2⟩

theorem optOk {g : List Col} {ag : Bool} {out : List Field} (he : EnvFits e fn)
    (hp : PlaceFits fresh fn (f ++ g)) (hf : ∀ x ∈ f, x.Ok)
    (hg : ∀ x ∈ g, x.Ok) (ha : Apart f) (hl : f.length + g.length < 2147483648)
    (hd : (convData n o f).fields = f.map Col.conv) {ref : Int → Prop}
    (hr : ∀ i, ref i → RefOk f g i) {x : Option PbExpr} (hx : SaidOpt e.lib fn ref x) :
    Rel.OptOk (ctx e n o f fresh) ⟨ag, f.map Col.read, g.map Col.read, out⟩
      (x.map (renumber e.ρ)) := by
  intro y hy
  obtain ⟨z, hz, rfl⟩ := Option.map_eq_some_iff.mp hy
  exact exprOk he hp hf hg ha hl hd hr (hx z hz)

theorem refOk_nil {i : Int} (h : InWidth f.length i) : RefOk f [] i :=
  ⟨h, .inr (by simp)⟩

/-! ## Projects -/

section project

variable {es : List PbExpr} {emit : List Int} {s : Option Sec.NamedStruct} {t : Option Sec.Source}

theorem aliasOf_project (k : Nat) :
    Rel.aliasOf (ctx e n ⟨.project es, emit, s, t⟩ f fresh) k =
      ((projectCols n f 0 es)[k]?).bind fun c =>
        if c.conv.alias.isEmpty then none else some c.conv.alias := by
  unfold Rel.aliasOf
  simp only [Rel.RelContext.here, ctx, convData, newCols, List.getElem?_map]
  cases (projectCols n f 0 es)[k]? <;> rfl

theorem alias_ok {c : Col} (h : c.Ok) (hne : c.conv.alias.isEmpty = false) :
    MadeUp c.conv.alias := by
  cases c with
  | column _ _ _ _ => simp [Col.conv] at hne
  | computed _ _ _ => exact h
  | measure _ _ _ => simp [Col.conv] at hne

theorem projectName_computed (hr : Ready f n ⟨.project es, emit, s, t⟩) {k : Nat} {x : PbExpr}
    (hx : es[k]? = some x) (hn : Rel.fieldOf x = none) :
    Rel.projectName (ctx e n ⟨.project es, emit, s, t⟩ f fresh) k = (n.computed[k]?).getD [] := by
  have hm : MadeUp ((n.computed[k]?).getD []) := by
    have := itemLabels_mem (computed := n.computed) (k := 0) hx hn
    rw [Nat.zero_add] at this
    exact hr.made _ (ownLabels_items rfl _ this)
  unfold Rel.projectName
  rw [aliasOf_project, projectCols_getElem?, hx]
  simp only [Option.map_some, hn, Option.bind_some, Nat.zero_add]
  rw [if_neg (by simpa [Col.conv] using hm.ne_nil)]
  rfl

theorem projectFields_from (hr : Ready f n ⟨.project es, emit, s, t⟩)
    (hi : ∀ e ∈ es, ∀ i, Rel.fieldOf e = some i → 0 ≤ i ∧ i < f.length) :
    ∀ (pre suf : List PbExpr), pre ++ suf = es →
      Rel.projectFields (ctx e n ⟨.project es, emit, s, t⟩ f fresh) pre.length
        (suf.map (renumber e.ρ)) = (projectCols n f pre.length suf).map Col.read
  | pre, [], _ => rfl
  | pre, x :: suf, hp => by
    have ih := projectFields_from hr hi (pre ++ [x]) suf (by simpa using hp)
    simp only [List.length_append, List.length_singleton] at ih
    rw [List.map_cons, Rel.projectFields, ih, projectCols, List.map_cons, fieldOf_renumber]
    have hx : es[pre.length]? = some x := by rw [← hp]; simp
    cases hf : Rel.fieldOf x with
    | some i =>
      obtain ⟨h0, h1⟩ := hi x (List.mem_of_getElem? hx) i hf
      simp only [ctx, List.getElem?_map, colAt_some h0 h1, Option.map_some]
      rfl
    | none =>
      simp only [projectName_computed hr hx hf]
      rfl

theorem projectFields_eq (hr : Ready f n ⟨.project es, emit, s, t⟩)
    (hi : ∀ e ∈ es, ∀ i, Rel.fieldOf e = some i → 0 ≤ i ∧ i < f.length) :
    Rel.projectFields (ctx e n ⟨.project es, emit, s, t⟩ f fresh) 0 (es.map (renumber e.ρ)) =
      (projectCols n f 0 es).map Col.read :=
  projectFields_from hr hi [] es rfl

theorem projectsOk (hr : Ready f n ⟨.project es, emit, s, t⟩) (he : EnvFits e fn)
    (hpl : PlaceFits fresh fn f)
    (hi : ∀ e ∈ es, ∀ i, Rel.fieldOf e = some i → 0 ≤ i ∧ i < f.length)
    (hl : f.length < 2147483648) :
    ∀ (pre suf : List PbExpr), pre ++ suf = es →
      (∀ x ∈ suf, Said e.lib fn (InWidth f.length) x ∧ Rel.FieldKept x ∧
        Rel.isOuter x = false) →
      Rel.ProjectsOk (ctx e n ⟨.project es, emit, s, t⟩ f fresh)
        ⟨false, f.map Col.read, [], []⟩ pre.length (suf.map (renumber e.ρ))
  | pre, [], _, _ => trivial
  | pre, x :: suf, hp, hs => by
    have ih := projectsOk hr he hpl hi hl (pre ++ [x]) suf (by simpa using hp)
      (fun y hy => hs y (by simp [hy]))
    simp only [List.length_append, List.length_singleton] at ih
    refine ⟨⟨?_, rfl, ?_⟩, ih⟩
    · exact exprOk (g := []) he (by simpa using hpl) hr.ok (by simp) hr.apart (by simpa using hl) rfl
        (fun i h => refOk_nil h) (hs x (by simp)).1
    · intro a ha
      rw [aliasOf_project] at ha
      obtain ⟨c, hc, hca⟩ := Option.bind_eq_some_iff.mp ha
      split at hca
      · simp at hca
      · rename_i hne
        simp only [Option.some.injEq] at hca
        obtain ⟨ls, hw, -⟩ := hr.within
        have := (hr.project_within hi hw c (List.mem_of_getElem? hc)).1
        rw [← hca]
        exact (alias_ok this (by simpa using hne)).name

/-- The number the reader finds is for the same column. -/
theorem readEmit_project (hr : Ready f n ⟨.project es, emit, s, t⟩)
    (hi : ∀ e ∈ es, ∀ i, Rel.fieldOf e = some i → 0 ≤ i ∧ i < f.length)
    (hl : f.length + es.length < 2147483648) {i : Int} (hw : InWidth (f.length + es.length) i) :
    let j := readEmit n f (.project es) i
    InWidth (f.length + es.length) j ∧ stands f.length es j = stands f.length es i ∧
      (f ++ projectCols n f 0 es)[j.toNat]? = (f ++ projectCols n f 0 es)[i.toNat]? ∧
      findHere true ⟨false, f.map Col.read, (projectCols n f 0 es).map Col.read, []⟩
        (colAt (f ++ projectCols n f 0 es) j).text = some j.toNat := by
  obtain ⟨ls, hwi, -⟩ := hr.within
  have hpw := hr.project_within hi hwi
  obtain ⟨h0, h1⟩ := hw
  have hlen : (f ++ projectCols n f 0 es).length = f.length + es.length := by
    rw [List.length_append, projectCols_length]
  have hc := colAt_some (f := f ++ projectCols n f 0 es) h0 (by rw [hlen]; exact_mod_cast h1)
  have hcm := List.mem_of_getElem? hc
  have hcok : (colAt (f ++ projectCols n f 0 es) i).Ok := by
    rcases List.mem_append.mp hcm with h | h
    · exact (hwi _ h).1
    · exact (hpw _ h).1
  have hgf : ∀ x ∈ projectCols n f 0 es, x.isColumn = true → x ∈ f := by
    intro x hx hk
    obtain ⟨j, hj⟩ := List.getElem?_of_mem hx
    rw [projectCols_getElem?] at hj
    obtain ⟨y, hy, hyx⟩ := Option.map_eq_some_iff.mp hj
    cases hfy : Rel.fieldOf y with
    | some k =>
      rw [hfy] at hyx
      obtain ⟨k0, k1⟩ := hi y (List.mem_of_getElem? hy) k hfy
      rw [← hyx]
      exact colAt_mem k0 k1
    | none =>
      rw [hfy] at hyx
      rw [← hyx] at hk
      simp [Col.isColumn] at hk
  obtain ⟨j, hj, hcase⟩ := findHere_read (f := f) (g := projectCols n f 0 es) (ag := false)
    (emit := true) (out := []) (fun x hx => (hwi x hx).1) (fun x hx => (hpw x hx).1) hcok
    (by rw [projectCols_length]; exact hl)
    (by
      rcases List.mem_append.mp hcm with h | h
      · exact .inl ⟨_, h, rfl⟩
      · cases hk : (colAt (f ++ projectCols n f 0 es) i).isColumn with
        | true => exact .inl ⟨_, hgf _ h hk, rfl⟩
        | false => exact .inr ⟨rfl, _, h, rfl⟩)
  have hre : readEmit n f (.project es) i = (j : Int) := by
    simp only [readEmit, newCols, hj]
    rfl
  have hsame : ∃ x, (f ++ projectCols n f 0 es)[j]? = some x ∧
      x.text = (colAt (f ++ projectCols n f 0 es) i).text := by
    rcases hcase with ⟨-, k, x, hx, hxe, hjk⟩ | ⟨-, k, x, hx, hxe, hjk⟩
    · refine ⟨x, ?_, hxe⟩
      simp only [Bool.false_and, Bool.false_eq_true, if_false] at hjk
      rw [hjk, List.getElem?_append_right (by omega)]
      rw [← hx]
      congr 1
      omega
    · refine ⟨x, ?_, hxe⟩
      rw [hjk (by simp)]
      obtain ⟨hk, -⟩ := List.getElem?_eq_some_iff.mp hx
      rw [List.getElem?_append_left hk, hx]
  obtain ⟨x, hx, hxe⟩ := hsame
  obtain ⟨hjl, -⟩ := List.getElem?_eq_some_iff.mp hx
  rw [hlen] at hjl
  have hwj : InWidth (f.length + es.length) (j : Int) := ⟨by omega, by exact_mod_cast hjl⟩
  have hst := stands_eq hr hi hwj ⟨h0, h1⟩ (by simpa using hx) hc hxe
  have hsame : (f ++ projectCols n f 0 es)[(j : Int).toNat]? =
      (f ++ projectCols n f 0 es)[i.toNat]? := by
    rw [← (stands_canonical (n := n) hi hwj).2, ← (stands_canonical (n := n) hi ⟨h0, h1⟩).2, hst]
  simp only [hre]
  refine ⟨hwj, hst, hsame, ?_⟩
  have : colAt (f ++ projectCols n f 0 es) (j : Int) = colAt (f ++ projectCols n f 0 es) i := by
    unfold colAt
    rw [hsame]
  rw [this, hj]
  simp

theorem printEmit_project {i : Int} (hw : InWidth (f.length + es.length) i) :
    printEmit (convData n ⟨.project es, emit, s, t⟩ f) i =
      some (colAt (f ++ projectCols n f 0 es) i).text := by
  obtain ⟨h0, h1⟩ := hw
  have hlen : (f ++ projectCols n f 0 es).length = f.length + es.length := by
    rw [List.length_append, projectCols_length]
  have hc := colAt_some (f := f ++ projectCols n f 0 es) h0 (by rw [hlen]; exact_mod_cast h1)
  unfold printEmit
  rw [if_neg (by omega)]
  simp only [convData, newCols, lookupEmit, Bool.false_eq_true, if_false]
  rw [← List.map_append, List.getElem?_map, hc]
  simp [nameOf_conv]

theorem projectRefs_new (hb : BodyFits e.lib fn (f.map Col.isColumn) emit (.project es)) :
    Rel.ProjectRefs (ctx e n ⟨.project es, emit, s, t⟩ f fresh) (es.map (renumber e.ρ)) := by
  have hi := project_refs hb
  rw [List.length_map] at hi
  intro x hx
  obtain ⟨y, hy, rfl⟩ := List.mem_map.mp hx
  refine ⟨fieldKept_renumber (hb.1 y hy).2.1, fun i h => ?_⟩
  rw [fieldOf_renumber] at h
  simpa [ctx] using hi y hy i h

theorem bodyOk_project (hr : Ready f n ⟨.project es, emit, s, t⟩) (he : EnvFits e fn)
    (hpl : PlaceFits fresh fn f)
    (hb : BodyFits e.lib fn (f.map Col.isColumn) emit (.project es))
    (hl : f.length + es.length < 2147483648) :
    Rel.BodyOk (ctx e n ⟨.project es, emit, s, t⟩ f fresh)
      (emit.map (readEmit n f (.project es))) (renumberBody e.ρ (.project es)) ∧
    Rel.ProjectRefs (ctx e n ⟨.project es, emit, s, t⟩ f fresh) (es.map (renumber e.ρ)) := by
  have hi := project_refs hb
  have hlen : (f.map Col.isColumn).length = f.length := by simp
  rw [hlen] at hi
  have hsaid := hb.1
  rw [hlen] at hsaid
  have hrefs : Rel.ProjectRefs (ctx e n ⟨.project es, emit, s, t⟩ f fresh)
      (es.map (renumber e.ρ)) := projectRefs_new hb
  refine ⟨?_, hrefs⟩
  simp only [renumberBody, Rel.BodyOk]
  refine ⟨projectsOk hr he hpl hi (by omega) [] es rfl hsaid, .inr ⟨hrefs, ?_⟩⟩
  intro j hj
  obtain ⟨i, him, rfl⟩ := List.mem_map.mp hj
  have hw := hb.2.2.1 i him
  rw [hlen] at hw
  obtain ⟨hwj, -, hsame, hfind⟩ := readEmit_project hr hi hl hw
  have hlen2 : (f ++ projectCols n f 0 es).length = f.length + es.length := by
    rw [List.length_append, projectCols_length]
  refine ⟨hwj.1, ?_, (colAt (f ++ projectCols n f 0 es) (readEmit n f (.project es) i)).text, ?_, ?_, ?_⟩
  · simp only [Rel.emitFields, Rel.RelContext.start, Bool.false_eq_true, if_false]
    rw [projectFields_eq hr hi]
    simp only [List.length_append, ctx, List.length_map, projectCols_length]
    exact_mod_cast hwj.2
  · exact printEmit_project hwj
  · obtain ⟨ls, hwi, -⟩ := hr.within
    have hpw := hr.project_within hi hwi
    have hm := colAt_mem (f := f ++ projectCols n f 0 es) hwj.1
      (by rw [hlen2]; exact_mod_cast hwj.2)
    rcases List.mem_append.mp hm with h | h
    · exact (hwi _ h).1.isColumn_text
    · exact (hpw _ h).1.isColumn_text
  · simp only [Rel.RelContext.start]
    rw [projectFields_eq hr hi]
    exact hfind

end project

/-! ## Aggregates -/

section aggregate

variable {g : List PbExpr} {ms : List Rel.PbMeasure} {emit : List Int}
  {s : Option Sec.NamedStruct} {t : Option Sec.Source}

theorem grouped_append (a b : List PbExpr) : grouped (a ++ b) = grouped a ++ grouped b := by
  simp [grouped]

theorem grouped_renumber (ρ : Nat → Nat) (a : List PbExpr) :
    grouped (a.map (renumber ρ)) = grouped a := by
  unfold grouped
  rw [List.filterMap_map]
  congr 1
  funext x
  exact fieldOf_renumber x

/-- The fields while the groupings are read. -/
def groupData (f : List Col) (pre : List PbExpr) : RelData :=
  ⟨true, f.map Col.read, ((grouped pre).map (colAt f)).map Col.read, []⟩

theorem afterGroup_data {ρ : Nat → Nat} (pre : List PbExpr) (x : PbExpr)
    (hx : ∀ i, Rel.fieldOf x = some i → 0 ≤ i ∧ i < f.length) :
    Rel.afterGroup (groupData f pre) (renumber ρ x) = groupData f (pre ++ [x]) := by
  unfold Rel.afterGroup groupData
  rw [fieldOf_renumber, grouped_append]
  cases hf : Rel.fieldOf x with
  | none => simp [grouped, hf]
  | some i =>
    obtain ⟨h0, h1⟩ := hx i hf
    simp [grouped, hf, colAt_some h0 h1]

theorem afterGroups_data {ρ : Nat → Nat} : ∀ (suf pre : List PbExpr),
    (∀ i ∈ grouped suf, 0 ≤ i ∧ i < f.length) →
    Rel.afterGroups (groupData f pre) (suf.map (renumber ρ)) = groupData f (pre ++ suf)
  | [], pre, _ => by simp [Rel.afterGroups]
  | x :: suf, pre, h => by
    have hg : grouped (x :: suf) = grouped [x] ++ grouped suf := grouped_append [x] suf
    rw [List.map_cons, Rel.afterGroups, afterGroup_data pre x (fun i hi => h i (by
      rw [hg]; simp [grouped, hi])), afterGroups_data suf (pre ++ [x]) (fun i hi => h i (by
      rw [hg]; simp [hi]))]
    simp

theorem refOk_group (ha : Apart f) {l : List Int} (hi : ∀ i ∈ l, 0 ≤ i ∧ i < f.length) {i : Int}
    (hw : InWidth f.length i) (hn : i ∉ l) : ∀ x ∈ l.map (colAt f), x.text ≠ (colAt f i).text := by
  intro x hx he
  obtain ⟨j, hj, rfl⟩ := List.mem_map.mp hx
  obtain ⟨j0, j1⟩ := hi j hj
  have := ha _ _ _ _ (colAt_some j0 j1) (colAt_some hw.1 hw.2) he
  have : j = i := by have := hw.1; omega
  exact hn (this ▸ hj)

theorem usable_kind {i : Int} (h : Usable (f.map Col.isColumn) g i) :
    InWidth f.length i ∧ ((colAt f i).isColumn = true ∨ i ∉ grouped g) := by
  obtain ⟨⟨h0, h1⟩, h2⟩ := h
  rw [List.length_map] at h1
  refine ⟨⟨h0, h1⟩, h2.imp_left fun h => ?_⟩
  rw [List.getElem?_map, colAt_some h0 h1] at h
  simpa using h

theorem groupsOk (hr : Ready f n ⟨.aggregate [g] ms, emit, s, t⟩) (he : EnvFits e fn)
    (hpl : PlaceFits fresh fn f)
    (hi : ∀ i ∈ grouped g, 0 ≤ i ∧ i < f.length) (hn : (grouped g).Nodup)
    (hl : f.length + (grouped g).length < 2147483648) :
    ∀ (suf pre : List PbExpr), pre ++ suf = g →
      (∀ x ∈ suf, Said e.lib fn (Usable (f.map Col.isColumn) g) x ∧ Rel.FieldKept x ∧
          Rel.isOuter x = false ∨
        ∃ n, x = .field (.field n false) .root ∧ InWidth (f.map Col.isColumn).length n) →
      Rel.GroupsOk (ctx e n ⟨.aggregate [g] ms, emit, s, t⟩ f fresh) (groupData f pre)
        (suf.map (renumber e.ρ))
  | [], pre, _, _ => trivial
  | x :: suf, pre, hp, hs => by
    have ih := groupsOk hr he hpl hi hn hl suf (pre ++ [x]) (by simpa using hp)
      (fun y hy => hs y (by simp [hy]))
    have hgr : grouped g = grouped pre ++ (grouped [x] ++ grouped suf) := by
      rw [← hp, ← List.singleton_append, grouped_append, grouped_append]
    have hpre : ∀ i ∈ grouped pre, 0 ≤ i ∧ i < f.length := fun i h => hi i (by rw [hgr]; simp [h])
    have hfx : ∀ i, Rel.fieldOf x = some i → 0 ≤ i ∧ i < f.length := fun i h =>
      hi i (by rw [hgr]; simp [grouped, h])
    have hlp : f.length + ((grouped pre).map (colAt f)).length < 2147483648 := by
      rw [hgr] at hl
      simp only [List.length_append, List.length_map] at hl ⊢
      omega
    obtain ⟨ls, hw, -⟩ := hr.within
    have hgok : ∀ y ∈ (grouped pre).map (colAt f), y.Ok := fun y hy =>
      (groupCols_within hw hpre y hy).1
    rw [List.map_cons, Rel.GroupsOk, afterGroup_data pre x hfx]
    refine ⟨?_, ih⟩
    have hsx := hs x (by simp)
    have hpg : PlaceFits fresh fn (f ++ (grouped pre).map (colAt f)) := hpl.less fun y hy => by
      rcases List.mem_append.mp hy with hy | hy
      · exact hy
      · obtain ⟨i, hi', rfl⟩ := List.mem_map.mp hy
        exact colAt_mem (hpre i hi').1 (hpre i hi').2
    have hexp : Rel.ExprOk (ctx e n ⟨.aggregate [g] ms, emit, s, t⟩ f fresh) (groupData f pre)
        (renumber e.ρ x) := by
      rcases hsx with hx | ⟨k, rfl, hk⟩
      · refine exprOk he hpg hr.ok hgok hr.apart hlp rfl (fun i h => ?_) hx.1
        obtain ⟨h1, h2⟩ := usable_kind h
        refine ⟨h1, h2.imp_right fun h => refOk_group hr.apart hpre h1 fun hm => h ?_⟩
        rw [hgr]
        simp [hm]
      · rw [List.length_map] at hk
        refine exprOk (ref := fun i => i = k) he hpg hr.ok hgok hr.apart hlp rfl (fun i h => ?_)
          (by simp [Said, Told, Rel.Plain])
        subst h
        refine ⟨hk, .inr (refOk_group hr.apart hpre hk fun hm => ?_)⟩
        rw [hgr] at hn
        exact (List.nodup_append.mp hn).2.2 _ hm _
          (List.mem_append_left _ (by simp [grouped, Rel.fieldOf])) rfl
    have hkept : Rel.FieldKept (renumber e.ρ x) := by
      rcases hsx with hx | ⟨k, rfl, -⟩
      · exact fieldKept_renumber hx.2.1
      · simp [renumber, Rel.FieldKept, Rel.leftmost]
    refine ⟨hexp, hkept, ?_, ?_⟩
    · intro seg base hb
      rcases hsx with hx | ⟨k, rfl, -⟩
      · cases x <;> simp only [renumber, reduceCtorEq, PbExpr.field.injEq] at hb
        obtain ⟨rfl, rfl⟩ := hb
        rename_i seg base
        have ho := hx.2.2
        have hx := hx.1.1
        cases base with
        | root => rfl
        | outer m => simp [Rel.isOuter] at ho
        | _ =>
          cases seg with
          | other => simp [Told] at hx
          | field i b => cases b <;> simp [Told] at hx
      · simp only [renumber, PbExpr.field.injEq] at hb
        exact hb.2.symm
    · intro i h
      rw [fieldOf_renumber] at h
      simpa [groupData] using (hfx i h).2

/-- The fields while the measures are read. -/
def measureData (n : Names) (f : List Col) (g : List PbExpr) (k : Nat) : RelData :=
  ⟨true, f.map Col.read, ((grouped g).map (colAt f) ++ measureCols n k).map Col.read, []⟩

theorem afterMeasure_data {k : Nat} (hk : k < n.measures.length) :
    Rel.afterMeasure (ctx e n o f fresh) (measureData n f g k) k = measureData n f g (k + 1) := by
  unfold Rel.afterMeasure
  have : (ctx e n o f fresh).measureName k = some n.measures[k] := List.getElem?_eq_getElem hk
  rw [this]
  simp only [measureData, measureCols, List.range_succ, List.map_append, List.map_cons, List.map_nil,
    List.getElem?_eq_getElem hk, Option.getD_some, List.append_assoc]
  rfl

theorem afterMeasures_data : ∀ (suf : List Rel.PbMeasure) (k : Nat),
    k + suf.length ≤ n.measures.length →
    Rel.afterMeasures (ctx e n o f fresh) (measureData n f g k) k suf =
      measureData n f g (k + suf.length)
  | [], k, _ => rfl
  | m :: suf, k, h => by
    simp only [List.length_cons] at h
    rw [Rel.afterMeasures, afterMeasure_data (by omega), afterMeasures_data suf (k + 1) (by omega),
      List.length_cons, Nat.add_right_comm k 1, Nat.add_assoc]

theorem measureCols_le {k m : Nat} (h : k ≤ m) : ∀ x ∈ measureCols n k, x ∈ measureCols n m := by
  intro x hx
  simp only [measureCols, List.mem_map, List.mem_range] at hx ⊢
  obtain ⟨i, hi, rfl⟩ := hx
  exact ⟨i, by omega, rfl⟩

theorem refOk_measure (hr : Ready f n ⟨.aggregate [g] ms, emit, s, t⟩)
    (hi : ∀ i ∈ grouped g, 0 ≤ i ∧ i < f.length) {k : Nat} (hk : k ≤ ms.length) {i : Int}
    (h : Usable (f.map Col.isColumn) g i) :
    RefOk f ((grouped g).map (colAt f) ++ measureCols n k) i := by
  obtain ⟨h1, h2⟩ := usable_kind h
  refine ⟨h1, h2.imp_right fun h x hx => ?_⟩
  rcases List.mem_append.mp hx with hx | hx
  · exact refOk_group hr.apart hi h1 h x hx
  · obtain ⟨ls, hw, hn⟩ := hr.within
    exact (hw.apart (measureCols_within hr) (fun y hy hy' =>
      (List.nodup_append.mp hn).2.2 y hy y hy' rfl) _ (colAt_mem h1.1 h1.2) x
      (measureCols_le hk x hx)).symm

theorem measuresOk (hr : Ready f n ⟨.aggregate [g] ms, emit, s, t⟩) (he : EnvFits e fn)
    (hpl : PlaceFits fresh fn (f ++ ((grouped g).map (colAt f) ++ measureCols n ms.length)))
    (hi : ∀ i ∈ grouped g, 0 ≤ i ∧ i < f.length)
    (hl : f.length + ((grouped g).length + ms.length) < 2147483648) :
    ∀ (suf : List Rel.PbMeasure) (k : Nat), k + suf.length = ms.length →
      (∀ m ∈ suf, MeasureFits e.lib fn (Usable (f.map Col.isColumn) g) m) →
      Rel.MeasuresOk (ctx e n ⟨.aggregate [g] ms, emit, s, t⟩ f fresh) (measureData n f g k) k
        (suf.map (renumberMeasure e.ρ))
  | [], k, _, _ => trivial
  | m :: suf, k, hk, hs => by
    simp only [List.length_cons] at hk
    have hml : n.measures.length = ms.length := hr.measures
    have ih := measuresOk hr he hpl hi hl suf (k + 1) (by omega) (fun y hy => hs y (by simp [hy]))
    have hkm : k < n.measures.length := by omega
    obtain ⟨ls, hw, -⟩ := hr.within
    have hgok : ∀ k ≤ ms.length, ∀ y ∈ (grouped g).map (colAt f) ++ measureCols n k, y.Ok := by
      intro k hk y hy
      rcases List.mem_append.mp hy with hy | hy
      · exact (groupCols_within hw hi y hy).1
      · exact (measureCols_within hr y (measureCols_le hk y hy)).1
    have hlk : ∀ k ≤ ms.length,
        f.length + ((grouped g).map (colAt f) ++ measureCols n k).length < 2147483648 := by
      intro k hk
      simp only [List.length_append, List.length_map, measureCols, List.length_range]
      omega
    have hpk : ∀ k ≤ ms.length,
        PlaceFits fresh fn (f ++ ((grouped g).map (colAt f) ++ measureCols n k)) := by
      intro k hk
      refine hpl.less fun y hy => ?_
      simp only [List.mem_append] at hy ⊢
      rcases hy with hy | hy | hy
      · exact .inl hy
      · exact .inr (.inl hy)
      · exact .inr (.inr (measureCols_le hk y hy))
    rw [List.map_cons, Rel.MeasuresOk, afterMeasure_data hkm]
    refine ⟨?_, ih⟩
    obtain ⟨⟨a, ha, h1, h2, h3, h4, h5, h6, h7, h8⟩, hfilter⟩ := hs m (by simp)
    refine ⟨⟨renumberAggregate e.ρ a, by simp [renumberMeasure, ha], ?_⟩, ?_, ?_⟩
    · refine ⟨he.ok _ h1, h2, ?_, by simp [renumberAggregate, h4, renumberList], h5, h6, h7,
        by simp [renumberAggregate, h8]⟩
      exact readableArgs_told (agree_conv he _) rfl (refsOk hr.ok (hgok k (by omega)) hr.apart
        (hlk k (by omega)) rfl (hpk k (by omega))) _ (toldArgs_mono (fun i h => refOk_measure hr hi (by omega) h) _ h3)
    · intro x hx
      have hx' : n.measures[k]? = some x := hx
      exact (hr.made x (by
        simp only [ownLabels, List.mem_append]
        exact .inr (.inr (.inr (.inl (List.mem_of_getElem? hx')))))).name
    · rw [afterMeasure_data hkm]
      exact optOk he (hpk (k + 1) (by omega)) hr.ok (hgok (k + 1) (by omega)) hr.apart (hlk (k + 1) (by omega)) rfl
        (fun i h => refOk_measure hr hi (by omega) h) hfilter

theorem start_group : (ctx e n o f fresh).start true = groupData f [] := rfl

theorem measureData_zero (f : List Col) (g : List PbExpr) : measureData n f g 0 = groupData f g := by
  simp [measureData, groupData, measureCols]

theorem afterAll {suf : List Rel.PbMeasure} (hm : n.measures.length = ms.length)
    (hi : ∀ i ∈ grouped g, 0 ≤ i ∧ i < f.length) (hs : suf.length = ms.length) :
    Rel.afterMeasures (ctx e n o f fresh)
      (Rel.afterGroups ((ctx e n o f fresh).start true) (g.map (renumber e.ρ))) 0 suf =
      measureData n f g ms.length := by
  rw [start_group, afterGroups_data g [] hi, List.nil_append, ← measureData_zero (n := n),
    afterMeasures_data _ _ (by omega), Nat.zero_add, hs]

theorem bodyOk_aggregate (hr : Ready f n ⟨.aggregate [g] ms, emit, s, t⟩) (he : EnvFits e fn)
    (hpl : PlaceFits fresh fn (f ++ ((grouped g).map (colAt f) ++ measureCols n ms.length)))
    (hb : BodyFits e.lib fn (f.map Col.isColumn) emit (.aggregate [g] ms))
    (hl : f.length + ((grouped g).length + ms.length) < 2147483648) :
    Rel.BodyOk (ctx e n ⟨.aggregate [g] ms, emit, s, t⟩ f fresh) emit
      (renumberBody e.ρ (.aggregate [g] ms)) := by
  have hi := aggregate_refs hb
  rw [List.length_map] at hi
  simp only [renumberBody, List.map_cons, List.map_nil, Rel.BodyOk]
  refine ⟨?_, ?_, ?_⟩
  · exact groupsOk hr he (hpl.less fun y hy => List.mem_append_left _ hy) hi hb.2.1 (by omega) g [] rfl hb.1
  · rw [start_group, afterGroups_data g [] hi, List.nil_append, ← measureData_zero (n := n)]
    exact measuresOk hr he hpl hi hl ms 0 (by omega) hb.2.2.1
  · intro i him
    rw [afterAll (ms := ms) hr.measures hi (by simp)]
    obtain ⟨h0, c, hc, hk⟩ := aggregate_emit (n := n) hb i him
    have hnew : newCols n f (.aggregate [g] ms) =
        (grouped g).map (colAt f) ++ measureCols n ms.length := by
      simp [newCols]
    have han := aggregate_new_apart hr hi hb.2.1
    rw [hnew] at hc han
    obtain ⟨hlt, -⟩ := List.getElem?_eq_some_iff.mp hc
    obtain ⟨ls, hw, -⟩ := hr.within
    have hgok : ∀ y ∈ (grouped g).map (colAt f) ++ measureCols n ms.length, y.Ok := by
      intro y hy
      rcases List.mem_append.mp hy with hy | hy
      · exact (groupCols_within hw hi y hy).1
      · exact (measureCols_within hr y hy).1
    refine ⟨h0, ?_, c.text, ?_, (hgok c (List.mem_of_getElem? hc)).isColumn_text, ?_⟩
    · simp only [Rel.emitFields, measureData, if_true, List.length_map]
      omega
    · show printEmit (convData n ⟨.aggregate [g] ms, emit, s, t⟩ f) i = _
      unfold printEmit
      rw [if_neg (by omega)]
      simp only [convData, lookupEmit, if_true, hnew, List.getElem?_map, hc]
      simp [nameOf_conv]
    · refine find_generated hr.ok hgok ?_ han.nodup hc hk
      simp only [List.length_append, List.length_map, measureCols, List.length_range]
      omega

end aggregate

/-! ## All relations -/

theorem readEmit_other {b : Rel.Body} (h : ∀ es, b ≠ .project es) (emit : List Int) :
    emit.map (readEmit n f b) = emit := by
  have : readEmit n f b = id := by
    funext i
    cases b <;> first | rfl | exact absurd rfl (h _)
  rw [this, List.map_id]

theorem bodyFits_read {w : List Bool} {emit : List Int} {a b : Option Str} {c d : Option PbExpr}
    {p : Bool} (h : BodyFits lib fn w emit (.read a b c d p)) :
    a = none ∧ b = none ∧ d = none ∧ p = false ∧ emit = [] ∧ SaidOpt lib fn (fun _ => False) c := by
  cases a <;> cases b <;> cases d <;> cases p <;> simp only [BodyFits] at h
  exact ⟨rfl, rfl, rfl, rfl, h⟩

theorem bodyFits_fetch {w : List Bool} {emit : List Int} {a c : Int}
    (h : BodyFits lib fn w emit (.fetch a c)) :
    a = 0 ∧ emit = [] ∧ -9223372036854775808 ≤ c ∧ c < 9223372036854775808 := by
  unfold BodyFits at h
  split at h <;> simp_all only [reduceCtorEq, Rel.Body.fetch.injEq, and_self]
  all_goals omega

theorem bodyFits_join {w : List Bool} {emit : List Int} {t : Int} {c p : Option PbExpr}
    (h : BodyFits lib fn w emit (.join t c p)) :
    p = none ∧ emit = [] ∧ (1 ≤ t ∧ t ≤ 7 ∧ t ≠ 5 ∧ t ≠ 6) ∧ SaidOpt lib fn (InWidth w.length) c := by
  cases p <;> simp only [BodyFits] at h
  exact ⟨rfl, h⟩

/-- Projects do not expose what is around them. -/
theorem near_said {w : List Bool} {emit : List Int} (hb : BodyFits lib fn w emit o.body) :
    Rel.Near (renumberBody e.ρ (withNames n o.body)) := by
  intro es hes x hx
  cases ho : o.body <;> rw [ho] at hes hb <;>
    simp only [withNames, renumberBody, reduceCtorEq, Rel.Body.project.injEq] at hes
  rw [← hes] at hx
  obtain ⟨y, hy, rfl⟩ := List.mem_map.mp hx
  have := (hb.1 y hy).2.2
  cases y <;> first | rfl | exact this

/-- The relation that is read can be read, whatever names are handed out. -/
theorem relReadable (hr : Ready f n o) (he : EnvFits e fn)
    (hp : PlaceFits fresh fn (f ++ newCols n f o.body))
    (hb : BodyFits e.lib fn (f.map Col.isColumn) o.emit o.body) (hk : TablesKnown e n o)
    (hl : f.length + (newCols n f o.body).length < 2147483648) :
    Rel.RelReadable (ctx e n o f fresh) (newRel e n o f) where
  name := (hr.made n.rel (by simp [ownLabels])).name
  outside := fun _ => ⟨.inr (near_said hb), rfl⟩
  body := by
    have hlen : (f.map Col.isColumn).length = f.length := by simp
    have hfl : f.length + ([] : List Col).length < 2147483648 := by simp; omega
    have hnil : ∀ x ∈ ([] : List Col), x.Ok := by simp
    have hpf : PlaceFits fresh fn (f ++ []) := hp.less fun y hy => by simp at hy; simp [hy]
    obtain ⟨body, emit, schema, source⟩ := o
    unfold newRel
    cases body with
    | read a b c d p =>
      obtain ⟨sn, tn, h1, h2, h3, h4⟩ := hk rfl
      obtain ⟨rfl, rfl, rfl, rfl, hb⟩ := bodyFits_read hb
      rw [readEmit_other (by simp), hb.1]
      simp only [withNames, renumberBody, Option.map_none, h1, h2, Rel.BodyOk]
      refine ⟨trivial, (hr.made sn (by simp [ownLabels, h1])).name, h3, _,
        ⟨(hr.made tn (by simp [ownLabels, h2])).name, h4⟩, ?_⟩
      intro x hx
      obtain ⟨z, hz, rfl⟩ := Option.map_eq_some_iff.mp hx
      have hro : RefsOk fn (fun _ => False) ((ctx e n
          ⟨.read none none c none false, emit, schema, source⟩ f fresh).at
          ⟨false, f.map Col.read, [], (tableCols n
            ⟨.read none none c none false, emit, schema, source⟩).map Col.read⟩) := by
        refine ⟨fun i h => h.elim, fun k i ho => ?_⟩
        obtain ⟨cc, hc, h0, h1, h2, h3, h4⟩ := hpf k i ho
        refine ⟨⟨h0, h1, .inr ⟨k, rfl⟩, cc.text, h2, hc.isColumn_text, ?_⟩, ?_⟩
        · show find false (⟨false, f.map Col.read, [], _⟩ :: fresh.outer) _ = _
          have := findHere_apart (emit := false) (ag := false) (g := []) (out := (tableCols n
            ⟨.read none none c none false, emit, schema, source⟩).map Col.read) hr.ok hnil hc h4
          rw [List.map_nil] at this
          rw [find, this, h3]
          rfl
        · intro s hs
          have : s = cc.text := by
            have hs' : lookup fresh.up k i.toNat = some s := hs
            rw [h2] at hs'
            exact (Option.some.inj hs').symm
          rw [this]
          exact hc.notEnum
      have := readable_said (agree_conv (n := n)
        (o := ⟨.read none none c none false, emit, schema, source⟩) (f := f) (fresh := fresh) he
        _) rfl hro z (hb.2 z hz)
      exact ⟨this.1, this.2.2⟩
    | filter c =>
      rw [readEmit_other (by simp), hb.1]
      simp only [withNames, renumberBody, Rel.BodyOk, true_and]
      have h2 := hb.2
      rw [hlen] at h2
      exact optOk (g := []) he hpf hr.ok hnil hr.apart hfl rfl (fun i h => refOk_nil h) h2
    | fetch a c =>
      obtain ⟨rfl, hb⟩ := bodyFits_fetch hb
      rw [readEmit_other (by simp), hb.1]
      simp only [withNames, renumberBody, Rel.BodyOk, true_and]
      exact hb.2
    | sort ss =>
      rw [readEmit_other (by simp), hb.1]
      simp only [withNames, renumberBody, Rel.BodyOk, true_and]
      intro x hx
      obtain ⟨y, hy, rfl⟩ := List.mem_map.mp hx
      obtain ⟨h1, k, h2, h3⟩ := hb.2 y hy
      rw [hlen] at h1
      refine ⟨exprOk (g := []) he hpf hr.ok hnil hr.apart hfl rfl (fun i h => refOk_nil h) h1, k, ?_, h3⟩
      simp [renumberSort, h2]
    | join a c p =>
      obtain ⟨rfl, hb⟩ := bodyFits_join hb
      rw [readEmit_other (by simp), hb.1]
      simp only [withNames, renumberBody, Rel.BodyOk, true_and, Option.map_none]
      refine ⟨hb.2.1.1, hb.2.1.2.1, ?_⟩
      have h2 := hb.2.2
      rw [hlen] at h2
      exact optOk (g := []) he hpf hr.ok hnil hr.apart hfl rfl (fun i h => refOk_nil h) h2
    | cross =>
      have : emit = [] := hb
      subst this
      exact rfl
    | other => simp [BodyFits] at hb
    | project es =>
      simp only [newCols] at hl
      rw [projectCols_length] at hl
      exact (bodyOk_project hr he (by simpa using hpf) hb hl).1
    | aggregate gs ms =>
      have hg : ∃ g, gs = [g] := by
        simp only [BodyFits] at hb
        split at hb <;> simp_all
      obtain ⟨g, rfl⟩ := hg
      rw [readEmit_other (by simp)]
      exact bodyOk_aggregate hr he (by simpa [newCols] using hp) hb (by
        simpa [newCols, measureCols] using hl)

end Verif.Whole
