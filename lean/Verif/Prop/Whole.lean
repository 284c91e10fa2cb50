import Verif.Lemmas.WholeNaming

/-! # C62: from a binary plan to text and back -/

namespace Verif.Whole

open Verif Verif.TyPb Verif.Expr Verif.Schema

variable {lib : Literal.Lib} {p : Input} {bs : List Ext.Block}

theorem inTable_declared : InTable p.table = Declared p := by
  funext a
  refine propext ⟨?_, ?_⟩
  · rintro ⟨f, hf, rfl⟩
    have hm : (f.anchor, f.name, f.space) ∈
        p.functions.map fun f => (f.anchor, f.name, some f.uriRef) := by
      rw [← Ext.readBinary_funs p.uris p.functions]
      exact List.mem_map.mpr ⟨f, hf, rfl⟩
    obtain ⟨g, hg, e⟩ := List.mem_map.mp hm
    simp only [Prod.mk.injEq] at e
    exact ⟨g, hg, e.1⟩
  · rintro ⟨f, hf, rfl⟩
    have hm : (f.anchor, f.name, some f.uriRef) ∈
        p.table.funs.map fun f => (f.anchor, f.name, f.space) := by
      rw [Input.table, Ext.readBinary_funs p.uris p.functions]
      exact List.mem_map.mpr ⟨f, hf, rfl⟩
    obtain ⟨g, hg, e⟩ := List.mem_map.mp hm
    simp only [Prod.mk.injEq] at e
    exact ⟨g, hg, e.1⟩

/-- The blocks of the functions. -/
theorem blocks_of {sort : Ext.Sorter} (hs : Ext.Rearranges sort) (h : FunctionsFit p) :
    ∃ bs, Ext.blocks sort p.table = .ok bs ∧ FunsFit p.table bs ∧ (∀ b ∈ bs, Sec.BlockOk b) ∧
      ∀ b ∈ bs, ∀ u, b.uri = some u → ∃ x ∈ p.uris, x.uri = u := by
  have hp : Ext.AllPlaced p.table := Ext.binary_placed _ _
  have hb := Ext.blocks_placed sort p.table hp
  have hu : ∀ b ∈ (Ext.setOf p.table).map (Ext.blockOf sort p.table), ∀ u, b.uri = some u →
      ∃ x ∈ p.uris, x.uri = u := by
    intro b hb u hu
    obtain ⟨a, -, rfl⟩ := List.mem_map.mp hb
    rw [Ext.blockOf, Ext.nameOf_eq] at hu
    obtain ⟨x, hx, rfl⟩ := Ext.uriOf_mem _ _ _ hu
    obtain ⟨y, hy, rfl⟩ := List.mem_map.mp hx
    exact ⟨y, hy, rfl⟩
  have hf : ∀ b ∈ (Ext.setOf p.table).map (Ext.blockOf sort p.table), ∀ f ∈ b.functions,
      ∃ g ∈ p.table.funs, f = (g.symbol, g.name) := by
    intro b hb f hf
    obtain ⟨a, -, rfl⟩ := List.mem_map.mp hb
    rw [Ext.blockOf] at hf
    obtain ⟨g, hg, rfl⟩ := List.mem_map.mp ((hs _).mem_iff.mp hf)
    exact ⟨g, (List.mem_filter.mp hg).1, rfl⟩
  refine ⟨_, hb, ⟨h.symbols, ?_, (Ext.functions_complete_iff sort p.table hs hp _ hb).mpr
    h.distinct⟩, fun b hb => ⟨fun u e => ?_, fun f hf' => ?_, fun f hf' => ?_, fun f hf' => ?_⟩, hu⟩
  · have := congrArg (List.map Prod.fst) (Ext.readBinary_funs p.uris p.functions)
    rw [List.map_map, List.map_map] at this
    rw [show p.table.funs.map (·.anchor) = p.functions.map (·.anchor) from this]
    exact h.anchors
  · obtain ⟨x, hx, rfl⟩ := hu b hb u e
    exact h.uris x hx
  · obtain ⟨g, hg, rfl⟩ := hf b hb f hf'
    exact (h.named g hg).1
  · obtain ⟨g, hg, rfl⟩ := hf b hb f hf'
    exact (h.typed g hg).1
  · obtain ⟨g, hg, rfl⟩ := hf b hb f hf'
    exact (h.typed g hg).2

/-- What is true of all relations of the plan is true of those with names. -/
theorem mem_owns {r : NRel} (he : erase r = p.rel) {x : NRel} (hx : x ∈ subs r) :
    x.own ∈ owns p.rel := by
  rw [← he, owns_subs]
  exact List.mem_map.mpr ⟨x, hx, rfl⟩

theorem fine_of (hl : lib.Numerals) (h : Expressible lib p) (hb : FunsFit p.table bs)
    (hok : ∀ b ∈ bs, Sec.BlockOk b)
    (hu : ∀ b ∈ bs, ∀ u, b.uri = some u → ∃ x ∈ p.uris, x.uri = u) :
    Fine ⟨lib, p.table⟩ bs p.names (nameTree (startCounters p) p.rel).2 := by
  obtain ⟨-, h2, h3, h4⟩ := named_plan h.tree.loose fun f hf => (h.names.functions f hf).1
  have hc : ∀ x ∈ subs (nameTree (startCounters p) p.rel).2, ∀ c ∈ x.own.columns,
      c ∈ columns p.rel := fun x hx c hc => List.mem_flatMap.mpr ⟨_, mem_owns h3 hx, hc⟩
  have ht : ∀ x ∈ subs (nameTree (startCounters p) p.rel).2, ∀ c ∈ x.own.tables,
      c ∈ tables p.rel := fun x hx c hc => List.mem_flatMap.mpr ⟨_, mem_owns h3 hx, hc⟩
  have hk : ∀ x ∈ subs (nameTree (startCounters p) p.rel).2, ∀ c ∈ x.own.fileKeys,
      c ∈ fileKeys p.rel := fun x hx c hc => List.mem_flatMap.mpr ⟨_, mem_owns h3 hx, hc⟩
  exact {
    numerals := hl
    tree := by
      rw [h3]
      show TreeFits lib ⟨InTable p.table, fun n => n = [], fun _ _ => False⟩ [] p.rel
      rw [inTable_declared]
      exact h.tree
    named := h4
    labelled := h2
    ids := h.root
    columns := fun x hx c hcx => h.names.columns c (hc x hx c hcx)
    tables := fun x hx t htx => by
      have := h.names.tables t (ht x hx t htx)
      exact ⟨this.1, this.2.1, fun y hy hy' => this.2.2 (hk y hy t hy')⟩
    files := by
      have := h.names.files
      rw [fileKeys, ← h3, owns_subs, List.flatMap_map] at this
      exact this
    funs := hb
    blocks := hok
    uris := fun b hb' u e => by
      obtain ⟨x, hx, rfl⟩ := hu b hb' u e
      exact h.names.uris x hx
    functions := fun f hf => by
      have h5 := h.functions.named f hf
      have h6 := h.names.functions f hf
      refine ⟨h5.1, h5.2, h6.1, fun x hx => ⟨fun hm => h6.2.1 (hc x hx _ hm),
        fun hm => h6.2.2.1 (ht x hx _ hm)⟩, fun b hb' e => ?_⟩
      obtain ⟨x, hx, e'⟩ := hu b hb' _ e
      exact h6.2.2.2 x hx e'.symm }

/-- **C62** (`_partial`: for the plans that are `Expressible`; what happens to others is in the
theorems about the parts).  A binary plan that text can express is printed as text without an
error, the text is read without an error, and the binary plan that is made of it says the same:
the same relations with the same inputs, subqueries, expressions, sources, schemas and output
columns, the same root names and the same functions but for their numbers. -/
theorem binary_text_binary_partial (lib : Literal.Lib) (hl : lib.Numerals) (sort : Ext.Sorter)
    (hs : Ext.Rearranges sort) (p : Input) (h : Expressible lib p) (fuel : Nat)
    (hf : (owns p.rel).length ≤ fuel) :
    ∃ text out, toText lib sort fuel p = .ok text ∧ fromText lib fuel text = some (.ok out) ∧
      SamePlan p out := by
  obtain ⟨bs, hb, hfit, hok, hu⟩ := blocks_of hs h.functions
  have hfine := fine_of hl h hfit hok hu
  obtain ⟨h1, -, h3, -⟩ := named_plan h.tree.loose fun f hf => (h.names.functions f hf).1
  have hlen : (subs (nameTree (startCounters p) p.rel).2).length ≤ fuel := by
    have : (owns p.rel).length = (subs (nameTree (startCounters p) p.rel).2).length := by
      rw [← h3, owns_subs, List.length_map, h3]
    omega
  obtain ⟨b, h4, h5, -⟩ := hfine.fromText hlen
  refine ⟨_, _, ?_, h4, newNumber p.table bs, b, sameFunctions hfit rfl rfl, rfl, ?_⟩
  · unfold toText
    simp only
    rw [h1]
    exact hfine.text hb hlen
  · rw [h3] at h5
    exact h5

/-! ### Non-vacuity -/

def sampleField (n : Int) : PbExpr := .field (.field n false) .root

def sampleCall (f : Nat) (a b : PbExpr) (t : Ty.Scalar) : PbExpr :=
  .call f 0 [.value a, .value b] [] (.scalar t .required)

def sampleSchema (a b : String) : Sec.NamedStruct :=
  ⟨[a.toList, b.toList], some ([.scalar .i32 .required, .scalar .i32 .nullable], .required)⟩

/-- A table. -/
def sampleTable : BRel :=
  .node ⟨.read none none none none false, [], some (sampleSchema "a" "b"),
    some (.named ["db".toList, "people".toList])⟩ []

/-- A file with a column of the same name. -/
def sampleFiles : BRel :=
  .node ⟨.read none none none none false, [], some (sampleSchema "a" "d"),
    some (.files [Sec.sampleFile])⟩ []

def sampleJoin : BRel :=
  .node ⟨.join 1 (some (sampleCall 7 (sampleField 0) (sampleField 2) .bool)) none, [], none, none⟩
    [sampleTable, sampleFiles]

def sampleFilter : BRel :=
  .node ⟨.filter (some (sampleCall 7 (sampleField 1) (.literal (.atom (.i32 (-3)) false)) .bool)),
    [], none, none⟩ [sampleJoin]

/-- Two columns of the input and a computed one; their order is changed. -/
def sampleProject : BRel :=
  .node ⟨.project [sampleField 0, sampleCall 9 (sampleField 1) (sampleField 3) .i32], [5, 4, 2],
    none, none⟩ [sampleFilter]

/-- Grouped by the computed column. -/
def sampleGroup : BRel :=
  .node ⟨.aggregate [[sampleField 0, sampleField 2]]
    [⟨some ⟨5, [], [.value (sampleField 1)], [], .scalar .i32 .required, 3, 1, []⟩, none⟩], [],
    none, none⟩ [sampleProject]

def sampleSort : BRel :=
  .node ⟨.sort [⟨sampleField 2, .direction 1⟩], [], none, none⟩ [sampleGroup]

/-- The functions have the numbers 7, 9 and 5. -/
def sampleInput : Input where
  uris := [⟨"/f.yaml".toList, 3⟩, ⟨"/g.yaml".toList, 4⟩]
  functions := [⟨7, "equal:i32_i32".toList, 3⟩, ⟨9, "add:i32_i32".toList, 4⟩,
    ⟨5, "sum:i32".toList, 4⟩]
  names := ["x".toList, "y".toList, "z".toList]
  rel := sampleSort

theorem whole_names : ∀ s ∈ ["x", "y", "z", "a", "b", "d", "equal", "add", "sum", "i32_i32",
    "i32"].map String.toList, Ext.IsName s := by
  intro s hs
  refine ⟨(Lex.lex s).getD [], ?_⟩
  revert s
  decide +kernel

/-- A name that begins like none of the names that are made up. -/
theorem not_madeUp {s : Str} (h : bases.all (fun b => !b.isPrefixOf s) = true) : ¬ MadeUp s := by
  rintro ⟨b, hb, n, rfl⟩
  have := List.all_eq_true.mp h b hb
  simp only [Bool.not_eq_true', ← Bool.not_eq_true, List.isPrefixOf_iff_prefix] at this
  apply this
  unfold Sym.uniqueText
  split <;> simp

theorem sample_type {t : Ty.Scalar} (h : t ∈ [.bool, .i32]) : TypeOk (.scalar t .required) := by
  simp only [List.mem_cons, List.not_mem_nil, or_false] at h
  rcases h with rfl | rfl <;> exact ⟨by decide, trivial, by decide⟩

theorem sample_schema {a b : String} (ha : Ext.IsName a.toList) (hb : Ext.IsName b.toList)
    (h : a.toList ≠ b.toList) (ha' : ¬ "_enum".toList <:+ a.toList)
    (hb' : ¬ "_enum".toList <:+ b.toList) : SchemaFits (sampleSchema a b) where
  plain := ⟨rfl, rfl⟩
  once := by simp [sampleSchema, h]
  names := by
    intro n hn
    simp only [sampleSchema, List.mem_cons, List.not_mem_nil, or_false] at hn
    rcases hn with rfl | rfl
    · exact ha
    · exact hb
  notEnum := by
    intro n hn
    simp only [sampleSchema, List.mem_cons, List.not_mem_nil, or_false] at hn
    rcases hn with rfl | rfl
    · exact ha'
    · exact hb'
  types := by
    intro t ht
    simp only [sampleSchema, Sec.NamedStruct.types, List.mem_cons, List.not_mem_nil, or_false] at ht
    rcases ht with rfl | rfl <;> exact ⟨by decide, trivial, by decide⟩

theorem sample_declared : ∀ a ∈ [7, 9, 5], Declared sampleInput a := by
  intro a ha
  simp only [List.mem_cons, List.not_mem_nil, or_false] at ha
  rcases ha with rfl | rfl | rfl
  · exact ⟨_, List.mem_cons_self, rfl⟩
  · exact ⟨_, List.mem_cons_of_mem _ List.mem_cons_self, rfl⟩
  · exact ⟨_, List.mem_cons_of_mem _ (List.mem_cons_of_mem _ List.mem_cons_self), rfl⟩

/-- What the expressions of the sample may mention. -/
def sampleKnown : Known := ⟨Declared sampleInput, fun n => n = [], fun _ _ => False⟩

theorem sample_call {f : Nat} {a b : PbExpr} {t : Ty.Scalar} {ref : Int → Prop} {up : List Nat}
    (hf : f ∈ [7, 9, 5]) (ht : t ∈ [.bool, .i32]) (ha : Told sampleLib (sampleKnown.within up) ref a)
    (hb : Told sampleLib (sampleKnown.within up) ref b) :
    Said sampleLib (sampleKnown.within up) ref (sampleCall f a b t) :=
  ⟨⟨sample_declared f hf, by simp, ⟨ha, hb, trivial⟩, sample_type ht⟩, trivial⟩

theorem treeFits_of {fn : Known} {up : List Nat} {o : Own} {kids : List BRel} (ks : List Bool)
    (hk : inKinds o kids = ks) (hb : BodyFits lib (fn.within up) ks o.emit o.body) (ht : TablesFit o)
    (ha : kids.length = arity o.body + queriesBody o.body)
    (hr : isRead o.body = true → queriesBody o.body = 0)
    (hw : ks.length + (madeKinds ks o.body).length < 2147483648) 
    (h : TreesFit lib fn (around o.body ks.length up kids.length) kids) :
    TreeFits lib fn up (.node o kids) := by
  subst hk
  exact ⟨hb, ht, ⟨ha, hr⟩, hw, h⟩

theorem sampleTable_fits {up : List Nat} : TreeFits sampleLib sampleKnown up sampleTable :=
  ⟨⟨rfl, fun _ h => by cases h⟩,
    ⟨⟨_, rfl, sample_schema (whole_names _ (by decide)) (whole_names _ (by decide)) (by decide)
      (by decide) (by decide)⟩, _, rfl, .named _ (by simp) (by
        intro n hn
        simp only [List.mem_cons, List.not_mem_nil, or_false] at hn
        rcases hn with rfl | rfl <;> exact Sec.quotable_of (by decide) (by decide))⟩,
    ⟨rfl, fun _ => rfl⟩, by decide, trivial⟩

theorem sampleFiles_fits {up : List Nat} : TreeFits sampleLib sampleKnown up sampleFiles :=
  ⟨⟨rfl, fun _ h => by cases h⟩,
    ⟨⟨_, rfl, sample_schema (whole_names _ (by decide)) (whole_names _ (by decide)) (by decide)
      (by decide) (by decide)⟩, _, rfl, .files _ Sec.sampleFile_ok⟩,
    ⟨rfl, fun _ => rfl⟩, by decide, trivial⟩

theorem told_sampleField {w : Nat} {n : Int} {up : List Nat} (h : 0 ≤ n ∧ n < w) :
    Told sampleLib (sampleKnown.within up) (InWidth w) (sampleField n) := h

theorem sampleJoin_fits {up : List Nat} : TreeFits sampleLib sampleKnown up sampleJoin := by
  refine treeFits_of [true, true, true, true] (by decide) ⟨rfl, by decide, ?_⟩ ⟨rfl, rfl⟩ rfl
    (fun _ => rfl) (by decide) ⟨sampleTable_fits, sampleFiles_fits, trivial⟩
  intro e he
  cases he
  exact sample_call (by decide) (by decide) (told_sampleField (by decide))
    (told_sampleField (by decide))

theorem sampleFilter_fits {up : List Nat} : TreeFits sampleLib sampleKnown up sampleFilter := by
  refine treeFits_of [true, true, true, true] (by decide) ⟨rfl, ?_⟩ ⟨rfl, rfl⟩ rfl
    (fun _ => rfl) (by decide) ⟨sampleJoin_fits, trivial⟩
  intro e he
  cases he
  exact sample_call (by decide) (by decide) (told_sampleField (by decide))
    ⟨by simp only [Literal.Atom.fits]; decide, trivial, trivial⟩

theorem sampleProject_fits {up : List Nat} : TreeFits sampleLib sampleKnown up sampleProject := by
  refine treeFits_of [true, true, true, true] (by decide) ⟨?_, by simp, ?_, by decide⟩ ⟨rfl, rfl⟩
    rfl (fun _ => rfl) (by decide) ⟨sampleFilter_fits, trivial⟩
  · intro e he
    simp only [List.mem_cons, List.not_mem_nil, or_false] at he
    rcases he with rfl | rfl
    · exact ⟨⟨told_sampleField (by decide), trivial⟩, rfl, rfl⟩
    · exact ⟨sample_call (by decide) (by decide) (told_sampleField (by decide))
        (told_sampleField (by decide)), rfl, rfl⟩
  · unfold InWidth
    decide

theorem sampleGroup_fits {up : List Nat} : TreeFits sampleLib sampleKnown up sampleGroup := by
  refine treeFits_of [false, true, true] (by decide)
    ⟨?_, by decide, ?_, by decide, by decide, by simp⟩ ⟨rfl, rfl⟩ rfl (fun _ => rfl) (by decide)
    ⟨sampleProject_fits, trivial⟩
  · intro e he
    simp only [List.mem_cons, List.not_mem_nil, or_false] at he
    rcases he with rfl | rfl <;>
      exact .inr ⟨_, rfl, by unfold InWidth; decide⟩
  · intro m hm
    simp only [List.mem_cons, List.not_mem_nil, or_false] at hm
    subst hm
    refine ⟨⟨_, rfl, sample_declared _ (by decide), rfl, ⟨?_, trivial⟩, rfl, sample_type (by decide),
      by decide, by decide, rfl⟩, fun _ h => by cases h⟩
    show Usable _ _ _
    unfold Usable InWidth
    decide

theorem sampleInput_fits {up : List Nat} : TreeFits sampleLib sampleKnown up sampleInput.rel := by
  refine treeFits_of [false, true, false] (by decide) ⟨rfl, ?_⟩ ⟨rfl, rfl⟩ rfl (fun _ => rfl)
    (by decide) ⟨sampleGroup_fits, trivial⟩
  intro s hs
  simp only [List.mem_cons, List.not_mem_nil, or_false] at hs
  subst hs
  exact ⟨⟨told_sampleField (by decide), trivial⟩, 1, rfl, by decide, by decide⟩

theorem sample_funs : sampleInput.table.funs =
    [⟨"equal".toList, "equal:i32_i32".toList, some 3, 7⟩,
      ⟨"add".toList, "add:i32_i32".toList, some 4, 9⟩,
      ⟨"sum".toList, "sum:i32".toList, some 4, 5⟩] := by decide +kernel

theorem sample_functions : FunctionsFit sampleInput where
  anchors := by decide
  symbols := by rw [sample_funs]; decide
  distinct := by
    intro f hf g hg
    rw [sample_funs] at hf hg
    revert f g
    decide +kernel
  uris := by unfold Ext.IsUri; decide +kernel
  named := by
    rw [sample_funs]
    intro f hf
    have : f.symbol ∈ ["x", "y", "z", "a", "b", "d", "equal", "add", "sum", "i32_i32",
        "i32"].map String.toList ∧ f.symbol.map toLower ≠ "ifthen".toList := by
      revert f; decide
    exact ⟨whole_names _ this.1, this.2⟩
  typed := by
    rw [sample_funs]
    intro f hf
    simp only [List.mem_cons, List.not_mem_nil, or_false] at hf
    rcases hf with rfl | rfl | rfl
    · exact ⟨⟨"equal".toList, "i32_i32".toList, by decide, whole_names _ (by decide),
        .inr (whole_names _ (by decide))⟩, by decide⟩
    · exact ⟨⟨"add".toList, "i32_i32".toList, by decide, whole_names _ (by decide),
        .inr (whole_names _ (by decide))⟩, by decide⟩
    · exact ⟨⟨"sum".toList, "i32".toList, by decide, whole_names _ (by decide),
        .inr (whole_names _ (by decide))⟩, by decide⟩

theorem sample_namesFit : NamesFit sampleInput where
  columns := by
    intro n hn
    apply not_madeUp
    revert n
    decide +kernel
  tables := by
    intro n hn
    refine ⟨not_madeUp ?_, ?_⟩ <;> revert n <;> decide +kernel
  uris := by
    intro n hn
    refine ⟨not_madeUp ?_, ?_⟩ <;> revert n <;> decide +kernel
  files := by decide +kernel
  functions := by
    rw [sample_funs]
    intro n hn
    refine ⟨not_madeUp ?_, ?_⟩ <;> revert n <;> decide +kernel

theorem sampleInput_expressible : Expressible sampleLib sampleInput where
  tree := sampleInput_fits
  functions := sample_functions
  names := sample_namesFit
  root := by
    intro n hn
    apply whole_names
    revert n
    decide

/-- Non-vacuity of C62. -/
example : ∃ text out, toText sampleLib id 8 sampleInput = .ok text ∧
    fromText sampleLib 8 text = some (.ok out) ∧ SamePlan sampleInput out :=
  binary_text_binary_partial sampleLib sampleLib_numerals id (fun l => .refl l) sampleInput
    sampleInput_expressible 8 (by decide)

/-! ### Non-vacuity with subqueries -/

/-- One number: the sum of a column. -/
def sampleSum : BRel :=
  .node ⟨.aggregate [[]]
    [⟨some ⟨5, [], [.value (sampleField 0)], [], .scalar .i32 .required, 3, 1, []⟩, none⟩], [],
    none, none⟩ [sampleTable]

/-- A filter with a subquery in the arguments of a function. -/
def sampleAsk : BRel :=
  .node ⟨.filter (some (sampleCall 7 (sampleField 1) (.scalar (some [])) .bool)), [], none, none⟩
    [sampleSum, sampleJoin]

/-- A filter that compares with a subquery. -/
def sampleAny : BRel :=
  .node ⟨.filter (some (.setComparison (sampleField 0) 1 1 (some []))), [], none, none⟩
    [sampleSum, sampleTable]

/-- Two subqueries; there are subqueries in the input and in one of the subqueries. -/
def sampleBoth : BRel :=
  .node ⟨.project [sampleCall 9 (.inPredicate [sampleField 2] (some [])) (.scalar (some [])) .i32],
    [4, 1], none, none⟩ [sampleAsk, sampleAny, sampleSum]

def sampleQueries : Input := { sampleInput with rel := sampleBoth }

theorem sampleSum_fits {up : List Nat} : TreeFits sampleLib sampleKnown up sampleSum := by
  refine treeFits_of [true, true] (by decide)
    ⟨by simp, by decide, ?_, by decide, by decide, by simp⟩ ⟨rfl, rfl⟩ rfl (fun _ => rfl) (by decide)
    ⟨sampleTable_fits, trivial⟩
  intro m hm
  simp only [List.mem_cons, List.not_mem_nil, or_false] at hm
  subst hm
  refine ⟨⟨_, rfl, sample_declared _ (by decide), rfl, ⟨?_, trivial⟩, rfl, sample_type (by decide),
    by decide, by decide, rfl⟩, fun _ h => by cases h⟩
  show Usable _ _ _
  unfold Usable InWidth
  decide

theorem sampleAsk_fits {up : List Nat} : TreeFits sampleLib sampleKnown up sampleAsk := by
  refine treeFits_of [true, true, true, true] (by decide) ⟨rfl, ?_⟩ ⟨rfl, rfl⟩ rfl
    (fun h => by cases h) (by decide) ⟨sampleSum_fits, sampleJoin_fits, trivial⟩
  intro e he
  cases he
  exact sample_call (by decide) (by decide) (told_sampleField (by decide)) rfl

theorem sampleAny_fits {up : List Nat} : TreeFits sampleLib sampleKnown up sampleAny := by
  refine treeFits_of [true, true] (by decide) ⟨rfl, ?_⟩ ⟨rfl, rfl⟩ rfl
    (fun h => by cases h) (by decide) ⟨sampleSum_fits, sampleTable_fits, trivial⟩
  intro e he
  cases he
  exact ⟨⟨told_sampleField (by decide), rfl, by decide, by decide, rfl⟩, trivial⟩

theorem sampleQueries_fits {up : List Nat} : TreeFits sampleLib sampleKnown up sampleQueries.rel := by
  refine treeFits_of [true, true, true, true] (by decide) ⟨?_, by simp, ?_, by decide⟩ ⟨rfl, rfl⟩
    rfl (fun h => by cases h) (by decide) ⟨sampleAsk_fits, sampleAny_fits, sampleSum_fits, trivial⟩
  · intro e he
    simp only [List.mem_cons, List.not_mem_nil, or_false] at he
    subst he
    exact ⟨sample_call (by decide) (by decide)
      ⟨by simp, ⟨told_sampleField (by decide), trivial⟩, rfl, rfl⟩ rfl, rfl, rfl⟩
  · unfold InWidth
    decide

theorem sampleQueries_namesFit : NamesFit sampleQueries where
  columns := by
    intro n hn
    apply not_madeUp
    revert n
    decide +kernel
  tables := by
    intro n hn
    refine ⟨not_madeUp ?_, ?_⟩ <;> revert n <;> decide +kernel
  uris := sample_namesFit.uris
  files := by decide +kernel
  functions := by
    intro n hn
    rw [show sampleQueries.table = sampleInput.table from rfl, sample_funs] at hn
    refine ⟨not_madeUp ?_, ?_⟩ <;> revert n <;> decide +kernel

theorem sampleQueries_expressible : Expressible sampleLib sampleQueries where
  tree := sampleQueries_fits
  functions := ⟨sample_functions.anchors, sample_functions.symbols, sample_functions.distinct,
    sample_functions.uris, sample_functions.named, sample_functions.typed⟩
  names := sampleQueries_namesFit
  root := sampleInput_expressible.root

/-- Non-vacuity of C62 with subqueries. -/
example : ∃ text out, toText sampleLib id 13 sampleQueries = .ok text ∧
    fromText sampleLib 13 text = some (.ok out) ∧ SamePlan sampleQueries out :=
  binary_text_binary_partial sampleLib sampleLib_numerals id (fun l => .refl l) sampleQueries
    sampleQueries_expressible 13 (by decide)

/-! ### Non-vacuity with references to the relations around a subquery -/

def sampleOuter (k : Nat) (n : Int) : PbExpr := .field (.field n false) (.outer k)

/-- One number: the sum of the rows with a value two subqueries further out. -/
def sampleDeep : BRel :=
  .node ⟨.aggregate [[]]
    [⟨some ⟨5, [], [.value (sampleField 0)], [], .scalar .i32 .required, 3, 1, []⟩, none⟩], [],
    none, none⟩
    [.node ⟨.filter (some (sampleCall 7 (sampleField 1) (sampleOuter 2 1) .bool)), [], none, none⟩
      [sampleTable]]

/-- A filter that compares with a value of the relation around it, and with a subquery. -/
def sampleInner : BRel :=
  .node ⟨.filter (some (.setComparison (sampleCall 7 (sampleField 0) (sampleOuter 1 0) .i32) 1 1
    (some []))), [], none, none⟩ [sampleDeep, sampleFiles]

/-- The rows for which there are rows of the subquery. -/
def sampleExists : BRel :=
  .node ⟨.filter (some (.call 9 0 [.value (.setPredicate 1 (some []))] []
    (.scalar .bool .required))), [], none, none⟩ [sampleInner, sampleTable]

def sampleRelated : Input := { sampleInput with rel := sampleExists }

theorem told_sampleOuter {k w : Nat} {n : Int} {up : List Nat} {ref : Int → Prop}
    (hk : up[k]? = some w) (h : 0 ≤ n ∧ n < w) :
    Told sampleLib (sampleKnown.within up) ref (sampleOuter (k + 1) n) := by
  show InWidth ((up[k]?).getD 0) n
  rw [hk]
  exact h

theorem sampleDeep_fits : TreeFits sampleLib sampleKnown [2, 2] sampleDeep := by
  refine treeFits_of [true, true] (by decide)
    ⟨by simp, by decide, ?_, by decide, by decide, by simp⟩ ⟨rfl, rfl⟩ rfl (fun _ => rfl) (by decide)
    ⟨treeFits_of [true, true] (by decide) ⟨rfl, ?_⟩ ⟨rfl, rfl⟩ rfl (fun _ => rfl) (by decide)
      ⟨sampleTable_fits, trivial⟩, trivial⟩
  · intro m hm
    simp only [List.mem_cons, List.not_mem_nil, or_false] at hm
    subst hm
    refine ⟨⟨_, rfl, sample_declared _ (by decide), rfl, ⟨?_, trivial⟩, rfl, sample_type (by decide),
      by decide, by decide, rfl⟩, fun _ h => by cases h⟩
    show Usable _ _ _
    unfold Usable InWidth
    decide
  · intro e he
    cases he
    exact sample_call (by decide) (by decide) (told_sampleField (by decide))
      (told_sampleOuter (k := 1) (w := 2) rfl (by decide))

theorem sampleInner_fits : TreeFits sampleLib sampleKnown [2] sampleInner := by
  refine treeFits_of [true, true] (by decide) ⟨rfl, ?_⟩ ⟨rfl, rfl⟩ rfl
    (fun h => by cases h) (by decide) ⟨sampleDeep_fits, sampleFiles_fits, trivial⟩
  intro e he
  cases he
  exact ⟨⟨(sample_call (by decide) (by decide) (told_sampleField (by decide))
    (told_sampleOuter (k := 0) (w := 2) rfl (by decide))).1, rfl, by decide, by decide, rfl⟩,
    trivial⟩

theorem sampleRelated_fits : TreeFits sampleLib sampleKnown [] sampleRelated.rel := by
  refine treeFits_of [true, true] (by decide) ⟨rfl, ?_⟩ ⟨rfl, rfl⟩ rfl
    (fun h => by cases h) (by decide) ⟨sampleInner_fits, sampleTable_fits, trivial⟩
  intro e he
  cases he
  exact ⟨⟨sample_declared _ (by decide), by simp, ⟨⟨by decide, rfl⟩, trivial⟩, sample_type (by decide)⟩,
    trivial⟩

theorem sampleRelated_expressible : Expressible sampleLib sampleRelated where
  tree := sampleRelated_fits
  functions := ⟨sample_functions.anchors, sample_functions.symbols, sample_functions.distinct,
    sample_functions.uris, sample_functions.named, sample_functions.typed⟩
  names := {
    columns := by
      intro n hn
      apply not_madeUp
      revert n
      decide +kernel
    tables := by
      intro n hn
      refine ⟨not_madeUp ?_, ?_⟩ <;> revert n <;> decide +kernel
    uris := sample_namesFit.uris
    files := by decide +kernel
    functions := by
      intro n hn
      rw [show sampleRelated.table = sampleInput.table from rfl, sample_funs] at hn
      refine ⟨not_madeUp ?_, ?_⟩ <;> revert n <;> decide +kernel }
  root := sampleInput_expressible.root

/-- Non-vacuity of C62 with references to the relations around a subquery. -/
example : ∃ text out, toText sampleLib id 7 sampleRelated = .ok text ∧
    fromText sampleLib 7 text = some (.ok out) ∧ SamePlan sampleRelated out :=
  binary_text_binary_partial sampleLib sampleLib_numerals id (fun l => .refl l) sampleRelated
    sampleRelated_expressible 7 (by decide)

end Verif.Whole
