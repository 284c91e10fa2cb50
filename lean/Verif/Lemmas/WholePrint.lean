import Verif.Lemmas.WholeRel

/-! # The relations of a tree are printed as the ones that are read -/

namespace Verif.Whole

open Verif Verif.TyPb Verif.Expr Verif.Schema

variable {e : Env} {fn : Known} {n : Names} {o : Own} {f : List Col} {fresh : Place}
  {lib : Literal.Lib}

/-! ## Fields after reading -/

theorem pick_congr {α : Type} {l : List α} {g : Int → Int} {is : List Int}
    (h : ∀ i ∈ is, l[(g i).toNat]? = l[i.toNat]?) : pick l (is.map g) = pick l is := by
  unfold pick
  induction is with
  | nil => rfl
  | cons i is ih =>
    rw [List.map_cons, List.filterMap_cons, List.filterMap_cons, h i (by simp),
      ih fun j hj => h j (by simp [hj])]

theorem readData_new (hr : Ready f n o)
    (hb : BodyFits e.lib fn (f.map Col.isColumn) o.emit o.body) (hk : TablesKnown e n o)
    (hl : f.length + (newCols n f o.body).length < 2147483648) :
    Rel.readData (ctx e n o f fresh) (newRel e n o f) = readFields n o f := by
  have hlen : (f.map Col.isColumn).length = f.length := by simp
  obtain ⟨body, emit, schema, source⟩ := o
  unfold newRel Rel.readData readFields
  cases body with
  | read a b c d p =>
    obtain ⟨sn, tn, h1, h2, h3, h4⟩ := hk rfl
    simp only [withNames, renumberBody, h2, Option.bind_some]
    have : (ctx e n ⟨.read a b c d p, emit, schema, source⟩ f fresh).schema tn = _ := h4
    rw [this]
    rfl
  | project es =>
    have hi := project_refs hb
    rw [hlen] at hi
    simp only [newCols] at hl
    rw [projectCols_length] at hl
    simp only [withNames, renumberBody, newCols]
    rw [projectFields_eq hr hi]
    unfold Rel.mapped
    by_cases he : emit = []
    · subst he
      simp [pick, Rel.RelContext.start, ctx]
    · rw [if_neg (by simpa using he)]
      simp only [Rel.RelContext.start, Rel.emitFields, Bool.false_eq_true, if_false]
      congr 1
      rw [show (ctx e n ⟨.project es, emit, schema, source⟩ f fresh).inputs = f.map Col.read from rfl,
        ← List.map_append]
      show pick ((f ++ projectCols n f 0 es).map Col.read) (emit.map (readEmit n f (.project es))) = _
      rw [← pick_map, pick_congr]
      intro i him
      have hw := hb.2.2.1 i him
      rw [hlen] at hw
      exact (readEmit_project hr hi hl hw).2.2.1
  | aggregate gs ms =>
    have hg : ∃ g, gs = [g] := by
      simp only [BodyFits] at hb
      split at hb <;> simp_all
    obtain ⟨g, rfl⟩ := hg
    have hi := aggregate_refs hb
    rw [hlen] at hi
    have hnew : newCols n f (.aggregate [g] ms) =
        (grouped g).map (colAt f) ++ measureCols n ms.length := by
      simp [newCols]
    simp only [withNames, renumberBody, List.map_cons, List.map_nil, List.flatten_cons,
      List.flatten_nil, List.append_nil, outCols, hnew]
    rw [afterAll (ms := ms) hr.measures hi (by simp), readEmit_other (by simp)]
    unfold Rel.mapped
    by_cases he : emit = []
    · subst he
      simp [measureData]
    · rw [if_neg he, if_neg he]
      simp only [measureData, Rel.emitFields, if_true, pick_map]
      rfl
  | _ => rfl

theorem exposed_read (hb : BodyFits lib fn (f.map Col.isColumn) o.emit o.body)
    (hf : isRead o.body = true → f = []) :
    exposed (readFields n o f) = (outCols n o f).map Col.read := by
  have hk := newCols_kinds n f o.body
  have hlen : (f.map Col.isColumn).length = f.length := by simp
  obtain ⟨body, emit, schema, source⟩ := o
  unfold readFields outCols exposed
  cases body with
  | read a b c d p =>
    rw [hf rfl]
    simp only [List.map_nil, List.append_nil]
    split
    · rename_i h
      simpa using h
    · rfl
  | project es =>
    simp only
    by_cases he : emit = []
    · simp [he, pick]
    · have hp : pick (f ++ newCols n f (.project es)) emit ≠ [] := by
        apply pick_ne_nil he
        intro i h
        have := hb.2.2.1 i h
        rw [hlen] at this
        simp only [newCols, List.length_append, projectCols_length]
        obtain ⟨h0, h1⟩ := this
        omega
      rw [if_neg (by simpa using hp), if_neg he]
  | aggregate gs ms =>
    have hg : ∃ g, gs = [g] := by
      simp only [BodyFits] at hb
      split at hb <;> simp_all
    obtain ⟨g, rfl⟩ := hg
    simp only
    by_cases he : emit = []
    · rw [if_pos he, if_neg]
      have := hb.2.2.2.1
      simp only [newCols, List.flatten_cons, List.flatten_nil, List.append_nil, measureCols]
      rcases this with h | h
      · cases hgr : grouped g with
        | nil => exact absurd hgr h
        | cons a b => simp
      · cases ms with
        | nil => exact absurd rfl h
        | cons a b => simp [List.range_succ]
    · rw [if_neg he, if_neg]
      have hp : pick (newCols n f (.aggregate [g] ms)) emit ≠ [] := by
        apply pick_ne_nil he
        intro i h
        have := hb.2.2.2.2.2 i h
        obtain ⟨h2, -⟩ := List.getElem?_eq_some_iff.mp this.2
        rw [← hk, List.length_map] at h2
        exact h2
      simpa using hp
  | _ => simp

theorem dataKnown_new (hb : BodyFits e.lib fn (f.map Col.isColumn) o.emit o.body) :
    Rel.DataKnown (ctx e n o f fresh) (newRel e n o f) := by
  obtain ⟨body, emit, schema, source⟩ := o
  intro es h
  cases body <;> simp only [newRel, withNames, renumberBody, reduceCtorEq] at h
  rename_i es'
  simp only [Rel.Body.project.injEq] at h
  subst h
  exact projectRefs_new hb

/-! ## Alternatives -/

/-- What is remembered of the fields before. -/
structure SeenOk (gs : List Field) (s : Seen) : Prop where
  names : ∀ x ∈ s.names, ∃ g, gs[x.2]? = some g ∧ g.name = x.1 ∧ g.alias = []
  texts : ∀ x ∈ s.texts, ∃ g sc, gs[x.1]? = some g ∧ g.alias = [] ∧ g.schema = some sc ∧
    x.2 = nameOf g

theorem fullName_ok {gs : List Field} {k : Nat} {g : Field} (hg : gs[k]? = some g)
    (ha : g.alias = []) : ∀ x ∈ fullName k g.name g, ∃ g sc, gs[x.1]? = some g ∧ g.alias = [] ∧
      g.schema = some sc ∧ x.2 = nameOf g := by
  intro x hx
  unfold fullName at hx
  cases hs : g.schema with
  | none => simp [hs] at hx
  | some s =>
    rw [hs] at hx
    simp only at hx
    split at hx
    · simp at hx
    · simp only [List.mem_singleton] at hx
      subst hx
      exact ⟨g, s, hg, ha, hs, by simp [nameOf, ha, hs]⟩

theorem seeField_ok {gs : List Field} {s : Seen} (h : SeenOk gs s) {k : Nat} {g : Field}
    (hg : gs[k]? = some g) : SeenOk gs (seeField gs s k g) := by
  unfold seeField
  split
  · rename_i ha
    have ha : g.alias = [] := by simpa using ha
    cases hm : Sym.mapFind s.names g.name with
    | none =>
      refine ⟨fun x hx => ?_, h.texts⟩
      simp only [List.mem_append, List.mem_singleton] at hx
      rcases hx with hx | rfl
      · exact h.names x hx
      · exact ⟨g, hg, rfl, ha⟩
    | some p =>
      refine ⟨h.names, fun x hx => ?_⟩
      unfold Sym.mapFind at hm
      obtain ⟨y, hy, hyp⟩ := Option.map_eq_some_iff.mp hm
      have hyn := List.find?_some hy
      simp only [beq_iff_eq] at hyn
      obtain ⟨g', hg', hn', ha'⟩ := h.names y (List.mem_of_find?_eq_some hy)
      rw [hyp] at hg'
      rw [hyn] at hn'
      simp only [hg', List.mem_append] at hx
      rcases hx with (hx | hx) | hx
      · rw [← hn'] at hx
        exact fullName_ok hg' ha' x hx
      · exact fullName_ok hg ha x hx
      · exact h.texts x hx
  · exact h

theorem seeFields_ok {gs : List Field} : ∀ (suf pre : List Field) (s : Seen), pre ++ suf = gs →
    SeenOk gs s → SeenOk gs (seeFields gs s pre.length suf)
  | [], _, _, _, h => h
  | g :: suf, pre, s, hp, h => by
    have hg : gs[pre.length]? = some g := by rw [← hp]; simp
    have := seeFields_ok suf (pre ++ [g]) _ (by simpa using hp) (seeField_ok h hg)
    simpa [seeFields] using this

/-- An alternative is the name of the column. -/
theorem alternative_ok {gs : List Field} {k : Nat} {s : Str} (h : alternative gs k = some s) :
    ∃ g sc, gs[k]? = some g ∧ g.alias = [] ∧ g.schema = some sc ∧ s = nameOf g := by
  unfold alternative at h
  obtain ⟨x, hx, rfl⟩ := Option.map_eq_some_iff.mp h
  have hk := List.find?_some hx
  simp only [decide_eq_true_eq] at hk
  have hok := seeFields_ok (gs := gs) gs [] ⟨[], []⟩ rfl ⟨by simp, by simp⟩
  obtain ⟨g, sc, h1, h2, h3, h4⟩ := hok.texts x (List.mem_of_find?_eq_some hx)
  exact ⟨g, sc, hk ▸ h1, h2, h3, h4⟩

/-! ## The same text -/

theorem optLine_said {c c' : Context} {ρ : Nat → Nat} {ref : Int → Prop} (ha : Agree ρ fn c c')
    (b a : Str) {x : Option PbExpr} (hx : SaidOpt lib fn ref x) :
    Rel.optLine c' b a (x.map (renumber ρ)) = Rel.optLine c b a x := by
  cases x with
  | none => rfl
  | some x => simp only [Option.map_some, Rel.optLine, printExpr_said ha x 0 (hx x rfl)]

theorem aggregateArgs_told {c c' : Context} {ρ : Nat → Nat} {ref : Int → Prop}
    (ha : Agree ρ fn c c') : ∀ as, ToldArgs lib fn ref as →
      Rel.printAggregateArgs c' (renumberArgs ρ as) = Rel.printAggregateArgs c as
  | [], _ => by simp [renumberArgs, Rel.printAggregateArgs]
  | a :: as, h => by
    simp only [ToldArgs] at h
    simp only [renumberArgs, Rel.printAggregateArgs, aggregateArgs_told ha as h.2]
    congr 2
    cases a with
    | value e =>
      have h1 := h.1
      simp only [ToldArg] at h1
      simp only [renumberArg, Rel.printAggregateArg, printArg, printExpr_told ha e 1 h1]
    | enum s => simp only [renumberArg, Rel.printAggregateArg, printArg]
    | notSet => exact absurd h.1 (by simp [ToldArg])
    | type t => exact absurd h.1 (by simp [ToldArg])

theorem fieldExpr_agree {c c' : Context} {ρ : Nat → Nat} (ha : Agree ρ fn c c') (k : Int) (d : Nat) :
    printExpr c' d (renumber ρ (.field (.field k false) .root)) =
      printExpr c d (.field (.field k false) .root) := by
  simp only [renumber, printExpr, fieldText, ha.scopes]

theorem printGrouping_said {c c' : Context} {ρ : Nat → Nat} {ref ref' : Int → Prop}
    (ha : Agree ρ fn c c') : ∀ g : List PbExpr,
      (∀ x ∈ g, Said lib fn ref x ∧ Rel.FieldKept x ∧ Rel.isOuter x = false ∨
        ∃ n, x = .field (.field n false) .root ∧ ref' n) →
      Rel.printGrouping c' (g.map (renumber ρ)) = Rel.printGrouping c g
  | [], _ => rfl
  | x :: g, h => by
    have ih := printGrouping_said ha g fun y hy => h y (by simp [hy])
    simp only [List.map_cons, Rel.printGrouping, ih]
    congr 2
    rcases h x (by simp) with ⟨hx, -⟩ | ⟨k, rfl, -⟩
    · exact printExpr_said ha x 0 hx
    · exact fieldExpr_agree ha k 0

theorem printMeasure_said {c c' : Rel.RelContext} {ρ : Nat → Nat} {ref : Int → Prop}
    (ha : Agree ρ fn c.expr c'.expr) (hn : c'.measureName = c.measureName) (k : Nat)
    {m : Rel.PbMeasure} (h : MeasureFits lib fn ref m) :
    Rel.printMeasure c' k (renumberMeasure ρ m) = Rel.printMeasure c k m := by
  obtain ⟨⟨a, h0, h1, h2, h3, h4, h5, h6, h7, h8⟩, hfilter⟩ := h
  unfold Rel.printMeasure
  simp only [renumberMeasure, h0, Option.map_some, optLine_said ha _ _ hfilter, hn]
  simp only [Rel.printAggregate, renumberAggregate, aggregateArgs_told ha _ h3, h4, renumberList,
    printExprs, functionText_agree ha h1]

theorem printMeasures_said {c c' : Rel.RelContext} {ρ : Nat → Nat} {ref : Int → Prop}
    (ha : Agree ρ fn c.expr c'.expr) (hn : c'.measureName = c.measureName) :
    ∀ (ms : List Rel.PbMeasure) (k : Nat), (∀ m ∈ ms, MeasureFits lib fn ref m) →
      Rel.printMeasures c' k (ms.map (renumberMeasure ρ)) = Rel.printMeasures c k ms
  | [], _, _ => rfl
  | m :: ms, k, h => by
    simp only [List.map_cons, Rel.printMeasures, printMeasure_said ha hn k (h m (by simp)),
      printMeasures_said ha hn ms (k + 1) fun y hy => h y (by simp [hy])]

theorem printSorts_said {c c' : Context} {ρ : Nat → Nat} {ref : Int → Prop}
    (ha : Agree ρ fn c c') : ∀ (ss : List Rel.PbSort) (acc : Str × List Rel.PrintErr),
      (∀ s ∈ ss, Said lib fn ref s.expr ∧ ∃ n, s.kind = .direction n ∧ 1 ≤ n ∧ n ≤ 5) →
      Rel.printSorts c' acc (ss.map (renumberSort ρ)) = Rel.printSorts c acc ss
  | [], _, _ => rfl
  | s :: ss, acc, h => by
    obtain ⟨h1, k, h2, -⟩ := h s (by simp)
    have ih := fun acc => printSorts_said ha ss acc fun y hy => h y (by simp [hy])
    simp only [List.map_cons, Rel.printSorts, renumberSort, printExpr_said ha _ 0 h1, h2, ih]

theorem printEmitLines_congr {c c' : Rel.RelContext} {g : Int → Int} :
    ∀ is : List Int, (∀ i ∈ is, ∃ s, printEmit c'.here (g i) = some s ∧
        printEmit c.here i = some s) →
      Rel.printEmitLines c' (is.map g) = Rel.printEmitLines c is
  | [], _ => rfl
  | i :: is, h => by
    obtain ⟨s, h1, h2⟩ := h i (by simp)
    simp only [List.map_cons, Rel.printEmitLines, Rel.printEmitLine, h1, h2,
      printEmitLines_congr is fun j hj => h j (by simp [hj])]

theorem kind_renumber (ρ : Nat → Nat) (b : Rel.Body) : (renumberBody ρ b).kind = b.kind := by
  cases b <;> rfl

theorem kind_withNames (n : Names) (b : Rel.Body) : (withNames n b).kind = b.kind := by
  cases b <;> rfl

theorem names_renumber (ρ : Nat → Nat) (b : Rel.Body) : (renumberBody ρ b).names = b.names := by
  cases b <;> rfl

theorem line_text (b s a : Str) :
    Rel.line b (.ok (s, [])) (Rel.namedText none ++ a) = .ok (b ++ s ++ a, []) := rfl

theorem printProject_new {es : List PbExpr} {emit : List Int} {s : Option Sec.NamedStruct}
    {t : Option Sec.Source} {x : Setting} (he : EnvFits e fn) (hx : x.lib = e.lib)
    (hxf : functionName x.functions = e.printName)
    (hi : ∀ e ∈ es, ∀ i, Rel.fieldOf e = some i → 0 ≤ i ∧ i < f.length)
    (hl : f.length < 2147483648) :
    ∀ (pre suf : List PbExpr), pre ++ suf = es →
      (∀ x ∈ suf, Said e.lib fn (InWidth f.length) x ∧ Rel.isOuter x = false) →
      Rel.printProject (ctx e n ⟨.project es, emit, s, t⟩ f fresh) pre.length
        (suf.map (renumber e.ρ)) =
      Rel.printProject (printContext x fresh.up n ⟨.project es, emit, s, t⟩
        (convData n ⟨.project es, emit, s, t⟩ f)) pre.length suf
  | pre, [], _, _ => rfl
  | pre, y :: suf, hp, hs => by
    have ih := printProject_new (emit := emit) (s := s) (t := t)
      (x := x) he hx hxf hi hl (pre ++ [y]) suf
      (by simpa using hp) (fun z hz => hs z (by simp [hz]))
    simp only [List.length_append, List.length_singleton] at ih
    have hy : es[pre.length]? = some y := by rw [← hp]; simp
    simp only [List.map_cons, Rel.printProject, ih]
    congr 1
    have hpr : printExpr (ctx e n ⟨.project es, emit, s, t⟩ f fresh).expr 0 (renumber e.ρ y) =
        printExpr (convCtx e n ⟨.project es, emit, s, t⟩ f fresh.up) 0 y :=
      printExpr_said (agree_print he) y 0 (hs y (by simp)).1
    have hec : (printContext x fresh.up n ⟨.project es, emit, s, t⟩
        (convData n ⟨.project es, emit, s, t⟩ f)).expr = convCtx e n ⟨.project es, emit, s, t⟩ f fresh.up := by
      simp only [printContext, convCtx, hx, hxf]
    have hal : Rel.aliasOf (printContext x fresh.up n ⟨.project es, emit, s, t⟩
        (convData n ⟨.project es, emit, s, t⟩ f)) pre.length =
        Rel.aliasOf (ctx e n ⟨.project es, emit, s, t⟩ f fresh) pre.length := rfl
    rw [hec, hal, hpr]
    have hnone : (ctx e n ⟨.project es, emit, s, t⟩ f fresh).alternative pre.length = none := rfl
    rw [hnone]
    simp only
    cases halt : (printContext x fresh.up n ⟨.project es, emit, s, t⟩
        (convData n ⟨.project es, emit, s, t⟩ f)).alternative pre.length with
    | none => rfl
    | some a =>
      simp only
      obtain ⟨g, sc, h1, h2, h3, h4⟩ := alternative_ok halt
      simp only [convData, newCols, List.getElem?_map] at h1
      obtain ⟨c, hc, rfl⟩ := Option.map_eq_some_iff.mp h1
      have hna : Rel.aliasOf (ctx e n ⟨.project es, emit, s, t⟩ f fresh) pre.length = none := by
        rw [aliasOf_project, hc]
        simp [h2]
      rw [hna]
      have hc' := hc
      rw [projectCols_getElem?, hy] at hc'
      simp only [Option.map_some, Option.some.injEq] at hc'
      cases hf : Rel.fieldOf y with
      | none =>
        rw [hf] at hc'
        rw [← hc'] at h3
        simp [Col.conv] at h3
      | some i =>
        rw [hf] at hc'
        simp only at hc'
        obtain ⟨rfl, h0, hlt⟩ := said_field (hs y (by simp)).1 (hs y (by simp)).2 hf
        have hlk : Schema.lookup (convData n ⟨.project es, emit, s, t⟩ f :: fresh.up) 0 i.toNat = some c.text := by
          rw [Schema.lookup]
          simp only [convData]
          rw [List.getElem?_append_left (by simp; omega), List.getElem?_map, colAt_some h0 hlt, hc']
          simp [nameOf_conv]
        have hnum : (i % 4294967296).toNat = i.toNat := by omega
        have hpe : printExpr (convCtx e n ⟨.project es, emit, s, t⟩ f fresh.up) 0
            (.field (.field i false) .root) = .ok (c.text, []) := by
          simp only [printExpr, fieldText, convCtx, Segment.number, hnum, Root.steps, hlk]
        rw [hpe, h4, nameOf_conv]
        exact line_text _ _ _

/-- The text of the converter is the text of the relation that is read. -/
theorem printRelation_new {x : Setting} (hr : Ready f n o) (he : EnvFits e fn) (hx : x.lib = e.lib)
    (hxf : functionName x.functions = e.printName)
    (hb : BodyFits e.lib fn (f.map Col.isColumn) o.emit o.body) (hk : TablesKnown e n o)
    (hl : f.length + (newCols n f o.body).length < 2147483648) :
    Rel.printRelation (printContext x fresh.up n o (convData n o f)) ⟨withNames n o.body, o.emit⟩ =
      Rel.printRelation (ctx e n o f fresh) (newRel e n o f) := by
  have hlen : (f.map Col.isColumn).length = f.length := by simp
  have hec : (printContext x fresh.up n o (convData n o f)).expr = convCtx e n o f fresh.up := by
    simp only [printContext, convCtx, hx, hxf]
  have ha : Agree e.ρ fn (printContext x fresh.up n o (convData n o f)).expr (ctx e n o f fresh).expr := by
    rw [hec]
    exact agree_print he
  have hbody : Rel.printBody (printContext x fresh.up n o (convData n o f)) ⟨withNames n o.body, o.emit⟩ =
      Rel.printBody (ctx e n o f fresh) (newRel e n o f) := by
    obtain ⟨body, emit, schema, source⟩ := o
    unfold newRel
    cases body with
    | read a b c d p =>
      obtain ⟨rfl, rfl, rfl, rfl, hb⟩ := bodyFits_read hb
      obtain ⟨sn, tn, h1, h2, -, -⟩ := hk rfl
      simp only [withNames, renumberBody, h1, Rel.printBody, optLine_said ha _ _ hb.2, Option.map_none]
      rfl
    | filter c =>
      simp only [withNames, renumberBody, Rel.printBody, optLine_said ha _ _ hb.2]
    | fetch a c => rfl
    | sort ss =>
      simp only [withNames, renumberBody, Rel.printBody, printSorts_said ha _ _ hb.2]
    | join a c p =>
      obtain ⟨rfl, hb⟩ := bodyFits_join hb
      simp only [withNames, renumberBody, Rel.printBody, optLine_said ha _ _ hb.2.2, Option.map_none]
      rfl
    | cross => rfl
    | other => rfl
    | project es =>
      have hi := project_refs hb
      rw [hlen] at hi
      simp only [newCols] at hl
      rw [projectCols_length] at hl
      have hsaid := fun x hx => And.intro (hb.1 x hx).1 (hb.1 x hx).2.2
      rw [hlen] at hsaid
      have hpp := printProject_new (emit := emit) (s := schema) (t := source) (n := n)
        (fresh := fresh) (x := x) he hx hxf hi (by omega) [] es rfl hsaid
      simp only [List.length_nil] at hpp
      simp only [withNames, renumberBody, Rel.printBody, hpp, Rel.printCommon]
      rw [printEmitLines_congr (c := printContext x fresh.up n ⟨.project es, emit, schema, source⟩
        (convData n ⟨.project es, emit, schema, source⟩ f))]
      · cases emit <;> rfl
      · intro i him
        have hw := hb.2.2.1 i him
        rw [hlen] at hw
        obtain ⟨hwj, -, hsame, -⟩ := readEmit_project hr hi hl hw
        refine ⟨_, printEmit_project hwj, ?_⟩
        have hcol : colAt (f ++ projectCols n f 0 es) (readEmit n f (.project es) i) =
            colAt (f ++ projectCols n f 0 es) i := by
          unfold colAt
          rw [hsame]
        rw [hcol]
        exact printEmit_project hw
    | aggregate gs ms =>
      have hg : ∃ g, gs = [g] := by
        simp only [BodyFits] at hb
        split at hb <;> simp_all
      obtain ⟨g, rfl⟩ := hg
      rw [readEmit_other (by simp)]
      simp only [withNames, renumberBody, Rel.printBody, List.map_cons, List.map_nil,
        Rel.printGroupings, printGrouping_said ha g hb.1]
      rw [printMeasures_said (c := printContext x fresh.up n ⟨.aggregate [g] ms, emit, schema, source⟩
        (convData n ⟨.aggregate [g] ms, emit, schema, source⟩ f)) ha rfl ms 0 hb.2.2.1]
      have : ∀ is : List Int, Rel.printEmitLines (printContext x fresh.up n
          ⟨.aggregate [g] ms, emit, schema, source⟩
          (convData n ⟨.aggregate [g] ms, emit, schema, source⟩ f)) is =
          Rel.printEmitLines (ctx e n ⟨.aggregate [g] ms, emit, schema, source⟩ f fresh) is := by
        intro is
        induction is with
        | nil => rfl
        | cons i is ih => simp only [Rel.printEmitLines, ih]; rfl
      simp only [Rel.printCommon, this]
  unfold Rel.printRelation
  rw [hbody]
  simp only [newRel, kind_renumber, names_renumber]
  rfl

end Verif.Whole
