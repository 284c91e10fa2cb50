import Verif.Spec.Order
import Verif.Lemmas.WholeGraph

/-! # What the readers of relations look at in the symbol table -/

namespace Verif

theorem Outcome.of_bind {α β : Type} {o : Outcome α} {f : α → Outcome β} {b : β}
    (h : o.bind f = .ok b) : ∃ a, o = .ok a ∧ f a = .ok b := by
  cases o with
  | ok a => exact ⟨a, rfl, h⟩
  | throw e => cases h
  | ub => cases h

theorem Outcome.of_map {α β : Type} {o : Outcome α} {f : α → β} {b : β}
    (h : o.map f = .ok b) : ∃ a, o = .ok a ∧ f a = b := by
  cases o with
  | ok a => exact ⟨a, rfl, by injection h⟩
  | throw e => cases h
  | ub => cases h

end Verif

namespace Verif.Rel

open Verif Verif.Lex Verif.Expr

/-- The context with other schemas. -/
def basing (f : Str → Option (List Schema.Field)) (c : RelContext) : RelContext :=
  { c with schema := f }

theorem readMeasureDetails_basing (f : Str → Option (List Schema.Field)) (first : Bool)
    (c : RelContext) (k : Nat) :
    ∀ (ds : List MeasureDetail) (d : Schema.RelData) (m : MeasureState),
    readMeasureDetails first (basing f c) k d m ds = readMeasureDetails first c k d m ds
  | [], _, _ => rfl
  | x :: ds, d, m => by
    cases x <;> simp only [readMeasureDetails, readMeasureDetails_basing f first c k ds] <;> rfl

theorem readDetail_basing {f : Str → Option (List Schema.Field)} {first : Bool} {c : RelContext}
    {st : State} {d : Detail} (h : ∀ id, d = .schema id → f id = c.schema id) :
    readDetail first (basing f c) st d = readDetail first c st d := by
  cases d with
  | schema id =>
    simp only [readDetail, readSchema]
    rw [show (basing f c).schema id = c.schema id from h id rfl]
  | measure ds => simp only [readDetail, readMeasure, readMeasureDetails_basing]
  | _ => rfl

theorem readDetails_basing {f : Str → Option (List Schema.Field)} {first : Bool} {c : RelContext} :
    ∀ {ds : List Detail} {st : State}, (∀ id, .schema id ∈ ds → f id = c.schema id) →
    readDetails first (basing f c) st ds = readDetails first c st ds
  | [], _, _ => rfl
  | d :: ds, st, h => by
    unfold readDetails
    rw [readDetail_basing fun id hd => h id (by simp [hd])]
    congr 1
    funext r
    rw [readDetails_basing fun id hd => h id (by simp [hd])]

theorem addExpressions_basing (f : Str → Option (List Schema.Field)) (first : Bool) (c : RelContext)
    (ns : List Str) : ∀ (es : List PbExpr) (d : Schema.RelData) (k : Nat),
    addExpressions first (basing f c) ns d k es = addExpressions first c ns d k es
  | [], _, _ => by unfold addExpressions; rfl
  | e :: es, d, k => by
    unfold addExpressions
    split <;> rename_i heq
    · simp at heq
    · injection heq with h1 h2
      subst h2
      simp only [addExpressions_basing f first c ns es]
    · injection heq with h1 h2
      subst h2
      simp only [addExpressions_basing f first c ns es]
      rfl

theorem readEmits_basing (f : Str → Option (List Schema.Field)) (first : Bool) (c : RelContext) :
    ∀ (ds : List Detail) (st : State),
    readEmits first (basing f c) st ds = readEmits first c st ds
  | [], _ => rfl
  | d :: ds, st => by
    cases d <;> simp only [readEmits, readEmits_basing f first c ds] <;> rfl

/-- A relation is read with the schemas its details name. -/
theorem readPass_basing {f : Str → Option (List Schema.Field)} {first : Bool} {c : RelContext}
    {k : Enum.RelType} {ds : List Detail} {ns : List Str}
    (h : ∀ id, .schema id ∈ ds → f id = c.schema id) :
    readPass first (basing f c) k ds ns = readPass first c k ds ns := by
  have ha : ∀ st, addProject first (basing f c) st = addProject first c st := by
    intro st
    unfold addProject
    split <;> simp only [addExpressions_basing]
  unfold readPass
  rw [readDetails_basing h]
  simp only [ha, readEmits_basing]
  rfl

/-- The base schema of a relation. -/
def schemaIn : Body → Option Str
  | .read _ s _ _ _ => s
  | _ => none

theorem of_asExpr {α : Type} {v : Value} {f : PbExpr → Outcome α} {a : α}
    (h : v.asExpr f = .ok a) : ∃ e, f e = .ok a := by
  unfold Value.asExpr at h
  split at h
  · exact ⟨_, h⟩
  · cases h

theorem schemaIn_withFilters (f : Filter.Filters PbExpr) (b : Body) :
    schemaIn (withFilters f b) = schemaIn b := by
  cases b <;> rfl

theorem readDetail_schema {first : Bool} {c : RelContext} {st : State} {d : Detail}
    {r : State × List ReadErr} (h : readDetail first c st d = .ok r) :
    schemaIn r.1.body = schemaIn st.body ∨ ∃ id, d = .schema id ∧ schemaIn r.1.body = some id := by
  cases d with
  | common => cases h; exact .inl rfl
  | extension => cases h; exact .inl rfl
  | emit s i => cases h; exact .inl rfl
  | schema id =>
    simp only [readDetail, readSchema] at h
    split at h
    · split at h
      · cases h; exact .inr ⟨id, rfl, rfl⟩
      · cases h; exact .inl rfl
    · cases h; exact .inl rfl
  | filter ws e =>
    simp only [readDetail, readFilter] at h
    obtain ⟨v, -, h⟩ := Outcome.of_bind h
    split at h
    all_goals
      split at h
      · cases h
      · cases h; exact .inl (schemaIn_withFilters _ _)
  | expression e n =>
    simp only [readDetail, readExpression] at h
    obtain ⟨v, -, h⟩ := Outcome.of_bind h
    split at h <;> rename_i hb
    · cases h; exact .inl rfl
    · obtain ⟨e, h⟩ := of_asExpr h
      cases h; rw [hb]; exact .inl rfl
    · obtain ⟨e, h⟩ := of_asExpr h
      cases h; rw [hb]; exact .inl rfl
    · cases h; exact .inl rfl
  | source id =>
    simp only [readDetail, readSource] at h
    split at h <;> rename_i hb
    · split at h
      · cases h; rw [hb]; exact .inl rfl
      · cases h; rw [hb]; exact .inl rfl
      · cases h
      · cases h; exact .inl rfl
    · cases h; exact .inl rfl
  | grouping e =>
    simp only [readDetail, readGrouping] at h
    obtain ⟨v, -, h⟩ := Outcome.of_bind h
    split at h <;> rename_i hb
    · obtain ⟨e, h⟩ := of_asExpr h
      obtain ⟨d, -, h⟩ := Outcome.of_map h
      subst h; rw [hb]; exact .inl rfl
    · cases h; exact .inl rfl
  | measure ds =>
    simp only [readDetail, readMeasure] at h
    obtain ⟨v, -, h⟩ := Outcome.of_map h
    subst h
    split <;> rename_i hb
    · rw [hb]; exact .inl rfl
    · exact .inl rfl
  | sort e b =>
    simp only [readDetail, readSort] at h
    split at h <;> rename_i hb
    · obtain ⟨v, -, h⟩ := Outcome.of_map h
      subst h; rw [hb]; exact .inl rfl
    · cases h; exact .inl rfl
  | count t =>
    simp only [readDetail, readCount] at h
    split at h <;> rename_i hb
    · obtain ⟨v, -, h⟩ := Outcome.of_map h
      subst h; rw [hb]; exact .inl rfl
    · cases h; exact .inl rfl
  | type id =>
    simp only [readDetail, readJoinType] at h
    split at h <;> rename_i hb
    · cases h; rw [hb]; exact .inl rfl
    · cases h; exact .inl rfl

theorem readDetails_schema {first : Bool} {c : RelContext} :
    ∀ {ds : List Detail} {st : State} {r : State × List ReadErr},
      readDetails first c st ds = .ok r →
      schemaIn r.1.body = schemaIn st.body ∨ ∃ id, .schema id ∈ ds ∧ schemaIn r.1.body = some id
  | [], _, _, h => by cases h; exact .inl rfl
  | d :: ds, st, r, h => by
    unfold readDetails at h
    obtain ⟨a, h1, h⟩ := Outcome.of_bind h
    obtain ⟨b, h2, h⟩ := Outcome.of_map h
    subst h
    rcases readDetails_schema h2 with h3 | ⟨id, h3, h4⟩
    · rcases readDetail_schema h1 with h5 | ⟨id, rfl, h6⟩
      · exact .inl (h3.trans h5)
      · exact .inr ⟨id, by simp, h3.trans h6⟩
    · exact .inr ⟨id, by simp [h3], h4⟩

theorem readEmits_keepsBody (first : Bool) (c : RelContext) :
    ∀ (ds : List Detail) (st : State), (readEmits first c st ds).1.body = st.body
  | [], _ => rfl
  | d :: ds, st => by
    cases d with
    | emit s n =>
      simp only [readEmits]
      rw [readEmits_keepsBody first c ds]
      unfold readEmit
      split
      · split <;> rfl
      · split
        · rfl
        · rfl
        · split <;> rfl
    | _ => exact readEmits_keepsBody first c ds st

/-- The base schema of a relation that has been read is named in its details. -/
theorem readPass_schema {first : Bool} {c : RelContext} {k : Enum.RelType} {ds : List Detail}
    {ns : List Str} {r : State × List ReadErr} (h : readPass first c k ds ns = .ok r) {id : Str}
    (hs : schemaIn r.1.body = some id) : .schema id ∈ ds := by
  have h0 : schemaIn (startState first c k ns).body = none := by cases k <;> rfl
  unfold readPass at h
  obtain ⟨a, h1, h⟩ := Outcome.of_bind h
  obtain ⟨b, h2, h⟩ := Outcome.of_bind h
  have hb : schemaIn b.body = schemaIn a.1.body := by
    unfold addProject at h2
    split at h2 <;> rename_i he
    · obtain ⟨d, -, h2⟩ := Outcome.of_map h2
      subst h2; rfl
    · cases h2; rfl
  have hr : schemaIn r.1.body = schemaIn b.body := by
    split at h
    · cases h; rfl
    · obtain ⟨d, h3, h⟩ := Outcome.of_map h
      subst h
      unfold finish at h3
      obtain ⟨e, -, h3⟩ := Outcome.of_map h3
      subst h3
      rw [← readEmits_keepsBody first c ds b]
      simp only
      split <;> rename_i he
      · rw [he]; rfl
      · rfl
  rcases readDetails_schema h1 with h3 | ⟨id', h3, h4⟩
  · rw [hr, hb, h3, h0] at hs; cases hs
  · rw [hr, hb, h4] at hs
    injection hs with hs
    exact hs ▸ h3

end Verif.Rel

namespace Verif.Whole

open Verif

/-- The rest of `fromDetails`. -/
def fromState (lib : Literal.Lib) (fuel : Nat) (ds : List Sec.PlanDetail) (st : Sec.State) :
    Outcome Binary :=
  if st.errs.isEmpty then
    (Pipe.visitAll (ds.filterMap pipelinesOf).flatten
      ⟨graphOf st.symbols (ds.filterMap relationOf), []⟩).bind fun g =>
      if g.errors.isEmpty && refsKnown st.symbols [] ds then
        (readPasses lib st g.table (ds.filterMap relationOf)).bind fun done =>
          (Pipe.binaryPlan g.table fuel).bind fun rs =>
            (attachL st.symbols done rs).map fun bs =>
              ⟨Ext.binaryUris st.ext.table, Ext.binaryFunctions st.ext.table,
                namedAs ((Sec.rootNamesOf st.symbols).getD []) (Pipe.namedRels g.table) bs⟩
      else .throw .other
  else .throw .other

theorem fromDetails_eq (lib : Literal.Lib) (fuel : Nat) (ds : List Sec.PlanDetail) :
    fromDetails lib fuel ds = (Sec.visitPlan ds).bind (fromState lib fuel ds) := rfl

/-- A symbol of a column, a table or an extension space. -/
def minor : Sec.Info → Bool
  | .column _ => true
  | .table => true
  | .space => true
  | _ => false

/-- The symbols of relations and roots. -/
def isTop : Sec.Info → Bool
  | .relation _ => true
  | .rootRelation => true
  | .rootNames _ => true
  | _ => false

/-- The same first symbol, or columns and tables. -/
def InfoAlike (a b : Option Sec.Info) : Prop :=
  a = b ∨ ∃ s t, a = some s ∧ b = some t ∧ minor s = true ∧ minor t = true

/-- Two tables in which the readers of relations find the same. -/
structure Matching (bases : List Str) (st st' : Sec.State) : Prop where
  info : ∀ n, InfoAlike ((Sec.lookup st.symbols n).map (·.info)) ((Sec.lookup st'.symbols n).map (·.info))
  schema : ∀ n ∈ bases, Sec.schemaOf st.symbols n = Sec.schemaOf st'.symbols n
  fields : ∀ n ∈ bases, Sec.columnFields st.symbols n = Sec.columnFields st'.symbols n
  source : ∀ n, Sec.sourceOf st.symbols n = Sec.sourceOf st'.symbols n
  top : (st.symbols.filter fun s => isTop s.info).map (fun s => (s.name, s.info)) =
    (st'.symbols.filter fun s => isTop s.info).map (fun s => (s.name, s.info))
  ext : st.ext = st'.ext
  errs : st.errs.isEmpty = st'.errs.isEmpty

theorem InfoAlike.map {α : Type} {a b : Option Sec.Info} (h : InfoAlike a b) {f : Sec.Info → α}
    (hf : ∀ s t, minor s = true → minor t = true → f s = f t) : a.map f = b.map f := by
  rcases h with rfl | ⟨s, t, rfl, rfl, h1, h2⟩
  · rfl
  · exact congrArg some (hf s t h1 h2)

theorem lookup_map {α : Type} (l : List Sec.Symbol) (n : Str) (f : Sec.Info → α) :
    ((Sec.lookup l n).map fun s => f s.info) = ((Sec.lookup l n).map (·.info)).map f := by
  cases Sec.lookup l n <;> rfl

variable {bases : List Str} {st st' : Sec.State}

theorem Matching.found (h : Matching bases st st') (n : Str) :
    (Sec.lookup st.symbols n).isSome = (Sec.lookup st'.symbols n).isSome := by
  have := congrArg Option.isSome ((h.info n).map (f := fun _ => ()) fun _ _ _ _ => rfl)
  simpa using this

theorem Matching.order (h : Matching bases st st') :
    (st.symbols.filter fun s => isRelation s.info).map (·.name) =
      (st'.symbols.filter fun s => isRelation s.info).map (·.name) := by
  have key : ∀ l : List Sec.Symbol, (l.filter fun s => isRelation s.info).map (·.name) =
      (((l.filter fun s => isTop s.info).map fun s => (s.name, s.info)).filter
        fun p => isRelation p.2).map (·.1) := by
    intro l
    induction l with
    | nil => rfl
    | cons s l ih =>
      obtain ⟨n, k, i⟩ := s
      cases i <;> simp [isRelation, isTop] at ih ⊢ <;> exact ih
  rw [key, key, h.top]

theorem Matching.roots (h : Matching bases st st') :
    Sec.rootNamesOf st.symbols = Sec.rootNamesOf st'.symbols := by
  have key : ∀ l : List Sec.Symbol, Sec.rootNamesOf l =
      ((l.filter fun s => isTop s.info).map fun s => (s.name, s.info)).findSome?
        fun p => Sec.rootOf ⟨p.1, 0, p.2⟩ := by
    intro l
    unfold Sec.rootNamesOf
    induction l with
    | nil => rfl
    | cons s l ih =>
      obtain ⟨n, k, i⟩ := s
      cases i <;> simp [isTop, Sec.rootOf, List.findSome?_cons] at ih ⊢ <;> exact ih
  rw [key, key, h.top]

theorem Matching.graph (h : Matching bases st st') (ts : List Rel.RelTree) :
    graphOf st.symbols ts = graphOf st'.symbols ts := by
  unfold graphOf
  congr 1
  · exact h.order
  · funext n
    rw [lookup_map st.symbols n (entryOf (subsOf ts n)), lookup_map st'.symbols n (entryOf (subsOf ts n))]
    refine (h.info n).map fun s t hs ht => ?_
    cases s <;> cases hs <;> cases t <;> cases ht <;> rfl

theorem Matching.anchor (h : Matching bases st st') : anchorOf st = anchorOf st' := by
  have key : ∀ (st : Sec.State) (n : Str), anchorOf st n =
      (((Sec.lookup st.symbols n).map (·.info)).map fun i => match i with
        | .function => (st.ext.table.funs.find? fun f => f.symbol = n).map (·.anchor)
        | _ => none).getD none := by
    intro st n
    unfold anchorOf
    cases Sec.lookup st.symbols n <;> rfl
  funext n
  rw [key, key, h.ext]
  refine congrArg (fun o => Option.getD o none) ((h.info n).map fun s t hs ht => ?_)
  cases s <;> cases hs <;> cases t <;> cases ht <;> rfl

theorem Matching.relation (h : Matching bases st st') (g : Pipe.Table) :
    relationNamed st.symbols g = relationNamed st'.symbols g := by
  have key : ∀ (l : List Sec.Symbol) (n : Str), relationNamed l g n =
      (match ((Sec.lookup l n).map (·.info)).map isRelation with
        | some b => some b
        | none => (g.get n).map fun _ => true) := by
    intro l n
    unfold relationNamed
    cases Sec.lookup l n <;> rfl
  funext n
  rw [key, key, (h.info n).map fun s t hs ht => ?_]
  cases s <;> cases hs <;> cases t <;> cases ht <;> rfl

theorem Matching.sourceSymbol (h : Matching bases st st') :
    Sec.sourceSymbol st.symbols = Sec.sourceSymbol st'.symbols := by
  have key : ∀ (l : List Sec.Symbol) (n : Str), Sec.sourceSymbol l n =
      ((Sec.lookup l n).map (·.info)).map fun i => match i with
        | .source .files => .files
        | .source .named => .named
        | .source .virtual => .virtual
        | .source .extension => .extension
        | .rootNames _ => .unknown
        | _ => .notSource := by
    intro l n
    unfold Sec.sourceSymbol
    cases Sec.lookup l n <;> rfl
  funext n
  rw [key, key]
  refine (h.info n).map fun s t hs ht => ?_
  cases s <;> cases hs <;> cases t <;> cases ht <;> rfl

theorem Matching.context (h : Matching bases st st') (lib : Literal.Lib) (g : Pipe.Table) (done : Relations)
    (fresh : List Str) (n : Str) :
    Rel.basing (Sec.columnFields st.symbols) (readerContext lib st' g done fresh n) =
      readerContext lib st g done fresh n := by
  unfold readerContext Rel.basing
  simp only
  rw [h.anchor, h.relation g, h.sourceSymbol]

/-- The base schemas of the relations of a text. -/
def Bases (bases : List Str) (ts : List Rel.RelTree) : Prop :=
  ∀ t ∈ ts, ∀ id, Rel.Detail.schema id ∈ t.details → id ∈ bases

theorem Matching.readRelation (h : Matching bases st st') {lib : Literal.Lib} {g : Pipe.Table} {first : Bool}
    {done : Relations} {fresh : List Str} {t : Rel.RelTree}
    (ht : ∀ id, Rel.Detail.schema id ∈ t.details → id ∈ bases) :
    readRelation lib st g first done fresh t = readRelation lib st' g first done fresh t := by
  unfold Whole.readRelation
  split
  · rfl
  · rw [← h.context, Rel.readPass_basing fun id hid => h.fields id (ht id hid)]

theorem Matching.readRelations (h : Matching bases st st') {lib : Literal.Lib} {g : Pipe.Table} {first : Bool} :
    ∀ {ts : List Rel.RelTree} {u : Counters} {done : Relations}, Bases bases ts →
    readRelations lib st g first u done ts = readRelations lib st' g first u done ts
  | [], _, _, _ => rfl
  | t :: ts, u, done, hb => by
    unfold Whole.readRelations
    rw [h.readRelation (hb t (by simp))]
    congr 1
    funext r
    exact h.readRelations fun x hx => hb x (by simp [hx])

theorem Matching.readPasses (h : Matching bases st st') {lib : Literal.Lib} {g : Pipe.Table}
    {ts : List Rel.RelTree} (hb : Bases bases ts) :
    readPasses lib st g ts = readPasses lib st' g ts := by
  unfold Whole.readPasses
  rw [h.readRelations hb]
  congr 1
  funext r
  exact h.readRelations hb

/-- The schemas of the relations that have been read. -/
def Based (bases : List Str) (done : Relations) : Prop :=
  ∀ e ∈ done, ∀ id, Rel.schemaIn e.2.rel.body = some id → id ∈ bases

theorem readRelations_based {lib : Literal.Lib} {g : Pipe.Table} {first : Bool} :
    ∀ {ts : List Rel.RelTree} {u : Counters} {done done' : Relations}, Bases bases ts →
    Based bases done → readRelations lib st g first u done ts = .ok done' → Based bases done'
  | [], _, _, _, _, hd, h => by cases h; exact hd
  | t :: ts, u, done, done', hb, hd, h => by
    unfold readRelations at h
    obtain ⟨r, h1, h2⟩ := Outcome.of_bind h
    refine readRelations_based (fun x hx => hb x (by simp [hx])) ?_ h2
    intro e he id hid
    rcases List.mem_cons.mp he with rfl | he
    · unfold readRelation at h1
      split at h1
      · cases h1
      · obtain ⟨a, h3, h1⟩ := Outcome.of_bind h1
        split at h1
        · cases h1
          exact hb t (by simp) id (Rel.readPass_schema h3 hid)
        · cases h1
    · exact hd e he id hid

theorem readPasses_based {lib : Literal.Lib} {g : Pipe.Table} {ts : List Rel.RelTree}
    {done : Relations} (hb : Bases bases ts) (h : readPasses lib st g ts = .ok done) :
    Based bases done := by
  unfold readPasses at h
  obtain ⟨a, h1, h2⟩ := Outcome.of_bind h
  exact readRelations_based hb (readRelations_based hb (fun e he => by cases he) h1) h2

theorem Based.find {done : Relations} (h : Based bases done) {n : Str} {d : Done}
    (hf : done.find n = some d) {id : Str} (hs : Rel.schemaIn d.rel.body = some id) : id ∈ bases := by
  unfold Relations.find at hf
  cases he : List.find? (fun e => decide (e.1 = n)) done with
  | none => rw [he] at hf; cases hf
  | some e =>
    rw [he] at hf
    injection hf with hf
    subst hf
    exact h e (List.mem_of_find?_eq_some he) id hs

theorem Matching.ownOf (h : Matching bases st st') {r : Rel.PbRel}
    (hr : ∀ id, Rel.schemaIn r.body = some id → id ∈ bases) :
    ownOf st.symbols r = ownOf st'.symbols r := by
  unfold Whole.ownOf
  split <;> rename_i hb
  · rename_i s sc f b p
    have e1 : sc.bind (Sec.schemaOf st.symbols) = sc.bind (Sec.schemaOf st'.symbols) := by
      cases sc with
      | none => rfl
      | some id => exact h.schema id (hr id (by rw [hb]; rfl))
    rw [e1]
    cases s with
    | none => rfl
    | some n => simp only; rw [h.source n]
  · rfl

mutual
theorem Matching.attach (h : Matching bases st st') {done : Relations} (hd : Based bases done) :
    ∀ r : Pipe.Rel, attach st.symbols done r = attach st'.symbols done r
  | .node k n ins subs => by
    have ho : Whole.ownOf st.symbols (((done.find n).map (·.rel)).getD ⟨.other, []⟩) =
        Whole.ownOf st'.symbols (((done.find n).map (·.rel)).getD ⟨.other, []⟩) := by
      apply h.ownOf
      intro id hid
      cases hf : done.find n with
      | none => rw [hf] at hid; cases hid
      | some d => rw [hf] at hid; exact hd.find hf hid
    unfold Whole.attach
    rw [ho, Matching.attachL h hd ins, Matching.attachL h hd subs]
theorem Matching.attachL (h : Matching bases st st') {done : Relations} (hd : Based bases done) :
    ∀ rs : List Pipe.Rel, attachL st.symbols done rs = attachL st'.symbols done rs
  | [] => rfl
  | r :: rs => by
    unfold Whole.attachL
    rw [Matching.attach h hd r, Matching.attachL h hd rs]
end

/-- Tables that are alike give the same plan. -/
theorem Matching.fromState (h : Matching bases st st') {lib : Literal.Lib} {fuel : Nat}
    {ds ds' : List Sec.PlanDetail} (hr : ds.filterMap relationOf = ds'.filterMap relationOf)
    (hp : ds.filterMap pipelinesOf = ds'.filterMap pipelinesOf)
    (hb : Bases bases (ds.filterMap relationOf))
    (hk : refsKnown st.symbols [] ds = refsKnown st'.symbols [] ds') :
    fromState lib fuel ds st = fromState lib fuel ds' st' := by
  unfold Whole.fromState
  rw [h.errs, hp, h.graph, hk, hr, h.ext, h.roots]
  split
  · congr 1
    funext g
    split
    · rw [h.readPasses (by rw [← hr]; exact hb)]
      cases hd : Whole.readPasses lib st' g.table (ds'.filterMap relationOf) with
      | ok done =>
        simp only [Outcome.bind_ok]
        congr 1
        funext rs
        rw [h.attachL (readPasses_based (by rw [← hr]; exact hb) hd)]
      | throw e => rfl
      | ub => rfl
    · rfl
  · rfl

end Verif.Whole
