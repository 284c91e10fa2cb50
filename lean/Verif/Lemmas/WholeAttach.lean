import Verif.Lemmas.WholePasses

/-! # The binary plan that is made of what was read -/

namespace Verif.Whole

open Verif Verif.TyPb Verif.Expr Verif.Schema

variable {s : Setting} {bs : List Ext.Block} {names : List Str} {r : NRel}

theorem sameEmit_new {lib : Literal.Lib} {fn : Known} {x : NRel} (g : Good lib fn x) :
    SameEmit x.inCols.length x.own.body x.own.emit
      (x.own.emit.map (readEmit x.names x.inCols x.own.body)) := by
  have hlen : (x.inCols.map Col.isColumn).length = x.inCols.length := by simp
  obtain ⟨n, o, ins⟩ := x
  obtain ⟨body, emit, schema, source⟩ := o
  have hr := g.ready
  have hb := g.body
  have hl := g.bound
  simp only [NRel.own, NRel.names] at hr hb hl ⊢
  generalize NRel.inCols _ = f at hr hb hl hlen
  by_cases hp : ∃ es, body = .project es
  · obtain ⟨es, rfl⟩ := hp
    simp only [SameEmit, List.map_map]
    apply List.map_congr_left
    intro i hi
    simp only [BodyFits, hlen] at hb
    have hnl : (newCols n f (.project es)).length = es.length := projectCols_length n f es 0
    rw [hnl] at hl
    exact (readEmit_project hr (fun e he j hj => (said_field (hb.1 e he).1 (hb.1 e he).2.2 hj).2) hl
      (hb.2.2.1 i hi)).2.1
  · rw [readEmit_other fun es he => hp ⟨es, he⟩]
    unfold SameEmit
    split
    · exact absurd ⟨_, rfl⟩ hp
    · rfl

theorem Fine.ownOf (h : Fine s bs names r) {g : Pipe.Table} {x : NRel} (hx : x ∈ subs r) :
    Whole.ownOf (table s bs names r).symbols
        (newRel (Whole.env1 s bs names r g) x.names x.filled x.inCols) =
      .ok ⟨renumberBody (newNumber s.functions bs) x.own.body,
        x.own.emit.map (readEmit x.names x.inCols x.own.body), x.own.schema, x.own.source⟩ := by
  have g := h.good x hx
  have hb := g.body
  have hn := g.named
  have ht := g.tables
  have hk := blank_fill (names := x.names.queries) (fun n h => h) (newNumber s.functions bs) hb
  have hs : ∀ m t, x.names.schema = some m → x.own.schema = some t →
      Sec.schemaOf (table s bs names r).symbols m = some t := by
    intro m t h1 h2
    have := Sec.schemaOf_table h.planOk (schemas_mem hx h1 h2)
    rw [kept_plain (h.schemaFits hx h2).plain] at this
    exact this
  have hu : ∀ m t, x.names.source = some m → x.own.source = some t →
      Sec.sourceOf (table s bs names r).symbols m = .ok (some t) := by
    intro m t h1 h2
    exact (Sec.sourceOf_table h.planOk (sources_mem hx h1 h2)).1
  have he : x.filled.emit.map (readEmit x.names x.inCols x.filled.body) =
      x.own.emit.map (readEmit x.names x.inCols x.own.body) :=
    List.map_congr_left fun i _ => readEmit_fill _ _ _ _ _
  rw [newRel, he]
  generalize x.own.emit.map (readEmit x.names x.inCols x.own.body) = em
  rw [show x.filled.body = fillBody x.names.queries x.own.body from rfl]
  generalize x.names = n at hs hu hn hk ⊢
  generalize x.inCols = f at hb ⊢
  generalize x.own = o at hb hn ht hs hu hk ⊢
  obtain ⟨body, emit, schema, source⟩ := o
  by_cases hr : isRead body = true
  · obtain ⟨⟨m, hm⟩, l, hl⟩ := hn.reads hr
    unfold TablesFit at ht
    rw [if_pos hr] at ht
    obtain ⟨⟨t, e1, -⟩, u, e2, -⟩ := ht
    simp only at e1 e2
    subst e1 e2
    cases body <;> simp only [isRead, Bool.false_eq_true] at hr
    obtain ⟨rfl, rfl, rfl, rfl, -, -⟩ := bodyFits_read hb
    simp only [fillBody, relabelBody, renumberBody] at hk
    simp only [Whole.ownOf, fillBody, relabelBody, withNames, renumberBody, hm, hl, hu l u hl rfl,
      Outcome.map, Option.bind_some, hs m t hm rfl]
    exact congrArg (fun z => Outcome.ok (⟨z, em, some t, some u⟩ : Own)) hk
  · unfold TablesFit at ht
    rw [if_neg hr] at ht
    obtain ⟨e1, e2⟩ := ht
    simp only at e1 e2
    subst e1 e2
    have := congrArg (fun z => Outcome.ok (⟨z, em, none, none⟩ : Own)) hk
    cases body <;> first | exact absurd rfl hr | exact this

theorem map_ok_inj {α : Type} : ∀ {a b : List α}, a.map Outcome.ok = b.map Outcome.ok → a = b
  | [], [], _ => rfl
  | [], _ :: _, h => by simp at h
  | _ :: _, [], h => by simp at h
  | x :: a, y :: b, h => by
    simp only [List.map_cons, List.cons.injEq, Outcome.ok.injEq] at h
    rw [h.1, map_ok_inj h.2]

theorem attachL_ok {l : List Sec.Symbol} {done : Relations} : ∀ {rs : List Pipe.Rel}
    {bs : List BRel}, attachL l done rs = .ok bs ↔ rs.map (attach l done) = bs.map .ok
  | [], bs => by cases bs <;> simp [attachL]
  | r :: rs, bs => by
    rw [attachL, List.map_cons]
    cases e : attach l done r with
    | ok x =>
      rw [Outcome.bind_ok]
      cases e' : attachL l done rs with
      | ok y =>
        have := (attachL_ok (rs := rs) (bs := y)).mp e'
        rw [this]
        cases bs with
        | nil => simp [Outcome.map]
        | cons z zs =>
          simp only [Outcome.map, Outcome.ok.injEq, List.cons.injEq, List.map_cons]
          constructor
          · rintro ⟨rfl, rfl⟩; exact ⟨rfl, rfl⟩
          · rintro ⟨rfl, hz⟩
            exact ⟨rfl, map_ok_inj hz⟩
      | throw _ =>
        constructor
        · intro h; simp [Outcome.map] at h
        · intro h
          cases bs with
          | nil => simp at h
          | cons z zs =>
            rw [List.map_cons] at h
            injection h with _ h
            have := (attachL_ok (rs := rs) (bs := zs)).mpr h
            rw [e'] at this
            simp at this
      | ub =>
        constructor
        · intro h; simp [Outcome.map] at h
        · intro h
          cases bs with
          | nil => simp at h
          | cons z zs =>
            rw [List.map_cons] at h
            injection h with _ h
            have := (attachL_ok (rs := rs) (bs := zs)).mpr h
            rw [e'] at this
            simp at this
    | throw _ => cases bs <;> simp [Outcome.bind]
    | ub => cases bs <;> simp [Outcome.bind]

theorem attachL_inputs {l : List Sec.Symbol} {done : Relations} {rs : List Pipe.Rel}
    {bs : List BRel} (b : Rel.Body) (h : attachL l done rs = .ok bs) :
    attachL l done (inputsIn b rs) = .ok (inputsIn b bs) := by
  rw [attachL_ok] at h ⊢
  rw [← inputsIn_map, h, inputsIn_map]

theorem attachL_queries {l : List Sec.Symbol} {done : Relations} {rs : List Pipe.Rel}
    {bs : List BRel} (b : Rel.Body) (h : attachL l done rs = .ok bs) :
    attachL l done (queriesIn b rs) = .ok (queriesIn b bs) := by
  rw [attachL_ok] at h ⊢
  rw [← queriesIn_map, h, queriesIn_map]

theorem pipeKind_renumber (ρ : Nat → Nat) (b : Rel.Body) :
    pipeKind (renumberBody ρ b) = pipeKind b := by
  cases b <;> rfl

theorem relabelOpt_none (g : Nat → Option Str) (k : Nat) {e : Option PbExpr}
    (h : queriesOpt e = 0) : relabelOpt g k e = e := by
  cases e with
  | none => rfl
  | some e => exact congrArg some (relabel_none g e k h)

/-- Relations that get no relations of subqueries have none. -/
theorem emptyQueries_none {b : Rel.Body} {n : Nat} (ha : n = arity b)
    (ht : Pipe.takesSubs (pipeKind b) n = false) (h : queriesBody b = 0) : emptyQueries b = b := by
  cases b <;> simp [pipeKind, Pipe.takesSubs, arity, ha] at ht <;>
    simp only [queriesBody, Nat.add_eq_zero_iff] at h <;>
    simp only [emptyQueries, relabelBody]
  rw [relabelOpt_none _ _ h.1, relabelOpt_none _ _ h.2]

/-- The relation as it is read. -/
def Own.again (ρ : Nat → Nat) (n : Names) (f : List Col) (o : Own) : Own :=
  ⟨renumberBody ρ o.body, o.emit.map (readEmit n f o.body), o.schema, o.source⟩

mutual
/-- The tree as it is read, with the names it had. -/
def again (ρ : Nat → Nat) : NRel → NRel
  | .node n o kids => .node n (o.again ρ n (inCols o kids)) (againL ρ kids)
def againL (ρ : Nat → Nat) : List NRel → List NRel
  | [] => []
  | r :: rs => again ρ r :: againL ρ rs
end

mutual
theorem attach_same (h : Fine s bs names r) {g : Pipe.Table} {done : Relations} :
    ∀ x, (∀ y ∈ subs x, y ∈ subs r) →
    (∀ y ∈ subs x, ∃ d, done.find y.names.rel = some d ∧ Second s bs names r g y d) →
    ∃ b, attach (table s bs names r).symbols done (skeleton x) = .ok b ∧
      Same (newNumber s.functions bs) (erase x) b ∧
      b = erase (again (newNumber s.functions bs) x)
  | .node n o ins, hm, hd => by
    rw [subs] at hm hd
    obtain ⟨l, h1, h2, h3, h6⟩ := attachL_same h ins (fun y hy => hm y (by simp [hy]))
      fun y hy => hd y (by simp [hy])
    have hx := hm (.node n o ins) (by simp)
    have gd := h.good _ hx
    obtain ⟨d, e1, e2⟩ := hd (.node n o ins) (by simp)
    have ho := h.ownOf (g := g) hx
    rw [← e2.rel] at ho
    have hia : (inputsIn o.body (skeletonL ins)).length = arity o.body := by
      rw [skeletonL_map, inputsIn_map, List.length_map]
      exact gd.arity
    have hq : (queriesIn o.body l).length = queriesBody o.body := by
      have := gd.count
      have hp := gd.arity
      have hs := (perm_split o.body ins).length_eq
      rw [List.length_append] at hs
      refine length_queriesIn (n := arity o.body) ?_
      rw [h3, hs]
      exact congr (congrArg _ hp) this
    rw [skeleton, attach, show n.rel = (NRel.node n o ins).names.rel from rfl, e1]
    simp only [Option.map_some, Option.getD_some]
    rw [ho, Outcome.bind_ok, attachL_inputs _ h1, Outcome.bind_ok, attachL_queries _ h1,
      Outcome.bind_ok, hia]
    have hsame : Same (newNumber s.functions bs) (erase (.node n o ins))
        (.node ⟨renumberBody (newNumber s.functions bs) o.body,
          o.emit.map (readEmit n (inCols o ins) o.body), o.schema, o.source⟩ l) := by
      rw [erase, Same]
      refine ⟨rfl, ?_, rfl, rfl, h2⟩
      have := sameEmit_new gd
      rw [show (NRel.node n o ins).inCols = inCols o ins from rfl, inCols_length] at this
      exact this
    have hold : BRel.node ⟨renumberBody (newNumber s.functions bs) o.body,
        o.emit.map (readEmit n (inCols o ins) o.body), o.schema, o.source⟩ l =
        erase (again (newNumber s.functions bs) (.node n o ins)) := by
      rw [again, erase, h6]
      rfl
    cases ht : Pipe.takesSubs (pipeKind o.body) (arity o.body) with
    | true =>
      rw [if_pos rfl]
      simp only [NRel.own, NRel.names, queriesBody_renumber, pipeKind_renumber]
      rw [if_pos (by rw [hq]; exact Nat.le_refl _), ← hq, List.take_length, arrange_split]
      exact ⟨_, rfl, hsame, hold⟩
    | false =>
      have h0 : queriesBody o.body = 0 := by
        have hf := fits_queries gd
        have hc := gd.count
        have hr := gd.reads
        simp only [NRel.own] at hr hc
        clear hf hc hsame hq hia h2 h3 e2 ho gd
        revert ht hr
        cases o.body <;>
          simp [pipeKind, Pipe.takesSubs, arity, queriesBody, isRead]
      rw [if_neg (by simp)]
      simp only [NRel.own, NRel.names]
      rw [emptyQueries_none (n := arity o.body) (by cases o.body <;> rfl)
        (by rw [pipeKind_renumber]; exact ht) (by rw [queriesBody_renumber]; exact h0)]
      have hl : inputsIn o.body l = l := by
        unfold inputsIn
        rw [h0]
        have : l.length = arity o.body := by
          have hs := (perm_split o.body l).length_eq
          rw [List.length_append, hq, h0, h3] at hs
          have hs' := (perm_split o.body ins).length_eq
          have := gd.count
          have hp := gd.arity
          simp only [NRel.inputs, NRel.queries, NRel.own, NRel.kids] at this hp
          rw [List.length_append, this, hp, h0] at hs'
          omega
        split <;> simp
      rw [hl]
      exact ⟨_, rfl, hsame, hold⟩
theorem attachL_same (h : Fine s bs names r) {g : Pipe.Table} {done : Relations} : ∀ xs,
    (∀ y ∈ subsL xs, y ∈ subs r) →
    (∀ y ∈ subsL xs, ∃ d, done.find y.names.rel = some d ∧ Second s bs names r g y d) →
    ∃ b, attachL (table s bs names r).symbols done (skeletonL xs) = .ok b ∧
      SameL (newNumber s.functions bs) (eraseL xs) b ∧ b.length = xs.length ∧
      b = eraseL (againL (newNumber s.functions bs) xs)
  | [], _, _ => ⟨[], rfl, trivial, rfl, rfl⟩
  | x :: xs, hm, hd => by
    rw [subsL] at hm hd
    obtain ⟨b, h1, h2, h6⟩ := attach_same h x (fun y hy => hm y (by simp [hy]))
      fun y hy => hd y (by simp [hy])
    obtain ⟨l, h3, h4, h5, h7⟩ := attachL_same h xs (fun y hy => hm y (by simp [hy]))
      fun y hy => hd y (by simp [hy])
    refine ⟨b :: l, ?_, ⟨h2, h4⟩, by simp [h5], by rw [againL, eraseL, h6, h7]⟩
    rw [skeletonL, attachL, h1, Outcome.bind_ok, h3]
    rfl
end

theorem pipelinesOf_eq : pipelinesOf = Sec.asPipelines := by
  funext d; cases d <;> rfl

theorem relationOf_eq : relationOf = Sec.asRelation := by
  funext d; cases d <;> rfl

theorem Fine.rootNames : ((Sec.rootNamesOf (table s bs names r).symbols).getD []) = names := by
  unfold table
  rw [Sec.rootNames_table]
  unfold Sec.Plan.rootNames planOf
  cases names <;> rfl

/-- The text is read, and it says the same as the tree. -/
theorem Fine.fromText (h : Fine s bs names r) {fuel : Nat} (hf : (subs r).length ≤ fuel) :
    ∃ b, Whole.fromText s.lib fuel (Sec.textOf (planOf s bs names r)) =
        some (.ok ⟨Ext.binaryUris (readTable bs), Ext.binaryFunctions (readTable bs),
          [(names, b)]⟩) ∧ Same (newNumber s.functions bs) (erase r) b ∧
        b = erase (again (newNumber s.functions bs) r) := by
  obtain ⟨g, h1, hg⟩ := h.graph hf
  obtain ⟨done, h2, h3⟩ := h.readPasses hg
  obtain ⟨b, h4, h5⟩ := attach_same h r (fun y hy => hy) h3
  refine ⟨b, ?_, h5⟩
  unfold Whole.fromText
  rw [Sec.parsed h.parts, Option.map_some]
  congr 1
  unfold fromDetails
  rw [Sec.visited h.planOk, Outcome.bind_ok]
  have hp : ((Sec.planDetails (planOf s bs names r)).filterMap pipelinesOf).flatten =
      (planOf s bs names r).pipelines.map Pipe.refs := by
    rw [pipelinesOf_eq]
    exact Sec.pipelineTrees_plan h.parts
  have ht : (Sec.planDetails (planOf s bs names r)).filterMap relationOf =
      (subs r).map (treeOf s bs r) := by
    rw [relationOf_eq, ← trees_plan (names := names)]
    exact Sec.relationTrees_plan h.parts
  have hst : Sec.tableOf (planOf s bs names r) = table s bs names r := rfl
  rw [hst, if_pos (by rfl), hp, ht, h1, Outcome.bind_ok, if_pos (by rw [hg.errors, h.refs_known ht]; rfl), h2,
    Outcome.bind_ok, hg.plan, Outcome.bind_ok, attachL, h4, Outcome.bind_ok, attachL, table_ext,
    Fine.rootNames, hg.named]
  rfl

end Verif.Whole
