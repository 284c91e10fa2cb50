import Verif.Spec.Results
import Verif.Lemmas.WholeQueries

/-! # Lemmas on the results of plans -/

namespace Verif.Whole

open Verif Verif.TyPb Verif.Literal Verif.Expr

section
variable {V : Type} {m : Meaning V} {lib : Lib} {dcl : Known} {ref : Int → Prop}
  {fn fn' : Nat → FunId} {ρ : Nat → Nat} {s : Around V}

/-- The functions are the same with the new numbers. -/
def Renamed (ρ : Nat → Nat) (dcl : Nat → Prop) (fn fn' : Nat → FunId) : Prop :=
  ∀ a, dcl a → fn' (ρ a) = fn a

mutual
theorem value_same (h : Renamed ρ dcl fn fn') (row : Row V) : ∀ (e : PbExpr) (k : Nat),
    Told lib dcl ref e → value m fn' s row k (renumber ρ e) = value m fn s row k e
  | .literal l, _, _ => by simp only [renumber, value]
  | .field (.field n b) base, _, _ => by simp only [renumber, value]
  | .field .other base, _, hs => by simp [Told] at hs
  | .call f o as es t, k, hs => by
    unfold Told at hs
    split at hs <;> simp_all only [reduceCtorEq, PbExpr.call.injEq]
    rename_i heq
    obtain ⟨rfl, rfl, rfl, rfl, rfl⟩ := heq
    simp only [renumber, renumberList, value, list, h _ hs.1, values_same h row as k hs.2.2.1]
  | .ifThen cs e, k, hs => by
    simp only [Told] at hs
    obtain ⟨-, h2, h3⟩ := hs
    have he : ∀ k, value m fn' s row k (renumber ρ e) = value m fn s row k e := by
      intro k
      by_cases hx : e.isSet = true
      · exact value_same h row e k (h3 hx)
      · cases e <;> simp [PbExpr.isSet] at hx
        simp only [renumber, value]
    simp only [renumber, value, he, queriesClauses_renumber, choose_same h row _ cs _ h2]
  | .cast e t n, k, hs => by
    unfold Told at hs
    split at hs <;> simp_all only [reduceCtorEq, PbExpr.cast.injEq]
    rename_i heq
    obtain ⟨rfl, rfl, rfl⟩ := heq
    simp only [renumber, value, value_same h row e k hs.1]
  | .notSet, _, hs => by simp [Told] at hs
  | .masked _, _, hs => by simp [Told] at hs
  | .noReference _, _, hs => by simp [Told] at hs
  | .scalar r, _, _ => by cases r <;> simp only [renumber, value]
  | .inPredicate es r, k, hs => by
    cases r with
    | none => simp [Told] at hs
    | some r =>
      simp only [Told] at hs
      simp only [renumber, value, list_same h row es k hs.2.1, queriesList_renumber]
  | .setPredicate _ r, _, _ => by cases r <;> simp only [renumber, value]
  | .setComparison e _ _ r, k, hs => by
    cases r with
    | none => simp [Told] at hs
    | some r =>
      simp only [Told] at hs
      simp only [renumber, value, value_same h row e k hs.1, queries_renumber]
  | .noSubquery, _, hs => by simp [Told] at hs
  | .other _, _, hs => by simp [Told] at hs
theorem choose_same (h : Renamed ρ dcl fn fn') (row : Row V) (els : V) :
    ∀ (cs : List PbClause) (k : Nat), ToldClauses lib dcl ref cs →
      choose m fn' s row els k (renumberClauses ρ cs) = choose m fn s row els k cs
  | [], _, _ => by simp only [renumberClauses, choose]
  | .mk a b :: cs, k, hs => by
    simp only [ToldClauses, ToldClause] at hs
    have hq := queriesClause_renumber ρ (.mk a b)
    simp only [renumberClause] at hq
    simp only [renumberClauses, renumberClause, choose, clause, hq, queries_renumber,
      choose_same h row els cs _ hs.2, value_same h row a _ hs.1.1, value_same h row b _ hs.1.2]
theorem values_same (h : Renamed ρ dcl fn fn') (row : Row V) : ∀ (as : List PbArg) (k : Nat),
    ToldArgs lib dcl ref as → values m fn' s row k (renumberArgs ρ as) = values m fn s row k as
  | [], _, _ => by simp only [renumberArgs, values]
  | .value e :: as, k, hs => by
    simp only [ToldArgs, ToldArg] at hs
    simp only [renumberArgs, renumberArg, values, argument, value_same h row e _ hs.1, queriesArg,
      queries_renumber, values_same h row as _ hs.2]
  | .enum s :: as, k, hs => by
    simp only [ToldArgs] at hs
    simp only [renumberArgs, renumberArg, values, argument, values_same h row as _ hs.2]
  | .type t :: as, _, hs => by simp [ToldArgs, ToldArg] at hs
  | .notSet :: as, _, hs => by simp [ToldArgs, ToldArg] at hs
theorem list_same (h : Renamed ρ dcl fn fn') (row : Row V) : ∀ (es : List PbExpr) (k : Nat),
    ToldList lib dcl ref es → list m fn' s row k (renumberList ρ es) = list m fn s row k es
  | [], _, _ => by simp only [renumberList, list]
  | e :: es, k, hs => by
    simp only [ToldList] at hs
    simp only [renumberList, list, value_same h row e _ hs.1, queries_renumber,
      list_same h row es _ hs.2]
end

theorem passes_same (h : Renamed ρ dcl fn fn') {c : Option PbExpr} (k : Nat)
    (hc : SaidOpt lib dcl ref c) :
    passes m fn' s k (c.map (renumber ρ)) = passes m fn s k c := by
  funext row
  cases c with
  | none => rfl
  | some e => simp only [passes, Option.map_some, value_same h row e k (hc e rfl).1]

theorem exprs_same (row : Row V) : ∀ {es : List PbExpr} (k : Nat),
    (∀ e ∈ es, ∀ k, value m fn' s row k (renumber ρ e) = value m fn s row k e) →
    list m fn' s row k (es.map (renumber ρ)) = list m fn s row k es
  | [], _, _ => by simp only [List.map_nil, list]
  | e :: es, k, hs => by
    simp only [List.map_cons, list, hs e List.mem_cons_self, queries_renumber,
      exprs_same row _ fun x hx => hs x (List.mem_cons_of_mem _ hx)]

theorem keys_same (h : Renamed ρ dcl fn fn') (row : Row V) : ∀ {ss : List Rel.PbSort} (k : Nat),
    (∀ x ∈ ss, Said lib dcl ref x.expr) →
    keys m fn' s row k (ss.map (renumberSort ρ)) = keys m fn s row k ss
  | [], _, _ => by simp only [List.map_nil, keys]
  | x :: ss, k, hs => by
    simp only [List.map_cons, keys, renumberSort, value_same h row _ _ (hs x List.mem_cons_self).1,
      queries_renumber]
    rw [← keys_same h row _ fun y hy => hs y (List.mem_cons_of_mem _ hy)]

theorem measured_same (h : Renamed ρ dcl fn fn') (rows : List (Row V)) {x : Rel.PbMeasure}
    (k : Nat) (hx : MeasureFits lib dcl ref x) :
    measured m fn' s rows k (renumberMeasure ρ x) = measured m fn s rows k x := by
  obtain ⟨⟨f, hf, h1, -, h3, -⟩, h8⟩ := hx
  simp only [measured, renumberMeasure, hf, Option.map_some, queriesAggregate_renumber,
    passes_same h _ h8]
  simp only [renumberAggregate, h _ h1, values_same h _ _ _ h3]

theorem measuredAll_same (h : Renamed ρ dcl fn fn') (rows : List (Row V)) :
    ∀ {xs : List Rel.PbMeasure} (k : Nat), (∀ x ∈ xs, MeasureFits lib dcl ref x) →
    measuredAll m fn' s rows k (xs.map (renumberMeasure ρ)) = measuredAll m fn s rows k xs
  | [], _, _ => rfl
  | x :: xs, k, hx => by
    simp only [List.map_cons, measuredAll, measured_same h rows _ (hx x List.mem_cons_self),
      queriesMeasure_renumber,
      measuredAll_same h rows _ fun y hy => hx y (List.mem_cons_of_mem _ hy)]

theorem list_length (row : Row V) : ∀ (es : List PbExpr) (k : Nat),
    (list m fn s row k es).length = es.length
  | [], _ => by simp only [list, List.length_nil]
  | e :: es, k => by simp only [list, List.length_cons, list_length row es]

theorem measuredAll_length (rows : List (Row V)) : ∀ (xs : List Rel.PbMeasure) (k : Nat),
    (measuredAll m fn s rows k xs).length = xs.length
  | [], _ => rfl
  | x :: xs, k => by simp only [measuredAll, List.length_cons, measuredAll_length rows xs]

/-- An expression of a list has its own number. -/
theorem list_at (row : Row V) : ∀ {es : List PbExpr} (k : Nat) {i : Nat} {e : PbExpr},
    es[i]? = some e → ∃ j, (list m fn s row k es)[i]? = some (value m fn s row j e)
  | [], _, _, _, h => by simp at h
  | x :: es, k, 0, e, h => by
    simp only [List.getElem?_cons_zero, Option.some.injEq] at h
    subst h
    exact ⟨k, by simp only [list, List.getElem?_cons_zero]⟩
  | x :: es, k, i + 1, e, h => by
    simp only [List.getElem?_cons_succ] at h
    simp only [list, List.getElem?_cons_succ]
    exact list_at row _ h

end

/-! ## Widths -/

section
variable {V : Type} {m : Meaning V} {fn : Nat → FunId} {s : Around V}

/-- All rows have as many columns as they should. -/
def Even (a : Rows V) : Prop := ∀ x ∈ a.2, x.length = a.1

theorem leftJoin_even {on : Row V → Bool} {a b : Rows V} (ha : Even a) (hb : Even b) :
    ∀ x ∈ leftJoin m on a b, x.length = a.1 + b.1 := by
  intro x hx
  obtain ⟨y, hy, hx⟩ := List.mem_flatMap.mp hx
  simp only at hx
  split at hx
  · rw [List.mem_singleton] at hx
    subst hx
    simp [ha y hy, nulls]
  · obtain ⟨z, hz, rfl⟩ := List.mem_map.mp hx
    rw [List.length_append, ha y hy, hb z (List.mem_filter.mp hz).1]

theorem unmatched_even {on : Row V → Bool} {a b : Rows V} (hb : Even b) :
    ∀ x ∈ unmatched m on a b, x.length = a.1 + b.1 := by
  intro x hx
  obtain ⟨y, hy, rfl⟩ := List.mem_map.mp hx
  simp [nulls, hb y (List.mem_filter.mp hy).1]

theorem innerJoin_even {on : Row V → Bool} {a b : Rows V} (ha : Even a) (hb : Even b) :
    ∀ x ∈ innerJoin on a b, x.length = a.1 + b.1 := by
  intro x hx
  obtain ⟨y, hy, hx⟩ := List.mem_flatMap.mp hx
  obtain ⟨z, hz, rfl⟩ := List.mem_map.mp hx
  rw [List.length_append, ha y hy, hb z (List.mem_filter.mp hz).1]

theorem joined_even {t : Int} {on : Row V → Bool} {a b : Rows V} (ha : Even a) (hb : Even b) :
    ∀ x ∈ joined m t on a b, x.length = a.1 + b.1 := by
  intro x hx
  unfold joined at hx
  repeat' split at hx
  · rcases List.mem_append.mp hx with hx | hx
    · exact leftJoin_even ha hb x hx
    · exact unmatched_even hb x hx
  · exact leftJoin_even ha hb x hx
  · rcases List.mem_append.mp hx with hx | hx
    · exact innerJoin_even ha hb x hx
    · exact unmatched_even hb x hx
  · exact leftJoin_even ha hb x hx
  · exact innerJoin_even ha hb x hx

theorem firsts_mem {α : Type} [DecidableEq α] : ∀ {l : List α} {x : α}, x ∈ firsts l → x ∈ l
  | [], _, h => h
  | y :: ys, x, h => by
    rcases List.mem_cons.mp h with rfl | h
    · exact List.mem_cons_self
    · exact List.mem_cons_of_mem _ (firsts_mem (List.mem_filter.mp h).1)

variable [DecidableEq V]

theorem groups_even {g : List PbExpr} {rows : List (Row V)} :
    ∀ k ∈ groups m fn s g rows, k.1.length = g.length := by
  intro k hk
  unfold groups at hk
  split at hk
  · next h =>
    rw [List.mem_singleton] at hk
    subst hk
    rw [List.isEmpty_iff] at h
    simp [h]
  · obtain ⟨y, hy, rfl⟩ := List.mem_map.mp hk
    obtain ⟨x, -, rfl⟩ := List.mem_map.mp (firsts_mem hy)
    simp [list_length]

omit [DecidableEq V] in
theorem emitted_even {emit : List Int} {a : Rows V} (h : Even a) : Even (emitted m emit a) := by
  unfold emitted
  split
  · exact h
  · intro x hx
    obtain ⟨y, -, rfl⟩ := List.mem_map.mp hx
    simp

theorem direct_even (hw : m.Wide) (hs : m.Sorts) {o : Own} {ins : List (Rows V)}
    (ho : isRead o.body = true → o.schema.isSome) (h : ∀ a ∈ ins, Even a) :
    Even (direct m fn s o ins) := by
  obtain ⟨body, emit, schema, source⟩ := o
  unfold direct
  split
  · next hb =>
    simp only at hb
    subst hb
    obtain ⟨sch, rfl⟩ := Option.isSome_iff_exists.mp (ho rfl)
    intro x hx
    exact hw _ _ x (List.mem_filter.mp hx).1
  · exact fun x hx => h _ List.mem_cons_self x (List.mem_filter.mp hx).1
  · intro x hx
    refine h _ List.mem_cons_self x ?_
    simp only [limited] at hx
    split at hx
    · exact List.mem_of_mem_drop hx
    · exact List.mem_of_mem_drop (List.mem_of_mem_take hx)
  · intro x hx
    obtain ⟨y, hy, rfl⟩ := List.mem_map.mp hx
    obtain ⟨z, hz, rfl⟩ := List.mem_map.mp ((hs _ _).mem_iff.mp hy)
    exact h _ List.mem_cons_self z hz
  · intro x hx
    obtain ⟨y, hy, rfl⟩ := List.mem_map.mp hx
    simp [h _ List.mem_cons_self y hy, list_length]
  · intro x hx
    obtain ⟨k, hk, rfl⟩ := List.mem_map.mp hx
    simp [groups_even k hk, measuredAll_length]
  · exact joined_even (h _ List.mem_cons_self) (h _ (List.mem_cons_of_mem _ List.mem_cons_self))
  · intro x hx
    exact innerJoin_even (on := fun _ => true) (h _ List.mem_cons_self)
      (h _ (List.mem_cons_of_mem _ List.mem_cons_self)) x hx
  · intro x hx
    cases hx

theorem pick_length {α : Type} {l : List α} {emit : List Int}
    (h : ∀ i ∈ emit, (l[i.toNat]?).isSome) : (pick l emit).length = emit.length := by
  unfold pick
  induction emit with
  | nil => rfl
  | cons i is ih =>
    obtain ⟨x, hx⟩ := Option.isSome_iff_exists.mp (h i List.mem_cons_self)
    rw [List.filterMap_cons, hx]
    simp [ih fun j hj => h j (List.mem_cons_of_mem _ hj)]

theorem columns_length {g : List PbExpr} {f : Int → Bool} (h : ∀ e ∈ g, (Rel.fieldOf e).isSome) :
    (g.filterMap fun e => (Rel.fieldOf e).map f).length = g.length := by
  induction g with
  | nil => rfl
  | cons e es ih =>
    obtain ⟨x, hx⟩ := Option.isSome_iff_exists.mp (h e List.mem_cons_self)
    rw [List.filterMap_cons, hx]
    simp [ih fun j hj => h j (List.mem_cons_of_mem _ hj)]

/-- The number of columns is the one the library counts. -/
theorem emitted_width {lib : Lib} {dcl : Known} {o : Own} {f : List Bool}
    {ins : List (Rows V)} (hb : BodyFits lib dcl f o.emit o.body)
    (hg : ∀ gs ms, o.body = .aggregate gs ms → ∀ g ∈ gs, ∀ e ∈ g, (Rel.fieldOf e).isSome)
    (ha : ins.length = arity o.body) (hf : (ins.map (·.1)).sum = f.length) :
    (emitted m o.emit (direct m fn s o ins)).1 = (outKinds f o).length := by
  obtain ⟨body, emit, schema, source⟩ := o
  have one : ins.length = 1 → ∃ a, ins = [a] ∧ a.1 = f.length := by
    intro h
    obtain ⟨a, rfl⟩ := List.length_eq_one_iff.mp h
    exact ⟨a, rfl, by simpa using hf⟩
  have two : ins.length = 2 → ∃ a b, ins = [a, b] ∧ a.1 + b.1 = f.length := by
    intro h
    match ins, h with
    | [a, b], _ => exact ⟨a, b, rfl, by simpa using hf⟩
  cases body with
  | read sc t c b p =>
    have : emit = [] := by
      unfold BodyFits at hb
      split at hb <;> first | exact False.elim hb | (simp_all; done) | skip
      all_goals first | exact hb.1 | simp_all
    subst this
    simp [emitted, direct, outKinds]
  | filter c =>
    obtain ⟨a, rfl, e⟩ := one ha
    have : emit = [] := hb.1
    subst this
    simp [emitted, direct, outKinds, e]
  | fetch i n =>
    obtain ⟨a, rfl, e⟩ := one ha
    have : emit = [] := by
      unfold BodyFits at hb
      split at hb <;> first | exact False.elim hb | (simp_all; done) | skip
      all_goals first | exact hb.1 | simp_all
    subst this
    simp [emitted, direct, outKinds, e]
  | sort ss =>
    obtain ⟨a, rfl, e⟩ := one ha
    have : emit = [] := hb.1
    subst this
    simp [emitted, direct, outKinds, e]
  | join t c p =>
    obtain ⟨a, b, rfl, e⟩ := two ha
    have : emit = [] := by
      unfold BodyFits at hb
      split at hb <;> first | exact False.elim hb | (simp_all; done) | skip
      all_goals first | exact hb.1 | simp_all
    subst this
    simp [emitted, direct, outKinds, e]
  | cross =>
    obtain ⟨a, b, rfl, e⟩ := two ha
    have : emit = [] := hb
    subst this
    simp [emitted, direct, outKinds, e]
  | project es =>
    obtain ⟨a, rfl, e⟩ := one ha
    obtain ⟨-, -, h3, -⟩ := hb
    have hlen : (f ++ madeKinds f (.project es)).length = f.length + es.length := by
      simp [madeKinds]
    by_cases he : emit = []
    · subst he
      simp [emitted, direct, outKinds, madeKinds, e]
    · simp only [emitted, List.isEmpty_iff, if_neg he, outKinds]
      rw [pick_length]
      intro i hi
      have := h3 i hi
      unfold InWidth at this
      rw [List.getElem?_eq_getElem (by omega)]
      rfl
  | aggregate gs ms =>
    obtain ⟨a, rfl, e⟩ := one ha
    unfold BodyFits at hb
    split at hb <;> simp_all only [reduceCtorEq, Rel.Body.aggregate.injEq]
    rename_i heq
    obtain ⟨rfl, rfl⟩ := heq
    obtain ⟨-, -, -, -, -, h6⟩ := hb
    by_cases he : emit = []
    · subst he
      simp only [emitted, direct, outKinds, madeKinds, List.isEmpty_nil, if_true,
        List.flatten_cons, List.flatten_nil, List.append_nil, List.length_append, List.length_map]
      rw [columns_length (hg _ _ ⟨rfl, rfl⟩ _ List.mem_cons_self)]
    · simp only [emitted, List.isEmpty_iff, if_neg he, outKinds]
      rw [pick_length]
      intro i hi
      rw [(h6 i hi).2]
      rfl
  | other => simp [BodyFits] at hb

/-! ## The same results -/

section
variable {lib : Lib} {dcl : Known} {fn' : Nat → FunId} {ρ : Nat → Nat}

omit [DecidableEq V] in
/-- The value of a column of a project is that of the column it stands for. -/
theorem stands_value {w : Nat} {es : List PbExpr} {x : Row V} (hx : x.length = w)
    (hs : ∀ e ∈ es, Said lib dcl (InWidth w) e ∧ Rel.isOuter e = false) (i : Int) :
    ((x ++ list m fn s x 0 es)[i.toNat]?).getD m.null =
      ((x ++ list m fn s x 0 es)[(stands w es i).toNat]?).getD m.null := by
  unfold stands
  split
  · rfl
  · next hi =>
    split
    · next e he =>
      cases hf : Rel.fieldOf e with
      | none => simp
      | some n =>
        have hmem := List.mem_of_getElem? he
        have hse := hs e hmem
        obtain ⟨h1, h2⟩ := said_field hse.1 hse.2 hf
        subst h1
        unfold InWidth at h2
        obtain ⟨j, hj⟩ := list_at (m := m) (fn := fn) (s := s) x 0 he
        have e1 : (x ++ list m fn s x 0 es)[i.toNat]? =
            some (value m fn s x j (.field (.field n false) .root)) := by
          rw [List.getElem?_append_right (by omega)]
          have : i.toNat - x.length = (i - w).toNat := by omega
          rw [this, hj]
        rw [e1]
        simp only [Option.getD_some, value, rowOf]
        rw [List.getElem?_append_left (by omega)]
    · rfl

omit [DecidableEq V] in
theorem stands_renumber (w : Nat) (es : List PbExpr) (i : Int) :
    stands w (es.map (renumber ρ)) i = stands w es i := by
  unfold stands
  split
  · rfl
  · rw [List.getElem?_map]
    cases es[(i - w).toNat]? with
    | none => rfl
    | some e => simp [fieldOf_renumber]

theorem emitted_same (h : Renamed ρ dcl fn fn') {o o' : Own} {f : List Bool}
    {ins : List (Rows V)} (hb : BodyFits lib dcl f o.emit o.body)
    (he : ∀ a ∈ ins, Even a) (ha : ins.length = arity o.body)
    (hf : (ins.map (·.1)).sum = f.length) (h1 : o'.body = renumberBody ρ o.body)
    (h2 : SameEmit f.length o.body o.emit o'.emit) (h3 : o'.schema = o.schema)
    (h4 : o'.source = o.source) :
    emitted m o'.emit (direct m fn' s o' ins) = emitted m o.emit (direct m fn s o ins) := by
  obtain ⟨body, emit, schema, source⟩ := o
  obtain ⟨body', emit', schema', source'⟩ := o'
  simp only at h1 h2 h3 h4 hb ha
  subst h1 h3 h4
  have one : ins.length = 1 → ∃ a, ins = [a] ∧ a.1 = f.length := by
    intro h
    obtain ⟨a, rfl⟩ := List.length_eq_one_iff.mp h
    exact ⟨a, rfl, by simpa using hf⟩
  have two : ins.length = 2 → ∃ a b, ins = [a, b] := by
    intro h
    match ins, h with
    | [a, b], _ => exact ⟨a, b, rfl⟩
  cases body with
  | read sc t c b p =>
    unfold BodyFits at hb
    split at hb <;> simp_all only [reduceCtorEq, Rel.Body.read.injEq]
    rename_i heq
    obtain ⟨rfl, rfl, rfl, rfl, rfl⟩ := heq
    obtain ⟨rfl, hb⟩ := hb
    have : emit' = [] := h2
    subst this
    simp only [renumberBody, direct, passes_same h _ hb]
  | filter c =>
    obtain ⟨a, rfl, e⟩ := one ha
    obtain ⟨rfl, hb⟩ := hb
    have : emit' = [] := h2
    subst this
    simp only [renumberBody, direct, passes_same h _ hb]
  | fetch i n =>
    obtain ⟨a, rfl, e⟩ := one ha
    have : emit' = emit := h2
    subst this
    simp only [renumberBody, direct]
  | sort ss =>
    obtain ⟨a, rfl, e⟩ := one ha
    obtain ⟨rfl, hb⟩ := hb
    have : emit' = [] := h2
    subst this
    have e1 : (ss.map (renumberSort ρ)).map (fun x => directionOf x.kind) =
        ss.map fun x => directionOf x.kind := by
      rw [List.map_map]
      apply List.map_congr_left
      intro x hs
      obtain ⟨-, n, hk, -⟩ := hb x hs
      simp [renumberSort, hk]
    have e2 : ∀ x : Row V, keys m fn' s x 0 (ss.map (renumberSort ρ)) = keys m fn s x 0 ss :=
      fun x => keys_same h x 0 fun y hy => (hb y hy).1
    simp only [renumberBody, direct, e1, e2]
  | join t c p =>
    obtain ⟨a, b, rfl⟩ := two ha
    unfold BodyFits at hb
    split at hb <;> simp_all only [reduceCtorEq, Rel.Body.join.injEq]
    rename_i heq
    obtain ⟨rfl, rfl, rfl⟩ := heq
    obtain ⟨rfl, -, hb⟩ := hb
    have : emit' = [] := h2
    subst this
    simp only [renumberBody, direct, passes_same h _ hb]
  | cross =>
    obtain ⟨a, b, rfl⟩ := two ha
    have : emit' = emit := h2
    subst this
    simp only [renumberBody, direct]
  | project es =>
    obtain ⟨a, rfl, e⟩ := one ha
    obtain ⟨h5, -, -, -⟩ := hb
    have h6 : emit'.map (stands f.length es) = emit.map (stands f.length es) := h2
    have e1 : ∀ x : Row V, list m fn' s x 0 (es.map (renumber ρ)) = list m fn s x 0 es :=
      fun x => exprs_same x 0 fun e he k => value_same h x e k (h5 e he).1.1
    have e2 : emit'.isEmpty = emit.isEmpty := by
      have := congrArg List.isEmpty h6
      simpa using this
    simp only [renumberBody, direct, e1, List.length_map, emitted, e2]
    split
    · rfl
    · have hl : emit'.length = emit.length := by
        have := congrArg List.length h6
        simpa using this
      rw [hl]
      congr 1
      rw [List.map_map, List.map_map]
      apply List.map_congr_left
      intro x hx
      have hx' : x.length = f.length := by rw [he a List.mem_cons_self x hx, e]
      simp only [Function.comp]
      have := congrArg (List.map fun j : Int =>
        ((x ++ list m fn s x 0 es)[j.toNat]?).getD m.null) h6
      rw [List.map_map, List.map_map] at this
      rw [List.map_congr_left fun i _ => stands_value hx' (fun e he => ⟨(h5 e he).1, (h5 e he).2.2⟩) i,
        List.map_congr_left (l := emit) fun i _ => stands_value hx' (fun e he => ⟨(h5 e he).1, (h5 e he).2.2⟩) i]
      exact this
  | aggregate gs ms =>
    obtain ⟨a, rfl, e⟩ := one ha
    unfold BodyFits at hb
    split at hb <;> simp_all only [reduceCtorEq, Rel.Body.aggregate.injEq]
    rename_i heq
    obtain ⟨rfl, rfl⟩ := heq
    obtain ⟨h5, -, h7, -⟩ := hb
    have : emit' = emit := h2
    subst this
    have e1 : ∀ x : Row V, list m fn' s x 0 (List.map (renumber ρ) _) = list m fn s x 0 _ :=
      fun x => exprs_same x 0 fun e he k => by
        rcases h5 e he with hs | ⟨n, rfl, -⟩
        · exact value_same h x e k hs.1.1
        · simp only [renumber, value]
    have e2 : ∀ (rows : List (Row V)) (k : Nat),
        measuredAll m fn' s rows k (List.map (renumberMeasure ρ) _) = measuredAll m fn s rows k _ :=
      fun rows k => measuredAll_same h rows k h7
    have e3 := fun es => queriesList_renumber ρ es
    simp only [renumberArgs_map] at e3
    simp only [renumberBody, direct, List.map_cons, List.map_nil, List.length_map, groups,
      List.isEmpty_map, e1, e2, e3]
  | other => simp [BodyFits] at hb

end

end

end Verif.Whole
