import Verif.Lemmas.Placed
import Verif.Prop.Whole

/-!
# C75: details of relations of a text plan are where they belong, and are all kept
-/

namespace Verif.Rel

open Verif Verif.Expr

/-- **C75.**  If a relation of a text is read without an error then its kind is known, all its
details are ones that relations of this kind have, and every expression, filter, grouping, sort,
measure and emit that is written is in the message. -/
theorem relation_holds {c : RelContext} {t : RelTree} {r : PbRel}
    (h : readTree c t = .ok (r, [])) :
    ∃ k, Enum.readRelationType t.type = some k ∧ r.body.kind = k ∧
      (∀ d ∈ t.details, Belongs k d) ∧ Holds t.details r := by
  unfold readTree at h
  cases hk : Enum.readRelationType t.type with
  | none =>
    rw [hk] at h
    simp at h
  | some k =>
    rw [hk] at h
    simp only at h
    obtain ⟨a, -, h⟩ := bind_ok_iff h
    obtain ⟨⟨b, errs⟩, hb, h⟩ := map_ok_iff h
    simp only [Prod.mk.injEq, List.append_eq_nil_iff] at h
    obtain ⟨rfl, -, rfl⟩ := h
    obtain ⟨h1, h2, h3⟩ := pass_holds hb
    exact ⟨k, rfl, h2, h1, h3⟩

/-- **C75.**  A detail that does not belong to the relation is reported, or the relation is
refused. -/
theorem misplaced_reported {c : RelContext} {t : RelTree} {k : Enum.RelType} {d : Detail}
    (hk : Enum.readRelationType t.type = some k) (hd : d ∈ t.details) (hb : ¬ Belongs k d)
    {r : PbRel} {errs : List ReadErr} (h : readTree c t = .ok (r, errs)) : errs ≠ [] := by
  rintro rfl
  obtain ⟨k', hk', -, hb', -⟩ := relation_holds h
  rw [hk] at hk'
  cases hk'
  exact hb (hb' d hd)

end Verif.Rel

namespace Verif.Whole

open Verif Verif.Rel Verif.Expr

theorem readRelation_fits {lib : Literal.Lib} {st : Sec.State} {g : Pipe.Table} {done : Relations}
    {fresh : List Str} {t : RelTree} {d : Done}
    (h : readRelation lib st g false done fresh t = .ok d) :
    ∃ k, Enum.readRelationType t.type = some k ∧ d.rel.body.kind = k ∧ Fits k t.details ∧
      Holds t.details d.rel := by
  unfold readRelation at h
  cases hk : Enum.readRelationType t.type with
  | none =>
    rw [hk] at h
    simp at h
  | some k =>
    rw [hk] at h
    simp only at h
    obtain ⟨⟨s, errs⟩, hb, h⟩ := bind_ok_iff h
    cases errs with
    | cons e errs => simp at h
    | nil =>
      simp only [List.isEmpty_nil, if_true, Outcome.ok.injEq] at h
      subst h
      obtain ⟨h1, h2, h3⟩ := pass_holds hb
      exact ⟨k, rfl, h2, fits_of_holds h1 h2 h3, h3⟩

theorem readRelations_fit {lib : Literal.Lib} {st : Sec.State} {g : Pipe.Table} :
    ∀ (ts : List RelTree) {u : Counters} {done done' : Relations},
    readRelations lib st g false u done ts = .ok done' →
    (∀ t ∈ ts, ∃ k, Enum.readRelationType t.type = some k ∧ Fits k t.details) ∧
      ∀ n d, done'.find n = some d →
        (done.find n = some d ∧ ∀ t ∈ ts, t.ref.id ≠ n) ∨ ∃ t ∈ ts, Holds t.details d.rel
  | [], _, done, done', h => by
    simp only [readRelations, Outcome.ok.injEq] at h
    subst h
    exact ⟨by simp, fun n d hd => .inl ⟨hd, by simp⟩⟩
  | t :: ts, u, done, done', h => by
    rw [readRelations] at h
    obtain ⟨d, hd, h⟩ := bind_ok_iff h
    obtain ⟨k, h1, -, h2, h3⟩ := readRelation_fits hd
    obtain ⟨i1, i2⟩ := readRelations_fit ts h
    refine ⟨fun x hx => ?_, fun n x hx => ?_⟩
    · rcases List.mem_cons.mp hx with rfl | hx
      · exact ⟨k, h1, h2⟩
      · exact i1 x hx
    · rcases i2 n x hx with ⟨hf, hn⟩ | ⟨t', ht', hh⟩
      · rw [foundFirst] at hf
        by_cases e : t.ref.id = n
        · rw [if_pos e] at hf
          cases hf
          exact .inr ⟨t, List.mem_cons_self, h3⟩
        · rw [if_neg e] at hf
          refine .inl ⟨hf, fun y hy => ?_⟩
          rcases List.mem_cons.mp hy with rfl | hy
          · exact e
          · exact hn y hy
      · exact .inr ⟨t', List.mem_cons_of_mem _ ht', hh⟩

/-- The first pass has no other names. -/
theorem firstPass_names {lib : Literal.Lib} {st : Sec.State} {g : Pipe.Table} :
    ∀ (ts : List RelTree) {u : Counters} {done done' : Relations},
    readRelations lib st g true u done ts = .ok done' →
    ∀ n d, done'.find n = some d → done.find n = some d ∨ ∃ t ∈ ts, t.ref.id = n
  | [], _, done, done', h, n, d, hd => by
    simp only [readRelations, Outcome.ok.injEq] at h
    subst h
    exact .inl hd
  | t :: ts, u, done, done', h, n, d, hd => by
    rw [readRelations] at h
    obtain ⟨x, -, h⟩ := bind_ok_iff h
    rcases firstPass_names ts h n d hd with hf | ⟨t', ht', e⟩
    · rw [foundFirst] at hf
      by_cases e : t.ref.id = n
      · exact .inr ⟨t, List.mem_cons_self, e⟩
      · rw [if_neg e] at hf
        exact .inl hf
    · exact .inr ⟨t', List.mem_cons_of_mem _ ht', e⟩

/-- **C75.**  If a text plan is accepted then every relation in it is of a known kind and has only
details that fit; and every relation of the binary plan is one of the text, with every expression,
filter, grouping, sort, measure and emit written there, or is empty. -/
theorem plan_placed {lib : Literal.Lib} {fuel : Nat} {text : Str} {b : Binary}
    (h : fromText lib fuel text = some (.ok b)) :
    ∃ ds, Sec.detailsOf text = some ds ∧
      (∀ t, Sec.PlanDetail.relation t ∈ ds →
        ∃ k, Enum.readRelationType t.type = some k ∧ Fits k t.details) ∧
      ∀ x ∈ b.rels, ∀ o ∈ owns x.2, o = ⟨.other, [], none, none⟩ ∨
        ∃ t, Sec.PlanDetail.relation t ∈ ds ∧ Holds t.details ⟨o.body, o.emit⟩ := by
  unfold fromText at h
  cases hd : Sec.detailsOf text with
  | none =>
    rw [hd] at h
    simp at h
  | some ds =>
    rw [hd] at h
    simp only [Option.map_some, Option.some.injEq] at h
    refine ⟨ds, rfl, ?_⟩
    unfold fromDetails at h
    obtain ⟨st, -, h⟩ := bind_ok_iff h
    by_cases he : st.errs.isEmpty
    · rw [if_pos he] at h
      obtain ⟨g, -, h⟩ := bind_ok_iff h
      by_cases hg : (g.errors.isEmpty && refsKnown st.symbols [] ds) = true
      · rw [if_pos hg] at h
        obtain ⟨done, hp, h⟩ := bind_ok_iff h
        obtain ⟨rs, -, h⟩ := bind_ok_iff h
        obtain ⟨bs, hb, h⟩ := map_ok_iff h
        unfold readPasses at hp
        obtain ⟨mid, hm, hp⟩ := bind_ok_iff hp
        obtain ⟨f1, f2⟩ := readRelations_fit _ hp
        have hdone : ∀ n d, done.find n = some d →
            ∃ t ∈ ds.filterMap relationOf, Holds t.details d.rel := by
          intro n d hn
          rcases f2 n d hn with ⟨hf, hne⟩ | hh
          · rcases firstPass_names _ hm n d hf with hf | ⟨t, ht, e⟩
            · simp [Relations.find] at hf
            · exact absurd e (hne t ht)
          · exact hh
        have back : ∀ t, t ∈ ds.filterMap relationOf → Sec.PlanDetail.relation t ∈ ds := by
          intro t ht
          obtain ⟨x, hx, e⟩ := List.mem_filterMap.mp ht
          cases x <;> simp only [relationOf, Option.some.injEq, reduceCtorEq] at e
          subst e
          exact hx
        refine ⟨fun t ht => f1 t (List.mem_filterMap.mpr ⟨_, ht, rfl⟩), ?_⟩
        intro x hx o ho
        rw [← h] at hx
        rcases attachL_written hdone rs hb o (owns_mem.mpr ⟨x.2, namedAs_owns _ _ hx, ho⟩) with
          e | ⟨t, ht, hh⟩
        · exact .inl e
        · exact .inr ⟨t, back t ht, hh⟩
      · rw [if_neg hg] at h
        simp at h
    · rw [if_neg he] at h
      simp at h

/-! ### Cases -/

/-- A plan of a read and one more relation. -/
def placedText (f : String) : Str := ("pipelines { r -> f -> root; } " ++
  "read relation r { source t; base_schema s; } " ++ f ++
  " schema s { a i32; } source named_table t { names = [\"t\"] }").toList

/-- The number of relations of the result, and the number of the fetch relation on top. -/
def placedResult : Option (Outcome Binary) → Option (Nat × Option Int)
  | some (.ok b) =>
    match b.rels with
    | [(_, .node o kids)] =>
      some (1 + kids.length, match o.body with
        | .fetch _ n => some n
        | _ => none)
    | _ => none
  | _ => none

theorem placedResult_some {x : Option (Outcome Binary)} {k : Nat × Option Int}
    (h : placedResult x = some k) : ∃ b, x = some (.ok b) := by
  unfold placedResult at h
  split at h
  · exact ⟨_, rfl⟩
  · cases h

/-- Refused, but not for the syntax. -/
def turnedDown : Option (Outcome Binary) → Bool
  | some (.throw _) => true
  | _ => false

/-- Non-vacuity of `plan_placed`: an aggregate with a grouping and two measures. -/
example : ∃ b, fromText sampleLib 4 (placedText ("aggregate relation f { grouping a; " ++
    "measure { filter true_bool; } measure { filter true_bool; sort a; } emit a; }")) =
      some (.ok b) :=
  placedResult_some (k := (2, none)) (by decide +kernel)

/-- A schema, a filter or a second filter where there can be none. -/
example : turnedDown (fromText sampleLib 4 (placedText "fetch relation f { count 5; }")) = false ∧
    turnedDown (fromText sampleLib 4 (placedText "fetch relation f { count 5; base_schema s; }")) =
      true ∧
    turnedDown (fromText sampleLib 4 (placedText "fetch relation f { filter true_bool; }")) =
      true ∧
    turnedDown (fromText sampleLib 4
      (placedText "filter relation f { filter true_bool; filter true_bool; }")) = true :=
  ⟨by decide +kernel, by decide +kernel, by decide +kernel, by decide +kernel⟩

/-- **C75, what is written twice** (why counts are not among what is kept).  The last `count` of a
relation replaces the first, without an error. -/
theorem count_twice :
    placedResult (fromText sampleLib 4 (placedText "fetch relation f { count 5; count 6; }")) =
      placedResult (fromText sampleLib 4 (placedText "fetch relation f { count 6; }")) ∧
    placedResult (fromText sampleLib 4 (placedText "fetch relation f { count 6; }")) =
      some (2, some 6) :=
  ⟨by decide +kernel, by decide +kernel⟩

end Verif.Whole
