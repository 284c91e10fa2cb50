import Verif.Lemmas.RelationValue
import Verif.Prop.Enum

/-!
# Lemmas on reading the details of relations
-/

namespace Verif.Rel

open Verif Verif.TyPb Verif.Tree Verif.Literal Verif.Lex Verif.Parse Verif.Expr

/-! ## Texts -/

theorem text_and (a b : Str) : Text.and (.ok (a, [])) (.ok (b, [])) = .ok (a ++ b, []) := rfl

theorem line_ok (before t after : Str) :
    line before (.ok (t, [])) after = .ok (before ++ t ++ after, []) := rfl

/-! ## Expressions -/

/-- The text of an expression, and what both passes make of it. -/
structure ExprItem (c : RelContext) (d : Schema.RelData) (e : PbExpr) (i : Item) : Prop where
  printed : printExpr c.expr 0 e = .ok (i.text, [])
  good : Good i
  value : ∀ first d', (loose first c = false → d' = d) →
    ∃ x, value first c d' i.tree = .ok (.expr x, []) ∧ (first = false → x = e) ∧
      (FieldKept e → (c.inside = false → c.outer = [] ∨ isOuter e = false) →
        fieldOf x = if loose first c then none else fieldOf e)
  refs : subqueryRefs i.tree = askedOf e

theorem expr_item {c : RelContext} (hlib : c.expr.lib.Numerals) {d : Schema.RelData} {e : PbExpr} (h : ExprOk c d e) :
    ∃ i, ExprItem c d e i := by
  obtain ⟨i, hi⟩ := made (c.at d) hlib e h.1 0
  refine ⟨i, ?_, hi.good, fun first d' hd => value_ok first hd hi.read h.2, hi.refs⟩
  have := hi.printed
  unfold RelContext.at at this
  rwa [printExpr_scopes] at this

/-! ## Sequences of details -/

theorem details_nil (first : Bool) (c : RelContext) (st : State) :
    readDetails first c st [] = .ok (st, []) := rfl

theorem details_cons {first : Bool} {c : RelContext} {st st' st'' : State} {d : Detail}
    {ds : List Detail} (h : readDetail first c st d = .ok (st', []))
    (hs : readDetails first c st' ds = .ok (st'', [])) :
    readDetails first c st (d :: ds) = .ok (st'', []) := by
  rw [readDetails, h]
  show Outcome.map _ (readDetails first c st' ds) = _
  rw [hs]; rfl

theorem details_append {first : Bool} {c : RelContext} {st' st'' : State} {b : List Detail}
    (hb : readDetails first c st' b = .ok (st'', [])) : ∀ {a : List Detail} {st : State},
    readDetails first c st a = .ok (st', []) → readDetails first c st (a ++ b) = .ok (st'', [])
  | [], st, h => by
    cases h
    exact hb
  | d :: ds, st, h => by
    rw [readDetails] at h
    obtain ⟨⟨s1, e1⟩, h1, h⟩ := ok_of_bind h
    obtain ⟨⟨s2, e2⟩, h2, h⟩ := ok_of_map h
    simp only [Prod.mk.injEq] at h
    obtain ⟨rfl, he⟩ := h
    obtain ⟨rfl, rfl⟩ := List.append_eq_nil_iff.mp he
    exact details_cons h1 (details_append hb h2)

/-- The detail is no `emit`. -/
def notEmit : Detail → Prop
  | .emit _ _ => False
  | _ => True

theorem emits_skip (first : Bool) (c : RelContext) (st : State) (b : List Detail) :
    ∀ a : List Detail, (∀ d ∈ a, notEmit d) → readEmits first c st (a ++ b) = readEmits first c st b
  | [], _ => rfl
  | d :: ds, h => by
    have hd := h d (by simp)
    have ih := emits_skip first c st b ds fun x hx => h x (by simp [hx])
    cases d <;> first | exact hd.elim | (rw [List.cons_append, readEmits]; exact ih; simp)

theorem emits_none (first : Bool) (c : RelContext) (st : State) {a : List Detail}
    (h : ∀ d ∈ a, notEmit d) : readEmits first c st a = (st, []) := by
  have := emits_skip first c st [] a h
  rwa [List.append_nil] at this

/-- The fields are known in this pass. -/
def Tracks (first : Bool) (c : RelContext) (d : Schema.RelData) (st : State) : Prop :=
  loose first c = false → st.data = d

/-! ## Filters, sources and schemas -/

/-- Lines with their texts and the property of being good. -/
structure Lines (c : RelContext) (t : Text) (ls : List (Line Detail)) : Prop where
  good : ∀ l ∈ ls, GoodDetail l
  printed : t = .ok (linesText ls, [])
  quiet : ∀ d ∈ ls.map (·.detail), notEmit d

theorem Lines.nil (c : RelContext) : Lines c Text.none [] := ⟨by simp, rfl, by simp⟩

theorem Lines.append {c : RelContext} {t u : Text} {a b : List (Line Detail)} (h : Lines c t a)
    (k : Lines c u b) : Lines c (Text.and t u) (a ++ b) where
  good l hl := (List.mem_append.mp hl).elim (h.good l) (k.good l)
  printed := by rw [h.printed, k.printed, text_and, linesText_append]
  quiet d hd := by
    rw [List.map_append] at hd
    exact (List.mem_append.mp hd).elim (h.quiet d) (k.quiet d)

theorem Lines.self {c : RelContext} {t : Text} {ls : List (Line Detail)} (h : Lines c t ls) :
    Lines c (.ok (linesText ls, [])) ls := ⟨h.good, rfl, h.quiet⟩

theorem Lines.one {c : RelContext} {l : Line Detail} (h : GoodDetail l) (hq : notEmit l.detail) :
    Lines c (.ok (l.text, [])) [l] where
  good := by simpa using h
  printed := by simp [linesText]
  quiet := by simpa using hq

/-- The base schema a detail names. -/
def detailBase : Detail → Option Str
  | .schema id => some id
  | _ => none

/-- These are the relations of the subqueries in the lines, and their base schemas. -/
def Asks (ls : List (Line Detail)) (q : List Str) (b : List Str := []) : Prop :=
  (ls.map (·.detail)).flatMap detailRefs = q ∧ (ls.map (·.detail)).filterMap detailBase = b

theorem Asks.nil : Asks [] [] := ⟨rfl, rfl⟩

theorem Asks.append {a b : List (Line Detail)} {p q s t : List Str} (h : Asks a p s)
    (k : Asks b q t) : Asks (a ++ b) (p ++ q) (s ++ t) := by
  unfold Asks at h k ⊢
  rw [List.map_append, List.flatMap_append, List.filterMap_append, h.1, k.1, h.2, k.2]
  exact ⟨rfl, rfl⟩

theorem Asks.one {l : Line Detail} {q : List Str} (h : detailRefs l.detail = q)
    (hb : detailBase l.detail = none := by rfl) : Asks [l] q := by
  simp [Asks, h, hb]

/-- The detail of a filter that may be absent. -/
theorem filter_lines {c : RelContext} (hlib : c.expr.lib.Numerals) {d : Schema.RelData} {f : Option PbExpr}
    (h : OptOk c d f) :
    ∃ ls, Lines c (optLine c.expr "  filter ".toList lineEnd f) ls ∧ Asks ls (askedOpt f) ∧
      ∀ first st, Tracks first c d st →
        (∃ s t, st.body = .read s t none none false) ∨ st.body = .filter none →
        ∃ x, readDetails first c st (ls.map (·.detail)) =
            .ok ({ st with body := withFilters ⟨x, none, none, x⟩ st.body }, []) ∧
          (first = false → x = f) := by
  cases f with
  | none =>
    refine ⟨[], Lines.nil c, Asks.nil, fun first st _ hb => ⟨none, ?_, fun _ => rfl⟩⟩
    rcases hb with ⟨s, t, hb⟩ | hb
    · rw [List.map_nil, details_nil, hb]
      simp only [withFilters]
      rw [← hb]
    · rw [List.map_nil, details_nil, hb]
      simp only [withFilters]
      rw [← hb]
  | some e =>
    obtain ⟨i, hi⟩ := expr_item hlib (h e rfl)
    rw [optLine, hi.printed, line_ok]
    refine ⟨_, Lines.one (good_filter hi.good) trivial, Asks.one hi.refs,
      fun first st ht hb => ?_⟩
    · obtain ⟨x, hx, hxe, -⟩ := hi.value first st.data ht
      refine ⟨some x, details_cons (st' := { st with body := withFilters ⟨some x, none, none, some x⟩ st.body }) ?_ (details_nil _ _ _), fun hf => by rw [hxe hf]⟩
      simp only [readDetail, readFilter, hx, Outcome.bind]
      rcases hb with ⟨s, t, hb⟩ | hb
      · rw [hb]; rfl
      · rw [hb]; rfl

theorem source_line (c : RelContext) {s : Str} (h : Ext.IsName s)
    (hs : c.source s = some .named ∨ c.source s = some .files) :
    ∃ ls, Lines c (nameLine "  source ".toList (some s)) ls ∧ Asks ls [] ∧
      ∀ first st t, st.body = .read none t none none false →
        readDetails first c st (ls.map (·.detail)) =
          .ok ({ st with body := .read (some s) t none none false }, []) := by
  refine ⟨_, Lines.one (good_source h) trivial, Asks.one rfl, fun first st t hb => ?_⟩
  refine details_cons (st' := { st with body := .read (some s) t none none false }) ?_
    (details_nil _ _ _)
  simp only [readDetail, readSource, hb]
  rcases hs with hs | hs <;> rw [hs]

theorem schema_line (c : RelContext) {schema : Option Str} {cols : List Schema.Field}
    (h : SchemaOk c schema cols) :
    ∃ ls, Lines c (nameLine "  base_schema ".toList schema) ls ∧ Asks ls [] schema.toList ∧
      ∀ first st s, st.body = .read s none none none false →
        readDetails first c st (ls.map (·.detail)) =
          .ok ({ st with
            body := .read s schema none none false
            data := { st.data with output := st.data.output ++ cols } }, []) := by
  cases schema with
  | none =>
    rw [SchemaOk] at h
    subst h
    refine ⟨[], Lines.nil c, Asks.nil, fun first st s hb => ?_⟩
    rw [List.map_nil, details_nil, List.append_nil, ← hb]
  | some n =>
    obtain ⟨hn, hc⟩ := h
    refine ⟨_, Lines.one (good_schema hn) trivial, ⟨rfl, rfl⟩, fun first st s hb => ?_⟩
    refine details_cons ?_ (details_nil _ _ _)
    simp only [readDetail, readSchema, hb, hc]

/-! ## Joins, sorts, counts -/

theorem enum_line {print : Int → Enum.Printed} {read : Str → Enum.ReadEnum} {n : Int}
    (h : Enum.Survives print (Enum.IdReads read) n) :
    ∃ ts, Name (enumWord (print n)) ts ∧ read (enumWord (print n)) = (n, false) := by
  obtain ⟨t, hp, ⟨ts, hn⟩, hr⟩ := h
  rw [hp]
  exact ⟨ts, hn, hr⟩

theorem join_lines {c : RelContext} (hlib : c.expr.lib.Numerals) {d : Schema.RelData} {t : Int} {f : Option PbExpr}
    (ht : 1 ≤ t ∧ t ≤ 7) (h : OptOk c d f) :
    ∃ ls, Lines c (Text.and (.ok ("  type ".toList ++ enumWord (Enum.printJoin t) ++ lineEnd, []))
        (Text.and (optLine c.expr "  expression ".toList lineEnd f) Text.none)) ls ∧
      Asks ls (askedOpt f) ∧
      ∀ first st, Tracks first c d st → st.body = .join 0 none none →
        ∃ x, readDetails first c st (ls.map (·.detail)) =
            .ok ({ st with body := .join t x none }, []) ∧ (first = false → x = f) := by
  obtain ⟨ts, hn, hr⟩ := enum_line ((Enum.join_survives_iff t).mpr ht)
  have h1 := Lines.one (c := c) (good_type hn) trivial
  have hd : ∀ first st, st.body = .join 0 none none →
      readDetail first c st (.type (enumWord (Enum.printJoin t))) =
        .ok ({ st with body := .join t none none }, []) := by
    intro first st hb
    simp only [readDetail, readJoinType, hb, hr]
    rfl
  cases f with
  | none =>
    exact ⟨_, h1.append ((Lines.nil c).append (Lines.nil c)), Asks.one rfl, fun first st _ hb =>
      ⟨none, details_cons (hd first st hb) (details_nil _ _ _), fun _ => rfl⟩⟩
  | some e =>
    obtain ⟨i, hi⟩ := expr_item hlib (h e rfl)
    rw [optLine, hi.printed, line_ok]
    refine ⟨_, h1.append (Lines.append
      (Lines.one (good_expression hi.good (o := none) (by simp)) trivial) (Lines.nil c)),
      (Asks.one rfl).append (by simpa using (Asks.one (by exact hi.refs)).append Asks.nil),
      fun first st htr hb => ?_⟩
    · obtain ⟨x, hx, hxe, -⟩ := hi.value first st.data htr
      refine ⟨some x, details_cons (hd first st hb) (details_cons
        (st' := { st with body := .join t (some x) none }) ?_ (details_nil _ _ _)),
        fun hf => by rw [hxe hf]⟩
      simp only [readDetail, readExpression, hx, Outcome.bind]
      rfl

theorem count_line (c : RelContext) {n : Int} (h : Int64 n) :
    ∃ ls, Lines c (.ok (offsetLine 0 ++ "  count ".toList ++ intText n ++ lineEnd, [])) ls ∧
      Asks ls [] ∧ ∀ first st, st.body = .fetch 0 0 →
        readDetails first c st (ls.map (·.detail)) = .ok ({ st with body := .fetch 0 n }, []) := by
  refine ⟨_, Lines.one (good_count n) trivial, Asks.one rfl, fun first st hb => ?_⟩
  refine details_cons ?_ (details_nil _ _ _)
  simp only [readDetail, readCount, hb]
  simp [visitNumber, stol64_intText h, orNumberError, Outcome.map, i64Of]

theorem sort_lines {c : RelContext} (hlib : c.expr.lib.Numerals) {d : Schema.RelData} :
    ∀ {ss : List PbSort}, (∀ s ∈ ss, SortOk c d s) →
    ∃ ls, (∀ acc, printSorts c.expr (acc, []) ss = .ok (acc ++ linesText ls, [])) ∧
      Lines c (.ok (linesText ls, [])) ls ∧ Asks ls (ss.flatMap fun s => askedOf s.expr) ∧
      ∀ first st done, Tracks first c d st → st.body = .sort done →
        ∃ xs, readDetails first c st (ls.map (·.detail)) =
            .ok ({ st with body := .sort (done ++ xs) }, []) ∧ (first = false → xs = ss)
  | [], _ => by
    refine ⟨[], fun acc => by simp [printSorts, linesText], Lines.nil c, Asks.nil, fun first st done _ hb => ⟨[], ?_, fun _ => rfl⟩⟩
    rw [List.map_nil, details_nil, List.append_nil, ← hb]
  | ⟨e, k⟩ :: ss, h => by
    obtain ⟨he, n, hk, hn⟩ := h ⟨e, k⟩ (by simp)
    subst hk
    obtain ⟨ls, hp, hl, hq, hr⟩ := sort_lines hlib (ss := ss) fun s hs => h s (by simp [hs])
    obtain ⟨i, hi⟩ := expr_item hlib he
    obtain ⟨w, hw, ⟨ts, hname⟩, hread⟩ := (Enum.direction_survives_iff n).mpr hn
    have h1 := Lines.one (c := c) (good_sort hi.good hname) trivial
    refine ⟨_, fun acc => ?_, (h1.append hl).self, (Asks.one (by exact hi.refs)).append hq, fun first st done ht hb => ?_⟩
    · rw [printSorts, hi.printed]
      simp only [Outcome.bind, List.map_nil, List.append_nil]
      rw [hp, List.singleton_append, linesText, directionText, hw]
      simp [List.append_assoc]
    · obtain ⟨x, hx, hxe, -⟩ := hi.value first st.data ht
      obtain ⟨xs, hxs, hxse⟩ := hr first { st with body := .sort (done ++ [⟨x, .direction n⟩]) } _ ht rfl
      refine ⟨⟨x, .direction n⟩ :: xs, ?_, fun hf => by rw [hxe hf, hxse hf]⟩
      rw [List.singleton_append, List.map_cons]
      refine details_cons (st' := { st with body := .sort (done ++ [⟨x, .direction n⟩]) }) ?_ ?_
      · simp only [readDetail, readSort, hb, readSortField, exprValue_ok hx, Outcome.map, hread]
        rfl
      · rw [hxs]; simp
/-! ## Groupings -/

theorem readable_field {c : Context} {e : PbExpr} {n : Int} (h : Readable c e)
    (hf : fieldOf e = some n) : 0 ≤ n ∧ n < 2147483648 := by
  cases e with
  | field seg base =>
    cases seg with
    | field m child =>
      cases child with
      | false =>
        rw [Readable] at h
        simp only [fieldOf, Option.some.injEq] at hf
        subst hf
        exact ⟨h.1, h.2.1⟩
      | true => simp [Readable] at h
    | other => simp [fieldOf] at hf
  | _ => simp [fieldOf] at hf

theorem asSize_small {n : Int} (h0 : 0 ≤ n) (h1 : n < 2147483648) :
    Schema.asSize n = n.toNat := by
  unfold Schema.asSize
  congr 1
  omega

theorem vecAt_ok {l : List Schema.Field} {n : Nat} (h : n < l.length) :
    Schema.vecAt l n = .ok l[n] := by
  unfold Schema.vecAt
  rw [List.getElem?_eq_getElem h]

theorem pushField_none (d : Schema.RelData) {x : PbExpr} (h : fieldOf x = none) :
    pushField d x = .ok d := by
  cases x with
  | field seg base => cases seg <;> first | rfl | simp [fieldOf] at h
  | _ => rfl

theorem pushField_some (d : Schema.RelData) {x : PbExpr} {n : Int} (h : fieldOf x = some n)
    (h0 : 0 ≤ n) (h1 : n < 2147483648) (hl : n < d.fields.length) :
    pushField d x = .ok { d with generated := d.generated ++ (d.fields[n.toNat]?).toList } := by
  cases x with
  | field seg base =>
    cases seg with
    | field m child =>
      simp only [fieldOf, Option.some.injEq] at h
      subst h
      have hlt : m.toNat < d.fields.length := by omega
      rw [pushField, asSize_small h0 h1, vecAt_ok hlt, List.getElem?_eq_getElem hlt]
      rfl
    | other => simp [fieldOf] at h
  | _ => simp [fieldOf] at h

theorem rooted_self {c : Context} {e : PbExpr} (h : Readable c e)
    (hb : ∀ seg base, e = .field seg base → base = .root) : rooted e = e := by
  cases e with
  | field seg base => rw [hb seg base rfl]; rfl
  | masked b => simp [Readable] at h
  | noReference b => simp [Readable] at h
  | _ => rfl

/-- The grouping sets while they are read. -/
def grouped : List PbExpr → List (List PbExpr)
  | [] => []
  | g => [g]

theorem addGrouping_grouped (e : PbExpr) (g : List PbExpr) :
    addGrouping e (grouped g) = grouped (g ++ [e]) := by
  cases g <;> simp [grouped, addGrouping]

theorem group_lines {c : RelContext} (hlib : c.expr.lib.Numerals) :
    ∀ {es : List PbExpr} {d : Schema.RelData}, GroupsOk c d es →
    ∃ ls, Lines c (printGrouping c.expr es) ls ∧ Asks ls (es.flatMap askedOf) ∧
      ∀ first st done, Tracks first c d st → st.body = .aggregate (grouped done) [] →
        ∃ xs data, readDetails first c st (ls.map (·.detail)) =
            .ok ({ st with body := .aggregate (grouped (done ++ xs)) [], data := data }, []) ∧
          (loose first c = false → data = afterGroups d es) ∧ (first = false → xs = es)
  | [], d, _ => by
    refine ⟨[], Lines.nil c, Asks.nil, fun first st done ht hb => ⟨[], st.data, ?_, ht, fun _ => rfl⟩⟩
    rw [List.map_nil, details_nil, List.append_nil, ← hb]
  | e :: es, d, h => by
    rw [GroupsOk] at h
    obtain ⟨⟨he, hk, hroot, hlen⟩, hs⟩ := h
    obtain ⟨i, hi⟩ := expr_item hlib he
    obtain ⟨ls, hl, hq, hr⟩ := group_lines hlib hs
    rw [printGrouping, hi.printed, line_ok]
    refine ⟨_, (Lines.one (good_grouping hi.good) trivial).append hl,
      (Asks.one (by exact hi.refs)).append hq, fun first st done ht hb => ?_⟩
    obtain ⟨x, hx, hxe, hf⟩ := hi.value first st.data ht
    have hf := hf hk fun _ => .inr (by
      cases e with
      | field seg base => rw [hroot seg base rfl]; rfl
      | _ => rfl)
    have hpush : ∃ d', pushField st.data x = .ok d' ∧
        (loose first c = false → d' = afterGroup d e) := by
      cases hloose : loose first c with
      | true =>
        rw [hloose, if_pos rfl] at hf
        exact ⟨_, pushField_none _ hf, by simp⟩
      | false =>
        rw [hloose, if_neg (by simp)] at hf
        have hd := ht hloose
        rw [hd]
        unfold afterGroup
        cases hfe : fieldOf e with
        | none => exact ⟨_, pushField_none _ (hf.trans hfe), fun _ => rfl⟩
        | some n =>
          obtain ⟨h0, h1⟩ := readable_field he.1 hfe
          exact ⟨_, pushField_some _ (hf.trans hfe) h0 h1 (hlen n hfe), fun _ => rfl⟩
    obtain ⟨d', hp, hd'⟩ := hpush
    obtain ⟨xs, data, hxs, hdata, hxse⟩ := hr first
      { st with body := .aggregate (grouped (done ++ [rooted x])) [], data := d' } _ hd' rfl
    refine ⟨rooted x :: xs, data, ?_, hdata, fun hfirst => ?_⟩
    · rw [List.singleton_append, List.map_cons]
      refine details_cons (st' := { st with
        body := .aggregate (grouped (done ++ [rooted x])) [], data := d' }) ?_ ?_
      · simp only [readDetail, readGrouping, hx, Outcome.bind, hb, Value.asExpr, hp, Outcome.map,
          addGrouping_grouped]
        rfl
      · rw [hxs]; simp
    · rw [hxe hfirst, hxse hfirst, rooted_self he.1 hroot]

/-! ## Measures -/

theorem aggregateArgs_eq (c : Context) (c' : Context) : ∀ as : List PbArg, ReadableArgs c' as →
    printAggregateArgs c as = printArgs c 1 as
  | [], _ => by rw [printAggregateArgs, printArgs]
  | a :: as, h => by
    rw [ReadableArgs] at h
    rw [printAggregateArgs, printArgs, aggregateArgs_eq c c' as h.2]
    cases a with
    | notSet => simp [ReadableArg] at h
    | _ => rfl

/-- The text of an aggregate function without its phase, and what both passes make of it. -/
structure AggregateItem (c : RelContext) (d : Schema.RelData) (f : PbAggregate) (i : Item) :
    Prop where
  printed : printAggregate c.expr f =
    .ok (i.text ++ '@' :: enumWord (Enum.printPhase f.phase), [])
  good : Good i
  value : ∀ first d', (loose first c = false → d' = d) →
    ∃ g as out, value first c d' i.tree = .ok (.expr (.call g 0 as [] out), []) ∧
      (first = false → g = f.function ∧ as = f.arguments ∧ out = f.output)
  refs : subqueryRefs i.tree = askedArgs f.arguments

theorem aggregate_item {c : RelContext} (hlib : c.expr.lib.Numerals) {d : Schema.RelData}
    {f : PbAggregate} (h : AggregateOk c d f) : ∃ i, AggregateItem c d f i := by
  obtain ⟨is, his⟩ := madeArgs (c.at d) hlib f.arguments h.arguments 1
  obtain ⟨s, hname, hn, hif, hanchor⟩ := h.function
  obtain ⟨id, us, q, numbers, hid, hx, hpt, hr, hl⟩ := type_tree h.output
  have hif' : isIfThen s = false := by
    unfold isIfThen
    exact beq_false_of_ne hif
  have hv : visit (c.at d) (.call s (is.map (·.tree)) (commasOf is) (some (.basic id q numbers))) =
      .ok (.call f.function 0 f.arguments [] f.output, []) := by
    rw [visit, hif', if_neg (by simp), his.read, readOutput, hr, readFunction, hanchor]
    rfl
  refine ⟨_, ?_, good_call hn.name 0 his.good hid q numbers hx, fun first d' hd => ?_,
    by rw [subqueryRefs, his.refs]⟩
  · have hp := his.printed
    unfold RelContext.at at hp
    rw [printArgs_scopes] at hp
    have hfn : functionText c.expr f.function = (s, []) := by
      unfold functionText
      have : c.expr.functionName f.function = some s := hname
      rw [this]
    rw [printAggregate, aggregateArgs_eq c.expr _ f.arguments h.arguments, hp, h.args, printExprs,
      both_ok, List.append_nil, hfn, hpt, h.options]
    simp [Outcome.map, optionsText, indent]
  · cases first with
    | false =>
      have := hd rfl
      subst this
      refine ⟨f.function, f.arguments, f.output, ?_, fun _ => ⟨rfl, rfl, rfl⟩⟩
      simp only [value, Bool.false_eq_true, if_false]
      unfold RelContext.at at hv
      rw [hv]
      rfl
    | true =>
      obtain ⟨x, hx⟩ := first_clean (c.at d) { c.expr with readScopes := d' :: c.outer }
        ⟨d' :: c.outer, rfl⟩ c.inside _
        (acceptable_of_visit _ _ _ hv (by simp [Plain])) _ hv
      obtain ⟨g, as, out, rfl⟩ := first_call hif' hx
      exact ⟨g, as, out, by simpa only [value, if_true] using hx, by simp⟩

theorem pushMeasure_eq (c : RelContext) (k : Nat) (p : Str) (d : Schema.RelData) :
    pushMeasure c k (p :: (c.measureName k).toList) d = afterMeasure c d k := by
  unfold afterMeasure
  cases c.measureName k <;> rfl

/-- The lines of a measure. -/
theorem measure_lines {c : RelContext} (hlib : c.expr.lib.Numerals) {d : Schema.RelData} {k : Nat} {m : PbMeasure}
    (h : MeasureOk c d k m) :
    ∃ ls : List (Line MeasureDetail), (∀ l ∈ ls, GoodMeasure l) ∧
      printMeasure c k m = .ok ("  measure {\n".toList ++ linesText ls ++ "  }\n".toList, []) ∧
      (ls.map (·.detail)).flatMap measureRefs = askedMeasure m ∧
      ∀ first d', (loose first c = false → d' = d) →
        ∃ x, readMeasureDetails first c k d' ⟨none, none, 0, []⟩ (ls.map (·.detail)) =
            .ok ((afterMeasure c d' k, x), []) ∧ (first = false → measureOf x = m) := by
  obtain ⟨⟨f, hm, hf⟩, hn, hfil⟩ := h
  obtain ⟨m1, m2⟩ := m
  simp only at hm hfil
  subst hm
  obtain ⟨i, hi⟩ := aggregate_item hlib hf
  obtain ⟨ts, hph, hphr⟩ := enum_line ((Enum.phase_survives_iff f.phase).mpr hf.phase)
  have g1 := good_measureLine hi.good hph hn
  have gf : ∃ lf : List (Line MeasureDetail), (∀ l ∈ lf, GoodMeasure l) ∧
      optLine c.expr "    filter ".toList lineEnd m2 = .ok (linesText lf, []) ∧
      (lf.map (·.detail)).flatMap measureRefs = askedOpt m2 ∧
      ∀ first d', (loose first c = false → d' = afterMeasure c d k) → ∃ x, (first = false → x = m2) ∧
        ∀ g inv ds, readMeasureDetails first c k d' ⟨some g, none, inv, []⟩ (lf.map (·.detail) ++ ds) =
          readMeasureDetails first c k d' ⟨some g, x, inv, []⟩ ds := by
    cases m2 with
    | none => exact ⟨[], by simp, rfl, rfl, fun first d' _ => ⟨none, fun _ => rfl, fun _ _ _ => rfl⟩⟩
    | some e =>
      obtain ⟨j, hj⟩ := expr_item hlib (hfil e rfl)
      rw [optLine, hj.printed, line_ok]
      refine ⟨[_], by simpa using good_measureFilter hj.good, by simp [linesText],
        by simp [measureRefs, askedOpt, hj.refs],
        fun first d' hd => ?_⟩
      obtain ⟨x, hx, hxe, -⟩ := hj.value first d' hd
      refine ⟨some x, fun hfirst => by rw [hxe hfirst], fun g inv ds => ?_⟩
      rw [List.map_cons, List.map_nil, List.singleton_append, readMeasureDetails, exprValue_ok hx]
      simp only [Outcome.bind, List.nil_append]
      cases readMeasureDetails first c k d' ⟨some g, some x, inv, []⟩ ds <;> rfl
  obtain ⟨lf, hlf, hpf, hqf, hrf⟩ := gf
  have gi : ∃ li : List (Line MeasureDetail), (∀ l ∈ li, GoodMeasure l) ∧
      invocationLine f.invocation = linesText li ∧
      (li.map (·.detail)).flatMap measureRefs = [] ∧
      ∀ first d' g fil, readMeasureDetails first c k d' ⟨some g, fil, 0, []⟩ (li.map (·.detail)) =
          .ok ((d', ⟨some g, fil, f.invocation, []⟩), []) := by
    by_cases h0 : f.invocation = 0
    · refine ⟨[], by simp, by rw [invocationLine, if_pos h0]; rfl, rfl, fun first d' g fil => ?_⟩
      rw [h0]; rfl
    · obtain ⟨us, hiv, hivr⟩ := enum_line ((Enum.invocation_survives_iff f.invocation).2.mpr
        (by have := hf.invocation; omega))
      refine ⟨[_], by simpa using good_invocation hiv, by
        rw [invocationLine, if_neg h0]; simp [linesText], rfl, fun first d' g fil => ?_⟩
      rw [List.map_cons, List.map_nil, readMeasureDetails, hivr]
      rfl
  obtain ⟨li, hli, hpi, hqi, hri⟩ := gi
  refine ⟨⟨"    measure ".toList ++ (i.text ++ '@' :: enumWord (Enum.printPhase f.phase)) ++
      (namedText (c.measureName k) ++ lineEnd),
      ⟨.measure, measureWord⟩ ::
        (i.toks ++ atTok :: ts ++ optToks ⟨.named, namedWord⟩ (c.measureName k) ++ [semiTok]),
      .measure i.tree none (enumWord (Enum.printPhase f.phase) :: (c.measureName k).toList)⟩ ::
      (lf ++ li), ?_, ?_, ?_, fun first d' hd => ?_⟩
  · intro l hl
    rcases List.mem_cons.mp hl with rfl | hl
    · exact g1
    · exact (List.mem_append.mp hl).elim (hlf l) (hli l)
  · simp only [printMeasure]
    rw [hi.printed, line_ok, hpf, text_and, text_and, hpi, linesText, linesText_append,
      show "  measure {\n    measure ".toList = "  measure {\n".toList ++ "    measure ".toList from
        by decide]
    simp only [List.append_assoc]
  · rw [List.map_cons, List.flatMap_cons, List.map_append, List.flatMap_append, hqf, hqi,
      List.append_nil]
    exact congrArg (· ++ askedOpt m2) hi.refs
  · obtain ⟨g, as, out, hv, hve⟩ := hi.value first d' hd
    obtain ⟨x, hx, hrx⟩ := hrf first (afterMeasure c d' k) fun hl => by rw [hd hl]
    refine ⟨⟨some ⟨g, [], as, [], out, f.phase, 0, []⟩, x, f.invocation, []⟩, ?_, fun hfirst => ?_⟩
    · rw [List.map_cons, readMeasureDetails, exprValue_ok hv, List.map_append]
      simp only [Outcome.bind, readMeasureType, aggregateOf, hphr, pushMeasure_eq, Option.getD_none]
      rw [hrx, hri]
      rfl
    · obtain ⟨rfl, rfl, rfl⟩ := hve hfirst
      rw [hx hfirst]
      have h1 := hf.options
      have h2 := hf.args
      have h3 := hf.sorts
      obtain ⟨f1, f2, f3, f4, f5, f6, f7, f8⟩ := f
      simp only at h1 h2 h3
      subst h1 h2 h3
      by_cases h0 : f7 = 0
      · simp [measureOf, h0]
      · simp [measureOf, h0]

theorem measures_lines {c : RelContext} (hlib : c.expr.lib.Numerals) :
    ∀ {ms : List PbMeasure} {k : Nat} {d : Schema.RelData}, MeasuresOk c d k ms →
    ∃ ls, Lines c (printMeasures c k ms) ls ∧ Asks ls (ms.flatMap askedMeasure) ∧
      ∀ first st gs done, Tracks first c d st → st.body = .aggregate gs done → done.length = k →
        ∃ xs data, readDetails first c st (ls.map (·.detail)) =
            .ok ({ st with body := .aggregate gs (done ++ xs), data := data }, []) ∧
          (loose first c = false → data = afterMeasures c d k ms) ∧ (first = false → xs = ms)
  | [], k, d, _ => by
    refine ⟨[], Lines.nil c, Asks.nil, fun first st gs done ht hb _ => ⟨[], st.data, ?_, ht, fun _ => rfl⟩⟩
    rw [List.map_nil, details_nil, List.append_nil, ← hb]
  | m :: ms, k, d, h => by
    rw [MeasuresOk] at h
    obtain ⟨hm, hs⟩ := h
    obtain ⟨lm, hg, hp, hqm, hrm⟩ := measure_lines hlib hm
    obtain ⟨ls, hl, hq, hr⟩ := measures_lines hlib hs
    rw [printMeasures, hp]
    refine ⟨_, (Lines.one (good_measures hg) trivial).append hl, (Asks.one (by exact hqm)).append hq,
      fun first st gs done ht hb hk => ?_⟩
    obtain ⟨x, hx, hxe⟩ := hrm first st.data ht
    obtain ⟨xs, data, hxs, hdata, hxse⟩ := hr first
      { st with body := .aggregate gs (done ++ [measureOf x]), data := afterMeasure c st.data k } gs _
      (fun hlo => by rw [← ht hlo]) rfl (by simp [hk])
    refine ⟨measureOf x :: xs, data, ?_, hdata, fun hfirst => by rw [hxe hfirst, hxse hfirst]⟩
    rw [List.singleton_append, List.map_cons]
    refine details_cons (st' := { st with
      body := .aggregate gs (done ++ [measureOf x]), data := afterMeasure c st.data k }) ?_ ?_
    · have hc : measureCount st.body = k := by rw [hb]; exact hk
      rw [readDetail, readMeasure, hc, hx]
      simp only [Outcome.map]
      rw [hb]
    · rw [hxs]; simp
/-! ## Projects -/

/-- Names kept for the expressions of a project. -/
def Named (c : RelContext) (n : Nat) (names : List Str) : Prop :=
  names.length = n ∧ ∀ j, j < n → names[j]? = some (projectName c j)

theorem Named.push {c : RelContext} {n : Nat} {names : List Str} (h : Named c n names) :
    Named c (n + 1) (names ++ [projectName c n]) := by
  refine ⟨by simp [h.1], fun j hj => ?_⟩
  by_cases hjn : j < n
  · rw [List.getElem?_append_left (by rw [h.1]; exact hjn)]
    exact h.2 j hjn
  · have : j = n := by omega
    subst this
    rw [List.getElem?_append_right (by rw [h.1]; exact Nat.le_refl _), h.1]
    simp

/-- The expressions are references to the same fields. -/
def SameFields (xs es : List PbExpr) : Prop := xs.map fieldOf = es.map fieldOf

theorem project_lines {c : RelContext} (hlib : c.expr.lib.Numerals) {d : Schema.RelData} :
    ∀ {es : List PbExpr} {k : Nat}, ProjectsOk c d k es →
    ∃ ls, Lines c (printProject c k es) ls ∧ Asks ls (es.flatMap askedOf) ∧
      ∀ first st done, Tracks first c d st → st.body = .project done → done.length = k →
        ∃ xs names, readDetails first c st (ls.map (·.detail)) =
            .ok ({ st with body := .project (done ++ xs), names := names }, []) ∧
          (first = true → Named c k st.names → Named c (k + es.length) names) ∧
          (first = false → names = st.names) ∧
          (first = false → xs = es) ∧
          (loose first c = false → (∀ e ∈ es, FieldKept e) →
            (c.inside = false → c.outer = [] ∨ ∀ e ∈ es, isOuter e = false) → SameFields xs es)
  | [], k, _ => by
    refine ⟨[], Lines.nil c, Asks.nil, fun first st done ht hb _ => ⟨[], st.names, ?_, fun _ h => h,
      fun _ => rfl, fun _ => rfl, fun _ _ _ => rfl⟩⟩
    rw [List.map_nil, details_nil, List.append_nil, ← hb]
  | e :: es, k, h => by
    rw [ProjectsOk] at h
    obtain ⟨⟨he, halt, hname⟩, hs⟩ := h
    obtain ⟨i, hi⟩ := expr_item hlib he
    obtain ⟨ls, hl, hq, hr⟩ := project_lines hlib hs
    rw [printProject, halt]
    simp only
    rw [hi.printed, line_ok]
    refine ⟨_, (Lines.one (good_expression hi.good hname) trivial).append hl,
      (Asks.one (by exact hi.refs)).append hq,
      fun first st done ht hb hk => ?_⟩
    obtain ⟨x, hx, hxe, hf⟩ := hi.value first st.data ht
    have hproj : (aliasOf c k).getD (c.fresh done.length) = projectName c k := by
      unfold projectName
      rw [hk]
      cases aliasOf c k <;> rfl
    obtain ⟨xs, names, hxs, hn1, hn2, hxse, hsame⟩ := hr first
      { st with
        body := .project (done ++ [x])
        names := if first then st.names ++ [projectName c k] else st.names } (done ++ [x])
      ht rfl (by simp [hk])
    refine ⟨x :: xs, names, ?_, fun h1 h2 => ?_, fun h1 => ?_,
      fun hfirst => by rw [hxe hfirst, hxse hfirst], fun hlo hk ho => ?_⟩
    · rw [List.singleton_append, List.map_cons]
      refine details_cons (st' := { st with
        body := .project (done ++ [x])
        names := if first then st.names ++ [projectName c k] else st.names }) ?_ ?_
      · simp only [readDetail, readExpression, hx, Outcome.bind]
        rw [hb]
        simp only [Value.asExpr, hproj, List.map_nil]
      · rw [hxs]; simp
    · have := hn1 h1 (by rw [if_pos h1]; exact h2.push)
      rw [List.length_cons]
      rwa [Nat.add_assoc, Nat.add_comm 1] at this
    · have := hn2 h1
      rw [this]
      simp [h1]
    · have h1 := hf (hk e (by simp)) fun hi => (ho hi).imp_right fun h => h e (by simp)
      rw [hlo, if_neg (by simp)] at h1
      have h2 := hsame hlo (fun e he => hk e (by simp [he])) fun hi =>
        (ho hi).imp_right fun h e he => h e (by simp [he])
      unfold SameFields at h2 ⊢
      rw [List.map_cons, List.map_cons, h1, h2]

theorem addExpressions_ok (first : Bool) (c : RelContext) (names : List Str) :
    ∀ (es : List PbExpr) (d : Schema.RelData) (k : Nat),
      ∃ d', addExpressions first c names d k es = .ok d' ∧ d'.aggregate = d.aggregate
  | [], d, k => ⟨d, rfl, rfl⟩
  | e :: es, d, k => by
    by_cases h : ∃ n child base, e = .field (.field n child) base
    · obtain ⟨n, child, base, rfl⟩ := h
      rw [addExpressions]
      split
      · rename_i hlt
        rw [vecAt_ok hlt]
        exact addExpressions_ok first c names es _ _
      · exact addExpressions_ok first c names es _ _
    · rw [addExpressions]
      · exact addExpressions_ok first c names es _ _
      · intro n child base he
        exact h ⟨n, child, base, he⟩

theorem addExpressions_exact (first : Bool) (c : RelContext) {names : List Str} {N : Nat}
    (hn : Named c N names) :
    ∀ (xs es : List PbExpr) (d : Schema.RelData) (k : Nat), SameFields xs es →
      d.fields = c.inputs → d.generated.length = k → k + es.length ≤ N →
      (∀ e ∈ es, ∀ n, fieldOf e = some n → 0 ≤ n ∧ n < 2147483648 ∧ n < c.inputs.length) →
      addExpressions first c names d k xs =
        .ok { d with generated := d.generated ++ projectFields c k es }
  | [], [], d, k, _, _, _, _, _ => by simp [addExpressions, projectFields]
  | [], _ :: _, _, _, h, _, _, _, _ => by simp [SameFields] at h
  | _ :: _, [], _, _, h, _, _, _, _ => by simp [SameFields] at h
  | x :: xs, e :: es, d, k, h, hd, hk, hN, hr => by
    simp only [SameFields, List.map_cons, List.cons.injEq] at h
    obtain ⟨hx, hs⟩ := h
    rw [List.length_cons] at hN
    have ih := fun d' (hd' : d'.fields = c.inputs) (hk' : d'.generated.length = k + 1) =>
      addExpressions_exact first c hn xs es d' (k + 1) hs hd' hk' (by omega)
        (fun e he => hr e (by simp [he]))
    by_cases hc : ∃ n child base, x = .field (.field n child) base
    · obtain ⟨n, child, base, rfl⟩ := hc
      have hfe : fieldOf e = some n := hx.symm
      obtain ⟨h0, h1, h2⟩ := hr e (by simp) n hfe
      have hlt : n.toNat < d.fields.length := by rw [hd]; omega
      rw [addExpressions, asSize_small h0 h1, if_pos hlt, vecAt_ok hlt]
      simp only [Outcome.bind]
      rw [ih { d with generated := d.generated ++ [d.fields[n.toNat]] } hd (by simp [hk]),
        projectFields, hfe]
      have : c.inputs[n.toNat]? = some (d.fields[n.toNat]) := by
        rw [← hd]; exact List.getElem?_eq_getElem hlt
      simp [this]
    · have hfe : fieldOf e = none := by
        rw [← hx]
        cases x with
        | field seg base =>
          cases seg with
          | field n child => exact absurd ⟨n, child, base, rfl⟩ hc
          | other => rfl
        | _ => rfl
      rw [addExpressions]
      · have hname : (names[if first then k else d.generated.length]?).getD [] =
            projectName c k := by
          have : (if first = true then k else d.generated.length) = k := by
            rw [hk]; split <;> rfl
          rw [this, hn.2 k (by omega)]
          rfl
        simp only [hname]
        rw [ih { d with generated := d.generated ++ [⟨.computed c.name k, projectName c k, [], none⟩] }
          hd (by simp [hk]), projectFields, hfe]
        simp
      · intro n child base he
        exact hc ⟨n, child, base, he⟩

/-! ## Output mappings -/

theorem emit_small {d : Schema.RelData} {s : Str} {i : Nat}
    (h : Schema.findHere true d s = some i) : i < 2147483648 := by
  unfold Schema.findHere at h
  have hm : ∀ n, Schema.mask n < 2147483648 := fun n => by
    unfold Schema.mask; exact Nat.mod_lt _ (by decide)
  simp only at h
  split at h
  · rw [← Option.some.inj h]; exact hm _
  · split at h
    · rw [← Option.some.inj h]; exact hm _
    · cases h

/-- The lines of an output mapping, and what is read from them. -/
structure EmitLines (c : RelContext) (d : Schema.RelData) (is : List Int)
    (ls : List (Line Detail)) : Prop where
  good : ∀ l ∈ ls, GoodDetail l
  printed : printEmitLines c is = .ok (linesText ls, [])
  skipped : ∀ first st, readDetails first c st (ls.map (·.detail)) = .ok (st, [])
  read : ∀ first st, st.data = d → readEmits first c st (ls.map (·.detail)) =
    ({ st with emit := st.emit ++ is }, [])
  refs : Asks ls []

theorem emit_lines {c : RelContext} {d : Schema.RelData} :
    ∀ {is : List Int}, (∀ i ∈ is, EmitOk c d i) → ∃ ls, EmitLines c d is ls
  | [], _ => ⟨[], by simp, rfl, fun _ _ => rfl, fun _ st _ => by simp [readEmits], Asks.nil⟩
  | i :: is, h => by
    obtain ⟨h0, h1, s, hs, hcol, hf⟩ := h i (by simp)
    obtain ⟨ls, hl⟩ := emit_lines (is := is) fun j hj => h j (by simp [hj])
    obtain ⟨toks, schema, id, hg, ht⟩ := good_emit hcol
    refine ⟨⟨"  emit ".toList ++ s ++ lineEnd, toks, .emit schema id⟩ :: ls, fun l hl' => ?_, ?_,
      fun first st => ?_, fun first st hd => ?_, (Asks.one rfl).append hl.refs⟩
    · rcases List.mem_cons.mp hl' with rfl | hl'
      · exact hg
      · exact hl.good l hl'
    · rw [printEmitLines, printEmitLine, hs, hl.printed]
      rfl
    · rw [List.map_cons]
      exact details_cons rfl (hl.skipped first st)
    · have hi : (i.toNat : Int) = i := by omega
      have hr : readEmit first c st (ExprTree.column schema id).text =
          ({ st with emit := st.emit ++ [i] }, []) := by
        rw [readEmit, ht, hd]
        cases first with
        | true => rw [if_pos rfl, hf]; simp only [hi]
        | false => rw [if_neg (by simp), Schema.find, hf]; simp only [hi]
      rw [List.map_cons, readEmits]
      simp only [hr]
      rw [hl.read first { st with emit := st.emit ++ [i] } hd]
      simp

/-- The lines with the empty line before the first. -/
def spaced : List (Line Detail) → List (Line Detail)
  | [] => []
  | l :: ls => { l with text := '\n' :: l.text } :: ls

theorem spaced_detail (ls : List (Line Detail)) :
    (spaced ls).map (·.detail) = ls.map (·.detail) := by
  cases ls <;> rfl

theorem spaced_good {ls : List (Line Detail)} (h : ∀ l ∈ ls, GoodDetail l) :
    ∀ l ∈ spaced ls, GoodDetail l := by
  cases ls with
  | nil => exact h
  | cons a as =>
    intro l hl
    rcases List.mem_cons.mp hl with rfl | hl
    · exact good_newline (h a (by simp))
    · exact h l (by simp [hl])

theorem spaced_asks {ls : List (Line Detail)} {q : List Str} (h : Asks ls q) :
    Asks (spaced ls) q := by
  unfold Asks at h ⊢
  rw [spaced_detail]
  exact h

theorem common_printed {c : RelContext} {d : Schema.RelData} {is : List Int}
    {ls : List (Line Detail)} (h : EmitLines c d is ls) :
    printCommon c is = .ok (linesText (spaced ls), []) := by
  have hp := h.printed
  rw [printCommon, hp, text_and]
  cases is with
  | nil =>
    cases ls with
    | nil => rfl
    | cons a as =>
      obtain ⟨t, r, ht, -⟩ := (h.good a (by simp)).head
      have h1 : linesText (a :: as) = [] := by
        simp only [printEmitLines, Text.none, Outcome.ok.injEq, Prod.mk.injEq] at hp
        exact hp.1.symm
      rw [h1]
      have := lexes_lines (a :: as) h.good [] trivial
      rw [h1, List.append_nil, linesToks, ht] at this
      have h0 : lex ([] : Str) = some [] := by decide +kernel
      rw [h0] at this
      simp at this
  | cons i is =>
    cases ls with
    | nil =>
      simp only [printEmitLines] at hp
      unfold printEmitLine at hp
      split at hp <;> cases he : printEmitLines c is <;>
        simp [he, Text.and, Outcome.bind, Outcome.map, linesText, lineEnd] at hp
    | cons a as => rfl

theorem pickAll_ok {step : Int → Schema.Picked → Outcome Schema.Picked} {fs : List Schema.Field} :
    ∀ {is : List Int}, (∀ i ∈ is, ∀ l, step i (l, []) = .ok (l ++ (fs[i.toNat]?).toList, [])) →
      ∀ l, Schema.pickAll step is (l, []) = .ok (l ++ is.filterMap (fun i => fs[i.toNat]?), [])
  | [], _, l => by simp [Schema.pickAll]
  | i :: is, h, l => by
    rw [Schema.pickAll, h i (by simp)]
    show Schema.pickAll step is _ = _
    rw [pickAll_ok (fun j hj => h j (by simp [hj]))]
    cases he : fs[i.toNat]? <;> simp [he]

/-- The end of a pass when the numbers of the output mapping are in range. -/
theorem finish_ok (c : RelContext) (st : State) (hout : st.data.output = [])
    (h : ∀ i ∈ st.emit, EmitOk c st.data i) :
    finish st = .ok ({ st with
      body := (match st.body with
        | .aggregate [] ms => .aggregate [[]] ms
        | b => b)
      data := mapped st.data st.emit }, []) := by
  rw [finish]
  have hi : ∀ i ∈ st.emit, Schema.asSize i = i.toNat ∧ i.toNat < (emitFields st.data).length := by
    intro i hi
    obtain ⟨h0, h1, s, -, -, hf⟩ := h i hi
    have := emit_small hf
    exact ⟨asSize_small h0 (by omega), by omega⟩
  obtain ⟨b, emit, ⟨ag, fs, gs, out⟩, names⟩ := st
  simp only at hout hi
  subst hout
  unfold Schema.applyText mapped
  by_cases he : emit = []
  · subst he
    cases ag <;> rfl
  · have he' : emit.isEmpty = false := by
      cases emit with
      | nil => exact absurd rfl he
      | cons a as => rfl
    simp only [he', if_false, Bool.false_eq_true]
    rw [if_neg he]
    cases ag with
    | true =>
      simp only [if_true, List.nil_append, emitFields] at hi ⊢
      rw [pickAll_ok (fs := gs) (step := Schema.pickGenerated gs) (is := emit) (fun i hm l => by
          obtain ⟨h1, h2⟩ := hi i hm
          unfold Schema.pickGenerated
          rw [h1, if_pos h2, vecAt_ok h2, List.getElem?_eq_getElem h2]
          rfl) []]
      rfl
    | false =>
      simp only [if_false, Bool.false_eq_true, emitFields] at hi ⊢
      rw [pickAll_ok (fs := fs ++ gs) (step := Schema.pickAny fs gs) (is := emit) (fun i hm l => by
          obtain ⟨h1, h2⟩ := hi i hm
          unfold Schema.pickAny
          rw [h1]
          by_cases hlt : i.toNat < fs.length
          · rw [if_pos hlt, vecAt_ok hlt, List.getElem?_append_left hlt,
              List.getElem?_eq_getElem hlt]
            rfl
          · rw [List.length_append] at h2
            have hg : i.toNat - fs.length < gs.length := by omega
            rw [if_neg hlt, if_pos h2, vecAt_ok hg, List.getElem?_append_right (by omega),
              List.getElem?_eq_getElem hg]
            rfl) []]
      rfl

end Verif.Rel
