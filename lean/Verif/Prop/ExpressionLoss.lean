import Verif.Prop.Expression
import Verif.Prop.Compound

/-!
# C39: expressions that do not survive, and the two passes of the reader
-/

namespace Verif.Expr

open Verif Verif.TyPb Verif.Tree Verif.Literal Verif.Lex Verif.Parse

/-! ## What can be read at all -/

theorem ok_of_map {α β : Type} {o : Outcome α} {f : α → β} {b : β} (h : o.map f = .ok b) :
    ∃ a, o = .ok a ∧ f a = b := by
  cases o with
  | ok a => exact ⟨a, rfl, by simpa [Outcome.map] using h⟩
  | throw _ => simp [Outcome.map] at h
  | ub => simp [Outcome.map] at h

theorem ok_of_bind {α β : Type} {o : Outcome α} {f : α → Outcome β} {b : β}
    (h : o.bind f = .ok b) : ∃ a, o = .ok a ∧ f a = .ok b := by
  cases o with
  | ok a => exact ⟨a, rfl, by simpa [Outcome.bind] using h⟩
  | throw _ => simp [Outcome.bind] at h
  | ub => simp [Outcome.bind] at h

theorem ok_of_pair {α β γ : Type} {f : α → β → γ} {p : Got α} {q : Got β} {r : γ × List RErr}
    (h : Got.pair f p q = .ok r) :
    ∃ a b, p = .ok a ∧ q = .ok b ∧ r = (f a.1 b.1, a.2 ++ b.2) := by
  unfold Got.pair at h
  obtain ⟨a, ha, h⟩ := ok_of_bind h
  obtain ⟨b, hb, h⟩ := ok_of_map h
  exact ⟨a, b, ha, hb, h.symm⟩

theorem ifClauses_producible : ∀ (es : List PbExpr), ProducibleList es →
    ProducibleClauses (ifClauses es).1 ∧ Producible (ifClauses es).2
  | [], _ => by simp [ifClauses, ProducibleClauses, Producible]
  | [e], h => by
    rw [ProducibleList] at h
    simp only [ifClauses, ProducibleClauses, true_and]
    exact h.1
  | a :: b :: r, h => by
    rw [ProducibleList, ProducibleList] at h
    have ih := ifClauses_producible r h.2.2
    simp only [ifClauses, ProducibleClauses, ProducibleClause]
    exact ⟨⟨⟨h.1, h.2.1⟩, ih.1⟩, ih.2⟩

theorem ifThenOf_producible {es : List PbExpr} (h : ProducibleList es) :
    Producible (ifThenOf es) := by
  unfold ifThenOf
  split
  · rw [Producible]; trivial
  · rw [Producible]; exact ifClauses_producible es h

theorem readColumn_producible (c : Context) (n : Str) : Producible (readColumn c n).1 := by
  unfold readColumn
  split
  · rename_i k i _
    rw [Producible]
    refine ⟨by omega, rfl, ?_⟩
    by_cases hk : k > 0
    · rw [if_pos hk]; exact .inr ⟨k - 1, by congr 1; omega⟩
    · rw [if_neg hk]; exact .inl rfl
  · rw [Producible]; trivial

theorem withRelation_producible {c : Context} {ref : RelRef} {m : PbExpr × List RErr}
    {f : Str → Got PbExpr} {e : PbExpr} {errs : List RErr} (hm : Producible m.1)
    (hf : ∀ n e errs, f n = .ok (e, errs) → Producible e)
    (h : withRelation c ref m f = .ok (e, errs)) : Producible e := by
  unfold withRelation at h
  split at h
  · simp only [Outcome.ok.injEq] at h; rw [h] at hm; exact hm
  · exact hf _ _ _ h
  · simp at h

theorem reductionOf_range (all : Bool) : reductionOf all = 1 ∨ reductionOf all = 2 := by
  cases all
  · exact .inl rfl
  · exact .inr rfl

theorem predicateOf_range (exist : Bool) : predicateOf exist = 1 ∨ predicateOf exist = 2 := by
  cases exist
  · exact .inr rfl
  · exact .inl rfl

mutual
/-- **C39, limits.**  Whatever the text, the reader gives an expression of `Producible`. -/
theorem visit_image (c : Context) : (t : ExprTree) → (e : PbExpr) → (errs : List RErr) →
    visit c t = .ok (e, errs) → Producible e
  | .call id args commas ty, e, errs, h => by
    rw [visit] at h
    split at h
    · obtain ⟨r, hr, h⟩ := ok_of_map h
      have := visitList_image c args r.1 r.2 hr
      simp only [Prod.mk.injEq] at h
      rw [← h.1]
      exact ifThenOf_producible this
    · obtain ⟨r, hr, h⟩ := ok_of_map h
      obtain ⟨a, b, ha, hb, rfl⟩ := ok_of_pair hr
      simp only [Prod.mk.injEq] at h
      rw [← h.1, Producible]
      exact ⟨rfl, visitArgs_image c args a.1 a.2 ha, rfl⟩
  | .const k, e, errs, h => by
    rw [visit] at h
    obtain ⟨r, -, h⟩ := ok_of_map h
    simp only [Prod.mk.injEq] at h
    rw [← h.1, Producible]; trivial
  | .column schema id, e, errs, h => by
    rw [visit] at h
    simp only [Outcome.ok.injEq] at h
    have := readColumn_producible c (ExprTree.column schema id).text
    rw [h] at this
    exact this
  | .cast x kw ty, e, errs, h => by
    rw [visit] at h
    obtain ⟨a, b, ha, hb, hr⟩ := ok_of_pair h
    simp only [Prod.mk.injEq] at hr
    rw [hr.1, Producible]
    exact ⟨visit_image c x a.1 a.2 ha, rfl⟩
  | .scalarSubquery kw ref, e, errs, h => by
    rw [visit] at h
    refine withRelation_producible (by simp [Producible]) ?_ h
    intro n e errs h
    simp only [Outcome.ok.injEq, Prod.mk.injEq] at h
    rw [← h.1, Producible]; trivial
  | .inSubquery es kw ref, e, errs, h => by
    rw [visit] at h
    refine withRelation_producible (by simp [Producible]) ?_ h
    intro n e errs h
    obtain ⟨r, hr, h⟩ := ok_of_map h
    simp only [Prod.mk.injEq] at h
    rw [← h.1, Producible]
    exact visitList_image c es r.1 r.2 hr
  | .setPredicate exist kw ref, e, errs, h => by
    rw [visit] at h
    refine withRelation_producible (by simp [Producible]) ?_ h
    intro n e errs h
    simp only [Outcome.ok.injEq, Prod.mk.injEq] at h
    rw [← h.1, Producible]
    exact predicateOf_range exist
  | .setComparison x op all kw ref, e, errs, h => by
    rw [visit] at h
    obtain ⟨l, hl, h⟩ := ok_of_bind h
    have := visit_image c x l.1 l.2 hl
    refine withRelation_producible ?_ ?_ h
    · rw [Producible]; exact ⟨this, reductionOf_range all⟩
    · intro n e errs h
      simp only [Outcome.ok.injEq, Prod.mk.injEq] at h
      rw [← h.1, Producible]
      exact ⟨this, reductionOf_range all⟩
theorem visitArgs_image (c : Context) : (ts : List ExprTree) → (as : List PbArg) →
    (errs : List RErr) → visitArgs c ts = .ok (as, errs) → ProducibleArgs as
  | [], as, errs, h => by
    rw [visitArgs] at h
    simp only [Outcome.ok.injEq, Prod.mk.injEq] at h
    rw [← h.1, ProducibleArgs]; trivial
  | t :: ts, as, errs, h => by
    rw [visitArgs] at h
    split at h
    · obtain ⟨r, hr, h⟩ := ok_of_map h
      simp only [Prod.mk.injEq] at h
      rw [← h.1, ProducibleArgs, ProducibleArg]
      exact ⟨trivial, visitArgs_image c ts r.1 r.2 hr⟩
    · obtain ⟨a, b, ha, hb, hr⟩ := ok_of_pair h
      simp only [Prod.mk.injEq] at hr
      rw [hr.1, ProducibleArgs, ProducibleArg]
      exact ⟨visit_image c t a.1 a.2 ha, visitArgs_image c ts b.1 b.2 hb⟩
theorem visitList_image (c : Context) : (ts : List ExprTree) → (es : List PbExpr) →
    (errs : List RErr) → visitList c ts = .ok (es, errs) → ProducibleList es
  | [], es, errs, h => by
    rw [visitList] at h
    simp only [Outcome.ok.injEq, Prod.mk.injEq] at h
    rw [← h.1, ProducibleList]; trivial
  | t :: ts, es, errs, h => by
    rw [visitList] at h
    obtain ⟨a, b, ha, hb, hr⟩ := ok_of_pair h
    simp only [Prod.mk.injEq] at hr
    rw [hr.1, ProducibleList]
    exact ⟨visit_image c t a.1 a.2 ha, visitList_image c ts b.1 b.2 hb⟩
end

/-- **C39 as stated is false.**  No text at all, in no context, is read as an expression that
is not `Producible`. -/
theorem unproducible_lost (c : Context) {e : PbExpr} (h : ¬ Producible e) (text : Str)
    (errs : List RErr) : readText c text ≠ some (.ok (e, errs)) := by
  intro hr
  unfold readText at hr
  cases ht : parseText text with
  | none => simp [ht] at hr
  | some t =>
    rw [ht, Option.map_some, Option.some.injEq] at hr
    exact h (visit_image c t e errs hr)

/-- In particular: casts that say what to do on a failure, calls with options, arguments of the
old kind or types as arguments, references into a field or to an element of a list or map, and
references whose base is not set or an expression. -/
theorem unproducible_kinds (e : PbExpr) (t : PbType) (f : Nat) (as : List PbArg)
    (es : List PbExpr) (n : Int) (b : Root) :
    (∀ k, k ≠ 0 → ¬ Producible (.cast e t k)) ∧
    (∀ o, o ≠ 0 → ¬ Producible (.call f o as es t)) ∧
    ¬ Producible (.call f 0 as (e :: es) t) ∧
    ¬ Producible (.call f 0 (.type t :: as) [] t) ∧
    ¬ Producible (.field (.field n true) b) ∧
    ¬ Producible (.field .other b) ∧
    ¬ Producible (.field (.field n false) .unset) ∧
    ¬ Producible (.field (.field n false) .expression) ∧
    ¬ Producible (.masked b) := by
  simp +contextual [Producible, ProducibleArgs, ProducibleArg]

/-- Non-vacuity: the expression of the example before is producible. -/
example : Producible sampleExpr := by
  simp [sampleExpr, Producible, ProducibleArgs, ProducibleArg, ProducibleList, ProducibleClauses,
    ProducibleClause]

/-! ## What is lost without an error -/

theorem printExprs_values (c : Context) (d : Nat) : ∀ (es : List PbExpr),
    printArgs c d (es.map .value) = printExprs c d es
  | [] => by rw [List.map_nil, printArgs, printExprs]
  | e :: es => by
    rw [List.map_cons, printArgs, printExprs, printArg, printExprs_values c d es]

theorem both_assoc (p q r : Pieces) : both (both p q) r = both p (both q r) := by
  unfold both
  cases p with
  | ok a =>
    cases q with
    | ok b => cases r <;> simp [Outcome.bind, Outcome.map]
    | throw _ => simp [Outcome.bind, Outcome.map]
    | ub => simp [Outcome.bind, Outcome.map]
  | throw _ => simp [Outcome.bind]
  | ub => simp [Outcome.bind]

theorem both_empty (p : Pieces) : both p (.ok ([], [])) = p := by
  cases p <;> simp [both, Outcome.bind, Outcome.map]

theorem printArgs_append (c : Context) (d : Nat) (bs : List PbArg) : ∀ (as : List PbArg),
    printArgs c d (as ++ bs) = both (printArgs c d as) (printArgs c d bs)
  | [] => by
    rw [List.nil_append, printArgs]
    cases printArgs c d bs <;> simp [both, Outcome.bind, Outcome.map]
  | a :: as => by
    rw [List.cons_append, printArgs, printArgs, printArgs_append c d bs as, both_assoc]

/-- **C39 as stated is false.**  All these pairs of expressions have the same text and the same
errors, so nothing of the difference is in the text and nothing is reported. -/
theorem printed_alike (c : Context) (d : Nat) (e : PbExpr) (t : PbType) (f : Nat)
    (as : List PbArg) (es : List PbExpr) (n : Int) (b : Root) (s : Segment) :
    (∀ k, printExpr c d (.cast e t k) = printExpr c d (.cast e t 0)) ∧
    (∀ o, printExpr c d (.call f o as es t) = printExpr c d (.call f 0 as es t)) ∧
    printExpr c d (.call f 0 as es t) = printExpr c d (.call f 0 (as ++ es.map .value) [] t) ∧
    printExpr c d (.field (.field n true) b) = printExpr c d (.field (.field n false) b) ∧
    printExpr c d (.field .other b) = printExpr c d (.field (.field 0 false) b) ∧
    printExpr c d (.field s .unset) = printExpr c d (.field s .root) ∧
    printExpr c d (.field s .expression) = printExpr c d (.field s .root) := by
  refine ⟨fun _ => ?_, fun _ => ?_, ?_, ?_, ?_, ?_, ?_⟩
  · rw [printExpr, printExpr]
  · rw [printExpr, printExpr]
  · rw [printExpr, printExpr, printArgs_append, printExprs_values, printExprs, both_empty]
  · rw [printExpr, printExpr]; rfl
  · rw [printExpr, printExpr]; rfl
  · rw [printExpr, printExpr]; rfl
  · rw [printExpr, printExpr]; rfl

/-- Masked references, references of no kind, empty expressions and empty subqueries throw, and
so does every call, cast and comparison around them. -/
theorem printed_throws (c : Context) (d : Nat) (b : Root) (t : PbType) (f o : Nat)
    (as : List PbArg) (es : List PbExpr) (e : PbExpr) (k : Exc)
    (h : printExpr c (d + 1) e = .throw k) (h' : printExpr c d e = .throw k) :
    printExpr c d (.masked b) = .throw .invalidArgument ∧
    printExpr c d (.noReference b) = .throw .invalidArgument ∧
    printExpr c d .notSet = .throw .unsupported ∧
    printExpr c d .noSubquery = .throw .unsupported ∧
    printExpr c d (.call f o (.value e :: as) es t) = .throw k ∧
    printExpr c d (.cast e t 0) = .throw k := by
  refine ⟨by rw [printExpr], by rw [printExpr], by rw [printExpr], by rw [printExpr], ?_, ?_⟩
  · rw [printExpr, printArgs, printArg, h]; rfl
  · rw [printExpr, h']; rfl

example : printExpr sample 1 (.masked .root) = .throw .invalidArgument ∧
    printExpr sample 0 (.masked .root) = .throw .invalidArgument := by
  constructor <;> rw [printExpr]

/-- An if-then without clauses and without an else is read as no expression, without an
error. -/
theorem empty_ifThen_lost (c : Context) (d : Nat) :
    printExpr c d (.ifThen [] .notSet) = .ok ("IFTHEN()".toList, []) ∧
    readText c "IFTHEN()".toList = some (.ok (.notSet, [])) := by
  have hg := good_ifThen (is := []) (by simp)
  have hp := hg.parseText
  have ht : "IFTHEN(".toList ++ listText (([] : List Item).map (·.text)) ++ [')'] =
      "IFTHEN()".toList := by decide
  constructor
  · rw [printExpr, printClauses, ← ht]; rfl
  · rw [← ht, readText, hp, Option.map_some]
    have h1 : isIfThen "IFTHEN".toList = true := by decide
    rw [visit, if_pos h1, List.map_nil, visitList]
    rfl

/-- An argument that is a column with a name that ends in `_enum` is read as an enumeration,
without an error. -/
theorem enum_column_captured (c : Context) (d : Nat) {f : Nat} {t : PbType} {p : Str} {n : Int}
    {base : Root} (hf : FunctionOk c f) (ht : TypeOk t) (hfield : FieldOk c n base)
    (hname : Schema.lookup c.scopes base.steps n.toNat = some (p ++ "_enum".toList))
    (hp : p ≠ []) :
    ∃ text, printExpr c d (.call f 0 [.value (.field (.field n false) base)] [] t) =
        .ok (text, []) ∧
      readText c text = some (.ok (.call f 0 [.enum p] [] t, [])) := by
  obtain ⟨h0, h1, -, s, hs, hcol, -⟩ := hfield
  rw [hname, Option.some.injEq] at hs
  subst hs
  obtain ⟨toks, tree, hg, htext, -⟩ := good_column hcol
  have he : isEnum tree = true := by
    unfold isEnum; rw [htext]; exact endsWith_of_append hp
  obtain ⟨i, h2, h3, h4, -, -⟩ := call_item d (is := [⟨p ++ "_enum".toList, toks, tree⟩])
    (as := [.value (.field (.field n false) base)]) (as' := [.enum p]) hf (by simp)
    (by
      have : (n % 4294967296).toNat = n.toNat := by omega
      rw [printArgs, printArg, printArgs, printExpr, fieldText]
      simp only [Segment.number, this, hname]
      rfl)
    (by simpa using hg)
    (by
      rw [List.map_cons, List.map_nil, visitArgs, if_pos he, visitArgs, htext, stripEnum_append]
      rfl) ht
  exact ⟨i.text, h2, by rw [readText, h3.parseText, Option.map_some, h4]⟩

example : FieldOk sample 2 .root ∧
    Schema.lookup sample.scopes Root.root.steps 2 = some ("size".toList ++ "_enum".toList) := by
  refine ⟨⟨by decide, by decide, .inl rfl, "size_enum".toList, by decide,
    .inl ⟨[idTok "size", uTok, idTok "enum"], by decide +kernel, by decide, by decide⟩, by decide⟩,
    by decide⟩

theorem madeList_values {c : Context} {d : Nat} {es : List PbExpr} {is : List Item}
    (h : MadeList c d es is) : printArgs c d (es.map .value) = .ok (is.map (·.text), []) := by
  rw [printExprs_values, h.printed]

/-- A call of a function that is named like `IFTHEN`, in whatever case, is read as an if-then,
without an error. -/
theorem ifThen_function_captured (c : Context) (hlib : c.lib.Numerals) (d : Nat) {f : Nat}
    {t : PbType} {s : Str} {es : List PbExpr} (hname : c.functionName f = some s)
    (hn : Ext.IsName s) (hif : s.map toLower = "ifthen".toList) (ht : TypeOk t) (hne : es ≠ [])
    (hes : ReadableList c es) :
    ∃ text, printExpr c d (.call f 0 (es.map .value) [] t) = .ok (text, []) ∧
      readText c text = some (.ok (.ifThen (ifClauses es).1 (ifClauses es).2, [])) := by
  obtain ⟨is, his⟩ := madeList c hlib es hes (d + 1)
  obtain ⟨id, us, q, numbers, hid, hx, hpt, hr, hl⟩ := type_tree ht
  have hg := good_call hn.name d his.good hid q numbers hx
  have hemp : (is.map (·.text)).isEmpty = false := by
    cases is with
    | nil =>
      have := his.read
      rw [List.map_nil, visitList] at this
      simp only [Outcome.ok.injEq, Prod.mk.injEq] at this
      exact absurd this.1.symm hne
    | cons _ _ => rfl
  have h1 : isIfThen s = true := by unfold isIfThen; rw [hif]; rfl
  have h2 : ifThenOf es = .ifThen (ifClauses es).1 (ifClauses es).2 := by
    unfold ifThenOf; rw [if_neg (by simpa using hne)]
  have hread := hg.parseText
  refine ⟨_, ?_, by
    rw [readText, hread, Option.map_some, visit, if_pos h1, his.read, ← h2]; rfl⟩
  · rw [printExpr, madeList_values his, printExprs, both_ok, List.append_nil]
    simp only [Outcome.map, functionText, hname, hpt, hemp]
    simp

example : sample.functionName 2 = some "ifthen".toList ∧ Ext.IsName "ifthen".toList ∧
    TypeOk (.scalar .i32 .required) ∧ ReadableList sample [.field (.field 0 false) .root] := by
  refine ⟨rfl, sample_name (ts := [idTok "ifthen"]) (name_of (by decide +kernel)),
    ⟨by decide, trivial, by decide⟩, ?_⟩
  simp only [ReadableList, Readable]
  exact ⟨sample_a, trivial⟩

/-- A column that is called `null_i32` is read as a null constant, without an error. -/
theorem null_column_captured (d : Nat) :
    printExpr sample d (.field (.field 3 false) .root) = .ok ("null_i32".toList, []) ∧
    Schema.find false sample.readScopes "null_i32".toList = some (0, 3) ∧
    ∃ t, readText sample "null_i32".toList = some (.ok (.literal (.atom (.null t) false), [])) := by
  have ht := typeFor_basic false (id := "i32".toList) (numbers := []) false (by decide) (by decide)
    (by simp) (t := .scalar .i32 .required) (errs := []) (by rfl)
  obtain ⟨t, hv, -⟩ := null_read sample.lib false none "null".toList _ _ _ ht
  refine ⟨?_, by decide, t, ?_⟩
  · rw [printExpr]; rfl
  · have hl : lex "null_i32;".toList = some [⟨.null, "null".toList⟩, uTok, idTok "i32",
        ⟨.semicolon, [';']⟩] := by decide +kernel
    have hp : parseText "null_i32".toList =
        some (.const (.null "null".toList (some (.basic "i32".toList false [])))) := by
      unfold parseText
      rw [show "null_i32".toList ++ [';'] = "null_i32;".toList by decide, hl]
      rfl
    rw [readText, hp, Option.map_some, visit, hv]
    rfl

/-- A type as an argument is printed as that type, without an error, although no text at all is
read as such a call. -/
theorem type_argument_lost (c : Context) (d : Nat) {f : Nat} {s : Str} {t out : PbType}
    (hname : c.functionName f = some s) (ht : TypeOk t) (hout : TypeOk out) :
    printExpr c d (.call f 0 [.type t] [] out) =
        .ok (indent d ++ s ++ '(' :: (printType t).1 ++ ")->".toList ++ (printType out).1, []) ∧
      ∀ text errs, readText c text ≠ some (.ok (.call f 0 [.type t] [] out, errs)) := by
  have h1 : (printType t).2 = [] := (printType_errors t).mpr ht.1
  have h2 : (printType out).2 = [] := (printType_errors out).mpr hout.1
  constructor
  · rw [printExpr, printArgs, printArgs, printArg, printExprs]
    simp [both, piece, Outcome.map, Outcome.bind, functionText, hname, h1, h2, listText]
  · intro text errs
    exact unproducible_lost c (by simp [Producible, ProducibleArgs, ProducibleArg]) text errs

example : sample.functionName 1 = some "add".toList ∧ TypeOk (.scalar .i32 .required) :=
  ⟨rfl, by decide, trivial, by decide⟩

/-- A column that is found in none of the relations is reported, and no expression is made of
it. -/
theorem column_missing_reported (c : Context) (schema : Option Str) (id : Str)
    (h : Schema.find false c.readScopes (ExprTree.column schema id).text = none) :
    visit c (.column schema id) = .ok (.notSet, [.column]) := by
  rw [visit, readColumn, h]

example : Schema.find false sample.readScopes (ExprTree.column none "nowhere".toList).text = none := by
  decide

/-! ## The two passes of the reader -/

theorem noColumn_append (a b : List RErr) : noColumn (a ++ b) = noColumn a ++ noColumn b := by
  simp [noColumn]

theorem noColumn_literal (l : List LitErr) :
    noColumn (l.map RErr.literal) = l.map RErr.literal := by
  rw [noColumn, List.filter_eq_self]
  simp

theorem noColumn_type (l : List TypeErr) : noColumn (l.map RErr.type) = l.map RErr.type := by
  rw [noColumn, List.filter_eq_self]
  simp

theorem readType_noColumn {ty : TypeTree} {t : PbType} {errs : List RErr}
    (h : readType ty = .ok (t, errs)) : noColumn errs = errs := by
  rw [readType] at h
  obtain ⟨x, -, h⟩ := ok_of_map h
  cases h
  exact noColumn_type _

theorem readOutput_noColumn {ty : Option TypeTree} {t : PbType} {errs : List RErr}
    (h : readOutput ty = .ok (t, errs)) : noColumn errs = errs := by
  cases ty with
  | none => simp only [readOutput, Outcome.ok.injEq, Prod.mk.injEq] at h; rw [← h.2]; rfl
  | some ty => exact readType_noColumn h

theorem readFunction_noColumn (c : Context) (id : Str) :
    noColumn (readFunction c id).2 = (readFunction c id).2 := by
  unfold readFunction
  split <;> rfl

theorem firstColumn_eq {c : Context} (hc : c.readScopes.length ≤ 1) (n : Str) :
    (readColumn c n).1 = firstColumn c n ∧ noColumn (readColumn c n).2 = [] := by
  unfold readColumn firstColumn
  match h : c.readScopes, hc with
  | [], _ => exact ⟨rfl, rfl⟩
  | [d], _ =>
    rw [Schema.find]
    cases hf : Schema.findHere false d n <;> simp only [hf] <;> exact ⟨rfl, rfl⟩

mutual
/-- Where there is no subquery, in a relation that is in no subquery, the first pass gives what
the second gives; only columns that are not found are not reported. -/
theorem first_visit (c : Context) (hc : c.readScopes.length ≤ 1) : (t : ExprTree) →
    hasSubquery t = false →
    first c false t = (visit c t).map fun r => (.expr r.1, noColumn r.2)
  | .call id args commas ty, h => by
    rw [hasSubquery] at h
    rw [first, visit]
    split
    · rw [firstList_visit c hc args h]
      cases visitList c args <;> simp [Outcome.map]
    · rw [firstArgs_visit c hc args h]
      cases visitArgs c args with
      | ok r =>
        cases ho : readOutput ty with
        | ok t =>
          have := readOutput_noColumn ho
          simp [Outcome.map, Outcome.bind, Got.pair, noColumn_append, readFunction_noColumn, this]
        | throw _ => simp [Outcome.map, Outcome.bind, Got.pair]
        | ub => simp [Outcome.map, Outcome.bind, Got.pair]
      | throw _ => simp [Outcome.map, Outcome.bind, Got.pair]
      | ub => simp [Outcome.map, Outcome.bind, Got.pair]
  | .const k, _ => by
    rw [first, visit]
    cases visitConst c.lib false none k <;> simp [Outcome.map, noColumn_literal]
  | .column schema id, _ => by
    obtain ⟨h1, h2⟩ := firstColumn_eq hc (ExprTree.column schema id).text
    rw [first, visit, Outcome.map, h1, h2]
    rfl
  | .cast e kw ty, h => by
    rw [hasSubquery] at h
    rw [first, visit, first_visit c hc e h]
    cases visit c e with
    | ok r =>
      simp only [Outcome.map, Outcome.bind, Value.asExpr, Got.pair]
      cases hr : readType ty with
      | ok t => simp [noColumn_append, readType_noColumn hr]
      | throw _ => simp
      | ub => simp
    | throw _ => simp [Outcome.map, Outcome.bind, Got.pair]
    | ub => simp [Outcome.map, Outcome.bind, Got.pair]
  | .scalarSubquery _ _, h => by simp [hasSubquery] at h
  | .inSubquery _ _ _, h => by simp [hasSubquery] at h
  | .setPredicate _ _ _, h => by simp [hasSubquery] at h
  | .setComparison _ _ _ _ _, h => by simp [hasSubquery] at h
theorem firstArgs_visit (c : Context) (hc : c.readScopes.length ≤ 1) : (ts : List ExprTree) →
    hasSubqueries ts = false →
    firstArgs c false ts = (visitArgs c ts).map fun r => ((r.1, true), noColumn r.2)
  | [], _ => by rw [firstArgs, visitArgs]; rfl
  | t :: ts, h => by
    rw [hasSubqueries, Bool.or_eq_false_iff] at h
    have ih := firstArgs_visit c hc ts h.2
    have it := first_visit c hc t h.1
    rw [firstArgs, visitArgs]
    split
    · rw [ih]
      cases visitArgs c ts <;> simp [Outcome.map]
    · rw [if_neg (by simp [h.1]), it]
      cases visit c t with
      | ok r =>
        simp only [Outcome.map, Outcome.bind, Got.pair]
        rw [ih]
        cases visitArgs c ts <;> simp [Outcome.map, noColumn_append]
      | throw _ => simp [Outcome.map, Outcome.bind, Got.pair]
      | ub => simp [Outcome.map, Outcome.bind, Got.pair]
theorem firstList_visit (c : Context) (hc : c.readScopes.length ≤ 1) : (ts : List ExprTree) →
    hasSubqueries ts = false →
    firstList c false ts = (visitList c ts).map fun r => (r.1, noColumn r.2)
  | [], _ => by rw [firstList, visitList]; rfl
  | t :: ts, h => by
    rw [hasSubqueries, Bool.or_eq_false_iff] at h
    have ih := firstList_visit c hc ts h.2
    have it := first_visit c hc t h.1
    rw [firstList, visitList, it]
    cases visit c t with
    | ok r =>
      simp only [Outcome.map, Outcome.bind, Got.pair, Value.asExpr]
      rw [ih]
      cases visitList c ts <;> simp [Outcome.map, noColumn_append]
    | throw _ => simp [Outcome.map, Outcome.bind, Got.pair]
    | ub => simp [Outcome.map, Outcome.bind, Got.pair]
end

/-- **C57, part.**  A condition without subqueries of a relation that is in no subquery is
taken by the first pass as the second pass reads it, with the same errors except for columns
that are not found. -/
theorem condition_accepted_partial (c : Context) (hc : c.readScopes.length ≤ 1) (t : ExprTree)
    (h : hasSubquery t = false) :
    firstCondition c false t = (visit c t).map fun r => (some r.1, noColumn r.2) := by
  rw [firstCondition, first_visit c hc t h]
  cases visit c t <;> simp [Outcome.map]

mutual
theorem acceptable_of_none : (t : ExprTree) → hasSubquery t = false → Acceptable t
  | .call id args _ _, h => by
    rw [hasSubquery] at h
    rw [Acceptable]
    split
    · exact acceptableAll_of_none args h
    · trivial
  | .const _, _ => by rw [Acceptable]; trivial
  | .column _ _, _ => by rw [Acceptable]; trivial
  | .cast e _ _, h => by
    rw [hasSubquery] at h
    rw [Acceptable]; exact acceptable_of_none e h
  | .scalarSubquery _ _, h => by simp [hasSubquery] at h
  | .inSubquery _ _ _, h => by simp [hasSubquery] at h
  | .setPredicate _ _ _, h => by simp [hasSubquery] at h
  | .setComparison _ _ _ _ _, h => by simp [hasSubquery] at h
theorem acceptableAll_of_none : (ts : List ExprTree) → hasSubqueries ts = false → AcceptableAll ts
  | [], _ => by rw [AcceptableAll]; trivial
  | t :: ts, h => by
    rw [hasSubqueries, Bool.or_eq_false_iff] at h
    rw [AcceptableAll]
    exact ⟨acceptable_of_none t h.1, acceptableAll_of_none ts h.2⟩
end

mutual
/-- What the second pass reads is an expression in the first pass exactly if it is
acceptable. -/
theorem first_accepts (c : Context) (inside : Bool) : (t : ExprTree) →
    (r : PbExpr × List RErr) → visit c t = .ok r →
    ((∃ e errs, first c inside t = .ok (.expr e, errs)) ↔ Acceptable t)
  | .call id args commas ty, r, h => by
    rw [visit] at h
    rw [first, Acceptable]
    by_cases hif : isIfThen id = true
    · rw [if_pos hif] at h ⊢
      rw [if_pos hif]
      obtain ⟨x, hx, -⟩ := ok_of_map h
      rw [← firstList_accepts c inside args x hx]
      constructor
      · rintro ⟨e, errs, he⟩
        obtain ⟨y, hy, -⟩ := ok_of_map he
        exact ⟨y, hy⟩
      · rintro ⟨y, hy⟩
        rw [hy]
        exact ⟨_, _, rfl⟩
    · rw [if_neg hif] at h ⊢
      rw [if_neg hif]
      obtain ⟨x, hx, -⟩ := ok_of_map h
      obtain ⟨a, b, ha, hb, -⟩ := ok_of_pair hx
      obtain ⟨as, errs, has⟩ := firstArgs_accepts c inside args a ha
      rw [has, hb]
      simp only [Outcome.bind, if_true, Outcome.map, iff_true]
      exact ⟨_, _, rfl⟩
  | .const k, r, h => by
    rw [visit] at h
    obtain ⟨x, hx, -⟩ := ok_of_map h
    rw [first, Acceptable, hx, iff_true]
    exact ⟨_, _, rfl⟩
  | .column schema id, r, h => by
    rw [first, Acceptable, iff_true]
    split
    · exact ⟨_, _, rfl⟩
    · exact ⟨_, _, rfl⟩
  | .cast e kw ty, r, h => by
    rw [visit] at h
    obtain ⟨a, b, ha, hb, -⟩ := ok_of_pair h
    rw [first, Acceptable, ← first_accepts c inside e a ha]
    constructor
    · rintro ⟨x, errs, hx⟩
      obtain ⟨v, hv, hx⟩ := ok_of_bind hx
      obtain ⟨v1, v2⟩ := v
      cases v1 with
      | expr y => exact ⟨y, v2, hv⟩
      | nothing => simp [Value.asExpr] at hx
      | list _ => simp [Value.asExpr] at hx
    · rintro ⟨x, errs, hx⟩
      rw [hx, hb]
      exact ⟨_, _, rfl⟩
  | .scalarSubquery kw ref, r, _ => by
    rw [first, Acceptable]; simp
  | .inSubquery es kw ref, r, _ => by
    rw [first, Acceptable, iff_false]
    rintro ⟨e, errs, h⟩
    obtain ⟨x, -, h⟩ := ok_of_map h
    simp at h
  | .setPredicate exist kw ref, r, _ => by
    rw [first, Acceptable]; simp
  | .setComparison e op all kw ref, r, h => by
    rw [visit] at h
    obtain ⟨l, hl, -⟩ := ok_of_bind h
    rw [first, Acceptable, first_accepts c inside e l hl]
theorem firstArgs_accepts (c : Context) (inside : Bool) : (ts : List ExprTree) →
    (r : List PbArg × List RErr) → visitArgs c ts = .ok r →
    ∃ as errs, firstArgs c inside ts = .ok ((as, true), errs)
  | [], _, _ => ⟨[], [], by rw [firstArgs]⟩
  | t :: ts, r, h => by
    rw [visitArgs] at h
    rw [firstArgs]
    by_cases he : isEnum t = true
    · rw [if_pos he] at h ⊢
      obtain ⟨x, hx, -⟩ := ok_of_map h
      obtain ⟨as, errs, has⟩ := firstArgs_accepts c inside ts x hx
      rw [has]
      exact ⟨_, _, rfl⟩
    · rw [if_neg he] at h ⊢
      obtain ⟨a, b, ha, hb, -⟩ := ok_of_pair h
      obtain ⟨as, errs, has⟩ := firstArgs_accepts c inside ts b hb
      rw [has]
      by_cases hs : hasSubquery t = true
      · rw [if_pos hs]; exact ⟨_, _, rfl⟩
      · rw [if_neg hs]
        obtain ⟨e, errs', hx⟩ := (first_accepts c inside t a ha).mpr
          (acceptable_of_none t (by simpa using hs))
        rw [hx]
        exact ⟨_, _, rfl⟩
theorem firstList_accepts (c : Context) (inside : Bool) : (ts : List ExprTree) →
    (r : List PbExpr × List RErr) → visitList c ts = .ok r →
    ((∃ x, firstList c inside ts = .ok x) ↔ AcceptableAll ts)
  | [], _, _ => by rw [firstList, AcceptableAll]; simp
  | t :: ts, r, h => by
    rw [visitList] at h
    obtain ⟨a, b, ha, hb, -⟩ := ok_of_pair h
    rw [firstList, AcceptableAll, ← first_accepts c inside t a ha,
      ← firstList_accepts c inside ts b hb]
    constructor
    · rintro ⟨x, hx⟩
      obtain ⟨v, hv, hx⟩ := ok_of_bind hx
      obtain ⟨v1, v2⟩ := v
      cases v1 with
      | expr y =>
        obtain ⟨w, hw, -⟩ := ok_of_map hx
        exact ⟨⟨y, v2, hv⟩, ⟨w, hw⟩⟩
      | nothing => simp [Value.asExpr] at hx
      | list _ => simp [Value.asExpr] at hx
    · rintro ⟨⟨y, errs, hy⟩, ⟨w, hw⟩⟩
      rw [hy]
      simp only [Outcome.bind, Value.asExpr]
      rw [hw]
      exact ⟨_, rfl⟩
end

mutual
/-- What the second pass reads without an error causes none in the first pass, whatever fields
the first pass knows. -/
theorem first_clean (c c' : Context) (hc : ∃ s, c' = { c with readScopes := s }) (inside : Bool) :
    (t : ExprTree) → Acceptable t → (e : PbExpr) → visit c t = .ok (e, []) →
    ∃ x, first c' inside t = .ok (.expr x, [])
  | .call id args commas ty, ha, e, h => by
    rw [visit] at h
    rw [Acceptable] at ha
    rw [first]
    by_cases hif : isIfThen id = true
    · rw [if_pos hif] at h ha ⊢
      obtain ⟨⟨xs, errs⟩, hx, h⟩ := ok_of_map h
      cases h
      obtain ⟨y, hy⟩ := firstList_clean c c' hc inside args ha xs hx
      rw [hy]
      exact ⟨_, rfl⟩
    · rw [if_neg hif] at h ⊢
      obtain ⟨⟨x, errs⟩, hx, h⟩ := ok_of_map h
      simp only [Prod.mk.injEq, List.append_eq_nil_iff] at h
      obtain ⟨-, hf, rfl⟩ := h
      obtain ⟨⟨a, ea⟩, ⟨b, eb⟩, ha, hb, hab⟩ := ok_of_pair hx
      simp only [Prod.mk.injEq] at hab
      obtain ⟨rfl, rfl⟩ := List.append_eq_nil_iff.mp hab.2.symm
      obtain ⟨as, has⟩ := firstArgs_clean c c' hc inside args a ha
      have hfun : readFunction c' id = readFunction c id := by
        obtain ⟨s, rfl⟩ := hc; rfl
      rw [has, hb, hfun, hf]
      exact ⟨_, rfl⟩
  | .const k, _, e, h => by
    rw [visit] at h
    obtain ⟨⟨l, errs⟩, hx, h⟩ := ok_of_map h
    simp only [Prod.mk.injEq, List.map_eq_nil_iff] at h
    obtain ⟨-, rfl⟩ := h
    have hlib : c'.lib = c.lib := by obtain ⟨s, rfl⟩ := hc; rfl
    rw [first, hlib, hx]
    exact ⟨_, rfl⟩
  | .column schema id, _, e, h => by
    rw [first]
    split
    · exact ⟨_, rfl⟩
    · exact ⟨_, rfl⟩
  | .cast t kw ty, ha, e, h => by
    rw [visit] at h
    rw [Acceptable] at ha
    obtain ⟨⟨a, ea⟩, ⟨b, eb⟩, h1, hb, hab⟩ := ok_of_pair h
    simp only [Prod.mk.injEq] at hab
    obtain ⟨rfl, rfl⟩ := List.append_eq_nil_iff.mp hab.2.symm
    obtain ⟨x, hx⟩ := first_clean c c' hc inside t ha a h1
    rw [first, hx, hb]
    exact ⟨_, rfl⟩
  | .scalarSubquery _ _, ha, _, _ => by rw [Acceptable] at ha; exact ha.elim
  | .inSubquery _ _ _, ha, _, _ => by rw [Acceptable] at ha; exact ha.elim
  | .setPredicate _ _ _, ha, _, _ => by rw [Acceptable] at ha; exact ha.elim
  | .setComparison t op all kw ref, ha, e, h => by
    rw [visit] at h
    rw [Acceptable] at ha
    obtain ⟨⟨l, el⟩, hl, h⟩ := ok_of_bind h
    have hel : el = [] := by
      unfold withRelation at h
      split at h
      · simp only [Outcome.ok.injEq, Prod.mk.injEq] at h
        exact (List.append_eq_nil_iff.mp h.2).1
      · simp only [Outcome.ok.injEq, Prod.mk.injEq] at h
        exact h.2
      · simp at h
    rw [hel] at hl
    rw [first]
    exact first_clean c c' hc inside t ha l hl
theorem firstArgs_clean (c c' : Context) (hc : ∃ s, c' = { c with readScopes := s })
    (inside : Bool) : (ts : List ExprTree) → (as : List PbArg) → visitArgs c ts = .ok (as, []) →
    ∃ xs, firstArgs c' inside ts = .ok ((xs, true), [])
  | [], _, _ => ⟨[], by rw [firstArgs]⟩
  | t :: ts, as, h => by
    rw [visitArgs] at h
    rw [firstArgs]
    by_cases he : isEnum t = true
    · rw [if_pos he] at h ⊢
      obtain ⟨⟨x, ex⟩, hx, h⟩ := ok_of_map h
      simp only [Prod.mk.injEq] at h
      rw [h.2] at hx
      obtain ⟨xs, hxs⟩ := firstArgs_clean c c' hc inside ts x hx
      rw [hxs]
      exact ⟨_, rfl⟩
    · rw [if_neg he] at h ⊢
      obtain ⟨⟨a, ea⟩, ⟨b, eb⟩, h1, hb, hab⟩ := ok_of_pair h
      simp only [Prod.mk.injEq] at hab
      obtain ⟨rfl, rfl⟩ := List.append_eq_nil_iff.mp hab.2.symm
      obtain ⟨xs, hxs⟩ := firstArgs_clean c c' hc inside ts b hb
      rw [hxs]
      by_cases hs : hasSubquery t = true
      · rw [if_pos hs]; exact ⟨_, rfl⟩
      · rw [if_neg hs]
        obtain ⟨x, hx⟩ := first_clean c c' hc inside t
          (acceptable_of_none t (by simpa using hs)) a h1
        rw [hx]
        exact ⟨_, rfl⟩
theorem firstList_clean (c c' : Context) (hc : ∃ s, c' = { c with readScopes := s })
    (inside : Bool) : (ts : List ExprTree) → AcceptableAll ts → (es : List PbExpr) →
    visitList c ts = .ok (es, []) → ∃ xs, firstList c' inside ts = .ok (xs, [])
  | [], _, _, _ => ⟨[], by rw [firstList]⟩
  | t :: ts, ha, es, h => by
    rw [visitList] at h
    rw [AcceptableAll] at ha
    obtain ⟨⟨a, ea⟩, ⟨b, eb⟩, h1, hb, hab⟩ := ok_of_pair h
    simp only [Prod.mk.injEq] at hab
    obtain ⟨rfl, rfl⟩ := List.append_eq_nil_iff.mp hab.2.symm
    obtain ⟨x, hx⟩ := first_clean c c' hc inside t ha.1 a h1
    obtain ⟨xs, hxs⟩ := firstList_clean c c' hc inside ts ha.2 b hb
    rw [firstList, hx]
    simp only [Outcome.bind, Value.asExpr]
    rw [hxs]
    exact ⟨_, rfl⟩
end

/-- **C57, exact behaviour.**  Of the conditions the second pass reads, the first pass accepts
exactly those of `Acceptable`, in every context and at every depth. -/
theorem condition_accepted_iff (c : Context) (inside : Bool) (t : ExprTree)
    (r : PbExpr × List RErr) (h : visit c t = .ok r) :
    (∃ e errs, firstCondition c inside t = .ok (some e, errs)) ↔ Acceptable t := by
  rw [← first_accepts c inside t r h, firstCondition]
  constructor
  · rintro ⟨e, errs, he⟩
    obtain ⟨v, hv, he⟩ := ok_of_map he
    obtain ⟨v1, v2⟩ := v
    cases v1 with
    | expr y => exact ⟨y, v2, hv⟩
    | nothing => simp at he
    | list _ => simp at he
  · rintro ⟨e, errs, he⟩
    rw [he]
    exact ⟨_, _, rfl⟩

/-- Non-vacuity: a call with a subquery as its argument is acceptable. -/
example : Acceptable (.call "and".toList
    [.setPredicate true "EXISTSINSUBQUERY".toList ⟨"x".toList, none⟩] [false] none) := by
  rw [Acceptable, if_neg (by decide)]; trivial

/-- **C57 as stated is false.**  The first pass refuses every condition that is itself a scalar
subquery or one of `EXISTS`, `UNIQUE` and `IN`, in every context; of a set comparison it takes
the left side for the condition. -/
theorem condition_refused (c : Context) (inside : Bool) (kw : Str) (ref : RelRef) (exist : Bool) :
    firstCondition c inside (.scalarSubquery kw ref) = .ok (none, [.notExpression]) ∧
    firstCondition c inside (.setPredicate exist kw ref) = .ok (none, [.notExpression]) ∧
    (∀ es x errs, firstList c inside es = .ok (x, errs) →
      firstCondition c inside (.inSubquery es kw ref) = .ok (none, errs ++ [.notExpression])) ∧
    ∀ e op all, firstCondition c inside (.setComparison e op all kw ref) =
      firstCondition c inside e := by
  refine ⟨?_, ?_, ?_, ?_⟩
  · rw [firstCondition, first]; rfl
  · rw [firstCondition, first]; rfl
  · intro es x errs h
    rw [firstCondition, first, h]; rfl
  · intro e op all
    rw [firstCondition, first, ← firstCondition]

/-- So an expression that survives on its own (C39) is refused as the condition of a filter. -/
theorem printed_condition_refused (c : Context) (d : Nat) (inside : Bool) {r : Option Str}
    {op : Int} (ho : op = 1 ∨ op = 2) (h : RelationOk c r) :
    ∃ text t, printExpr c d (.setPredicate op r) = .ok (text, []) ∧ parseText text = some t ∧
      visit c t = .ok (.setPredicate op r, []) ∧
      firstCondition c inside t = .ok (none, [.notExpression]) := by
  obtain ⟨s, rfl, hn, hr⟩ := h
  obtain ⟨exist, he⟩ : ∃ exist, predicateOf exist = op ∧
      Enum.printPredicate op = .text (predTok exist).text := by
    rcases ho with rfl | rfl
    · exact ⟨true, rfl, rfl⟩
    · exact ⟨false, rfl, rfl⟩
  have hg := good_setPredicate hn exist
  refine ⟨_, _, ?_, hg.parseText, ?_, (condition_refused c inside _ _ exist).2.1⟩
  · rw [printExpr, printSetPredicate, he.2]; rfl
  · rw [visit, relation_ok hr, he.1]

example : RelationOk sample (some "inner".toList) := sample_inner

end Verif.Expr
