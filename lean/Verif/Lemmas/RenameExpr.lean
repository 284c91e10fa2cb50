import Verif.Spec.Rename
import Verif.Lemmas.OrderRead

/-! # Reading expressions with other names -/

namespace Verif.Schema

open Verif Verif.Whole

def Origin.ren (ρ : Str → Str) : Origin → Origin
  | .column r k => .column (ρ r) k
  | .computed r k => .computed (ρ r) k
  | .measure r k => .measure (ρ r) k

def Field.ren (ρ : Str → Str) (f : Field) : Field :=
  ⟨f.id.ren ρ, ρ f.name, ρ f.alias, f.schema.map ρ⟩

def RelData.ren (ρ : Str → Str) (d : RelData) : RelData :=
  ⟨d.aggregate, d.fields.map (Field.ren ρ), d.generated.map (Field.ren ρ), d.output.map (Field.ren ρ)⟩

variable {ρ : Str → Str}

theorem eq_ren (h : Spelling ρ) (a b : Str) : (ρ a == ρ b) = (a == b) := by
  by_cases e : a = b
  · simp [e]
  · have : ρ a ≠ ρ b := fun x => e (h.different x)
    rw [beq_eq_false_iff_ne.mpr e, beq_eq_false_iff_ne.mpr this]

theorem empty_ren (h : Spelling ρ) (a : Str) : (ρ a).isEmpty = a.isEmpty := by
  cases a with
  | nil => rw [h.empty]
  | cons c a =>
    cases hr : ρ (c :: a) with
    | nil => exact absurd (h.different (hr.trans h.empty.symm)) (by simp)
    | cons x y => rfl

theorem refers_ren (h : Spelling ρ) (n : Str) (f : Field) :
    refers (ρ n) (f.ren ρ) = refers n f := by
  simp only [refers, Field.ren, empty_ren h, eq_ren h]

theorem qualified_ren (h : Spelling ρ) (f : Field) : qualified (f.ren ρ) = ρ (qualified f) := by
  unfold qualified
  simp only [Field.ren]
  cases f.schema with
  | none => rfl
  | some s => exact (h.dots s f.name).symm

theorem refersFull_ren (h : Spelling ρ) (n : Str) (f : Field) :
    refersFull (ρ n) (f.ren ρ) = refersFull n f := by
  simp only [refersFull, refers_ren h, qualified_ren h, eq_ren h]

theorem findBack_ren {p p' : Field → Bool} (hp : ∀ f, p' (f.ren ρ) = p f) (l : List Field) :
    findBack p' (l.map (Field.ren ρ)) = findBack p l := by
  unfold findBack
  rw [← List.map_reverse, List.findIdx?_map]
  congr 1
  funext f
  exact hp f

theorem findHere_ren (h : Spelling ρ) (emit : Bool) (d : RelData) (n : Str) :
    findHere emit (d.ren ρ) (ρ n) = findHere emit d n := by
  unfold findHere
  have h1 : findBack (refers (ρ n)) (d.ren ρ).generated = findBack (refers n) d.generated :=
    findBack_ren (refers_ren h n) _
  have h2 : findBack (refersFull (ρ n)) (d.ren ρ).fields = findBack (refersFull n) d.fields :=
    findBack_ren (refersFull_ren h n) _
  have h3 : (d.ren ρ).generated.length = d.generated.length := by simp [RelData.ren]
  have h4 : (d.ren ρ).fields.length = d.fields.length := by simp [RelData.ren]
  simp only [h1, h2, h3, h4]
  rfl

theorem find_ren (h : Spelling ρ) (emit : Bool) (n : Str) : ∀ ds : List RelData,
    find emit (ds.map (RelData.ren ρ)) (ρ n) = find emit ds n
  | [] => rfl
  | d :: ds => by
    simp only [List.map_cons, find, findHere_ren h, find_ren h emit n ds]

theorem vecAt_ren (l : List Field) (n : Nat) :
    vecAt (l.map (Field.ren ρ)) n = (vecAt l n).map (Field.ren ρ) := by
  unfold vecAt
  rw [List.getElem?_map]
  cases l[n]? <;> rfl

theorem exposed_ren (d : RelData) : exposed (d.ren ρ) = (exposed d).map (Field.ren ρ) := by
  unfold exposed
  simp only [RelData.ren, List.isEmpty_map]
  split <;> simp

theorem inputFields_ren (ds : List RelData) :
    inputFields (ds.map (RelData.ren ρ)) = (inputFields ds).map (Field.ren ρ) := by
  unfold inputFields
  rw [List.flatMap_map, List.map_flatMap]
  congr 1
  funext d
  exact exposed_ren d

def renPicked (ρ : Str → Str) (r : Picked) : Picked := (r.1.map (Field.ren ρ), r.2)

theorem pickAll_ren {step step' : Int → Picked → Outcome Picked}
    (h : ∀ i r, step' i (renPicked ρ r) = (step i r).map (renPicked ρ)) :
    ∀ (is : List Int) (r : Picked),
      pickAll step' is (renPicked ρ r) = (pickAll step is r).map (renPicked ρ)
  | [], _ => rfl
  | i :: is, r => by
    unfold pickAll
    rw [h]
    cases step i r with
    | ok r' => exact pickAll_ren h is r'
    | throw e => rfl
    | ub => rfl

theorem pickGenerated_ren (old : List Field) (i : Int) (r : Picked) :
    pickGenerated (old.map (Field.ren ρ)) i (renPicked ρ r) =
      (pickGenerated old i r).map (renPicked ρ) := by
  unfold pickGenerated
  rw [List.length_map, vecAt_ren]
  split
  · cases vecAt old (asSize i) <;> simp [Outcome.map, renPicked]
  · rfl

theorem pickAny_ren (fs gs : List Field) (i : Int) (r : Picked) :
    pickAny (fs.map (Field.ren ρ)) (gs.map (Field.ren ρ)) i (renPicked ρ r) =
      (pickAny fs gs i r).map (renPicked ρ) := by
  unfold pickAny
  rw [List.length_map, List.length_map, vecAt_ren, vecAt_ren]
  split
  · cases vecAt fs (asSize i) <;> simp [Outcome.map, renPicked]
  · split
    · cases vecAt gs (asSize i - fs.length) <;> simp [Outcome.map, renPicked]
    · rfl

theorem applyText_ren (d : RelData) (m : List Int) :
    applyText (d.ren ρ) m = (applyText d m).map fun r => (r.1.ren ρ, r.2) := by
  unfold applyText
  split
  · rfl
  · have ha : (d.ren ρ).aggregate = d.aggregate := rfl
    rw [ha]
    split
    · have := pickAll_ren (ρ := ρ) (pickGenerated_ren d.output) m ([], [])
      rw [show (d.ren ρ).output = d.output.map (Field.ren ρ) from rfl,
        show (([], []) : Picked) = renPicked ρ ([], []) from rfl, this,
        show renPicked ρ ([], []) = (([], []) : Picked) from rfl]
      cases pickAll (pickGenerated d.output) m ([], []) <;> rfl
    · have := pickAll_ren (ρ := ρ) (pickAny_ren d.fields d.generated) m (d.output, [])
      rw [show (d.ren ρ).fields = d.fields.map (Field.ren ρ) from rfl,
        show (d.ren ρ).generated = d.generated.map (Field.ren ρ) from rfl,
        show (((d.ren ρ).output, []) : Picked) = renPicked ρ (d.output, []) from rfl, this]
      cases pickAll (pickAny d.fields d.generated) m (d.output, []) <;> rfl

end Verif.Schema

namespace Verif.Expr

open Verif Verif.Lex Verif.Tree Verif.Whole

mutual
/-- The message with other names for the relations of subqueries. -/
def renP (ρ : Str → Str) : PbExpr → PbExpr
  | .call f o as es t => .call f o (renPArgs ρ as) (renPs ρ es) t
  | .ifThen cs e => .ifThen (renPClauses ρ cs) (renP ρ e)
  | .cast e t n => .cast (renP ρ e) t n
  | .scalar r => .scalar (r.map ρ)
  | .inPredicate es r => .inPredicate (renPs ρ es) (r.map ρ)
  | .setPredicate a r => .setPredicate a (r.map ρ)
  | .setComparison e a b r => .setComparison (renP ρ e) a b (r.map ρ)
  | .notSet => .notSet
  | .literal l => .literal l
  | .field s b => .field s b
  | .masked b => .masked b
  | .noReference b => .noReference b
  | .noSubquery => .noSubquery
  | .other n => .other n
def renPArg (ρ : Str → Str) : PbArg → PbArg
  | .value e => .value (renP ρ e)
  | .notSet => .notSet
  | .enum s => .enum s
  | .type t => .type t
def renPArgs (ρ : Str → Str) : List PbArg → List PbArg
  | [] => []
  | a :: as => renPArg ρ a :: renPArgs ρ as
def renPs (ρ : Str → Str) : List PbExpr → List PbExpr
  | [] => []
  | e :: es => renP ρ e :: renPs ρ es
def renPClause (ρ : Str → Str) : PbClause → PbClause
  | .mk a b => .mk (renP ρ a) (renP ρ b)
def renPClauses (ρ : Str → Str) : List PbClause → List PbClause
  | [] => []
  | a :: as => renPClause ρ a :: renPClauses ρ as
end

variable {ρ : Str → Str}

theorem renPs_append : ∀ a b : List PbExpr, renPs ρ (a ++ b) = renPs ρ a ++ renPs ρ b
  | [], _ => rfl
  | e :: a, b => by simp only [List.cons_append, renPs, renPs_append a b]

theorem renPs_length : ∀ a : List PbExpr, (renPs ρ a).length = a.length
  | [] => rfl
  | e :: a => by simp [renPs, renPs_length a]

theorem renPs_isEmpty (a : List PbExpr) : (renPs ρ a).isEmpty = a.isEmpty := by
  cases a <;> rfl

/-- The result of reading with other names. -/
def renR {E : Type} (ρ : Str → Str) (r : PbExpr × List E) : PbExpr × List E := (renP ρ r.1, r.2)
def renRs {E : Type} (ρ : Str → Str) (r : List PbExpr × List E) : List PbExpr × List E :=
  (renPs ρ r.1, r.2)
def renRArgs {E : Type} (ρ : Str → Str) (r : List PbArg × List E) : List PbArg × List E :=
  (renPArgs ρ r.1, r.2)

/-- The tables of `c'` say of the other names what those of `c` say. -/
structure Turns (ρ : Str → Str) (c c' : Context) : Prop where
  spelling : Spelling ρ
  lib : c'.lib = c.lib
  scopes : c'.readScopes = c.readScopes.map (Schema.RelData.ren ρ)
  anchor : ∀ n, c'.functionAnchor (ρ n) = c.functionAnchor n
  relation : ∀ n, c'.relation (ρ n) = c.relation n

variable {c c' : Context}

theorem readFunction_ren (h : Turns ρ c c') (id : Str) :
    readFunction c' (ρ id) = readFunction c id := by
  unfold readFunction
  rw [h.anchor id]

theorem readColumn_ren (h : Turns ρ c c') (n : Str) :
    readColumn c' (ρ n) = renR ρ (readColumn c n) := by
  unfold readColumn
  rw [h.scopes, Schema.find_ren h.spelling]
  split <;> rfl

theorem firstColumn_ren (h : Turns ρ c c') (n : Str) :
    firstColumn c' (ρ n) = renP ρ (firstColumn c n) := by
  unfold firstColumn
  rw [h.scopes]
  cases c.readScopes with
  | nil => rfl
  | cons d ds =>
    simp only [List.map_cons, Schema.findHere_ren h.spelling]
    split <;> rfl

theorem columnText_ren (h : Spelling ρ) (s : Option Str) (i : Str) :
    (ExprTree.column (s.map ρ) (ρ i)).text = ρ (ExprTree.column s i).text := by
  cases s with
  | none => simp [ExprTree.text]
  | some s => simp [ExprTree.text, h.dots]

theorem ifClauses_ren : ∀ es : List PbExpr,
    ifClauses (renPs ρ es) = (renPClauses ρ (ifClauses es).1, renP ρ (ifClauses es).2)
  | [] => rfl
  | [e] => rfl
  | a :: b :: r => by
    simp only [renPs, ifClauses, ifClauses_ren r, renPClauses, renPClause]

theorem ifThenOf_ren (es : List PbExpr) : ifThenOf (renPs ρ es) = renP ρ (ifThenOf es) := by
  unfold ifThenOf
  rw [renPs_isEmpty]
  split
  · rfl
  · rw [ifClauses_ren]; rfl

theorem text_plain {r : RelRef} (h : r.schema.isNone = true) : r.text = r.id := by
  unfold RelRef.text
  cases hr : r.schema with
  | none => simp
  | some x => rw [hr] at h; cases h

theorem withRelation_ren (h : Turns ρ c c') {r : RelRef} (hr : r.schema.isNone = true)
    {m m' : PbExpr × List RErr} (hm : m' = renR ρ m) {f f' : Str → Got PbExpr}
    (hf : ∀ n, f' (ρ n) = (f n).map (renR ρ)) :
    withRelation c' (renRef ρ r) m' f' = (withRelation c r m f).map (renR ρ) := by
  unfold withRelation
  rw [text_plain hr, text_plain (r := renRef ρ r) hr, show (renRef ρ r).id = ρ r.id from rfl,
    h.relation, hm]
  split
  · rfl
  · exact hf _
  · rfl

theorem pair_ren {α β γ α' β' γ' : Type} {f : α → β → γ} {f' : α' → β' → γ'} {p : Got α} {q : Got β}
    {p' : Got α'} {q' : Got β'} {u : α → α'} {v : β → β'} {w : γ → γ'}
    (hp : p' = p.map fun r => (u r.1, r.2)) (hq : q' = q.map fun r => (v r.1, r.2))
    (hf : ∀ a b, f' (u a) (v b) = w (f a b)) :
    Got.pair f' p' q' = (Got.pair f p q).map fun r => (w r.1, r.2) := by
  subst hp hq
  unfold Got.pair
  cases p with
  | ok a => cases q <;> simp [Outcome.map, hf]
  | throw e => rfl
  | ub => rfl

theorem map_id_pair {α E : Type} (o : Outcome (α × List E)) : o = o.map fun r => (id r.1, r.2) := by
  cases o <;> rfl

theorem calmL_cons {e : ExprTree} {es : List ExprTree} (h : calmL ρ (e :: es) = true) :
    ((isEnum (renE ρ e) = isEnum e ∧ (isEnum e = true → (renE ρ e).text = e.text)) ∧
      calm ρ e = true) ∧ calmL ρ es = true := by
  simp only [calmL, Bool.and_eq_true] at h
  refine ⟨⟨?_, h.1.2⟩, h.2⟩
  have h1 := h.1.1
  split at h1
  · have : (renE ρ e).text = e.text := of_decide_eq_true h1
    exact ⟨by unfold isEnum; rw [this], fun _ => this⟩
  · rename_i hn
    simp only [Bool.or_eq_true, not_or, Bool.not_eq_true] at hn
    exact ⟨by rw [hn.1, hn.2], fun he => absurd he (by simp [hn.1])⟩

mutual
theorem visit_ren (h : Turns ρ c c') : ∀ e : ExprTree,
    calm ρ e = true → visit c' (renE ρ e) = (visit c e).map (renR ρ)
  | .call id args x ty, hc => by
    simp only [calm, Bool.and_eq_true, beq_iff_eq] at hc
    obtain ⟨hi, hc⟩ := hc
    simp only [renE, visit]
    rw [visitList_ren h args hc, readFunction_ren h id, hi]
    split
    · cases visitList c args with
      | ok r => simp [Outcome.map, renRs, renR, ifThenOf_ren]
      | throw e => rfl
      | ub => rfl
    · rw [pair_ren (w := renP ρ) (f := fun as t => .call (readFunction c id).1 0 as [] t)
        (visitArgs_ren h args hc) (map_id_pair _) (fun a b => by simp [renP, renPs])]
      generalize Got.pair _ (visitArgs c args) (readOutput ty) = o
      cases o <;> rfl
  | .const k, _ => by
    simp only [renE, visit, h.lib]
    cases Literal.visitConst c.lib false none k <;> rfl
  | .column s i, _ => by
    simp only [renE, visit, columnText_ren h.spelling, readColumn_ren h]; rfl
  | .cast e x ty, hc => by
    simp only [renE, visit]
    exact pair_ren (w := renP ρ) (visit_ren h e (by simpa [calm] using hc))
      (map_id_pair _) (fun a b => rfl)
  | .scalarSubquery x ref, hc => by
    simp only [renE, visit]
    refine withRelation_ren h (by simpa [calm] using hc) ?_ fun n => ?_ <;> rfl
  | .inSubquery es x ref, hc => by
    simp only [calm, Bool.and_eq_true] at hc
    simp only [renE, visit]
    refine withRelation_ren h hc.1 ?_ fun n => ?_
    · rfl
    rw [visitList_ren h es hc.2]
    cases visitList c es <;> rfl
  | .setPredicate a x ref, hc => by
    simp only [renE, visit]
    refine withRelation_ren h (by simpa [calm] using hc) ?_ fun n => ?_ <;> rfl
  | .setComparison e op al x ref, hc => by
    simp only [calm, Bool.and_eq_true] at hc
    simp only [renE, visit]
    rw [visit_ren h e hc.2]
    cases visit c e with
    | ok l =>
      simp only [Outcome.map, Outcome.bind_ok]
      refine withRelation_ren h hc.1 ?_ fun n => ?_ <;> rfl
    | throw e => rfl
    | ub => rfl
theorem visitArgs_ren (h : Turns ρ c c') : ∀ es : List ExprTree,
    calmL ρ es = true → visitArgs c' (renEs ρ es) = (visitArgs c es).map (renRArgs ρ)
  | [], _ => by simp only [renEs, visitArgs]; rfl
  | e :: es, hc => by
    obtain ⟨⟨⟨h1, h2⟩, h3⟩, h4⟩ := calmL_cons hc
    simp only [renEs, visitArgs]
    have ih := visitArgs_ren h es h4
    rw [ih, h1]
    split
    · rename_i he
      rw [h2 he]
      cases visitArgs c es <;> rfl
    · exact pair_ren (w := renPArgs ρ)
        (visit_ren h e h3) rfl
        (fun a b => by simp [renPArgs, renPArg])
theorem visitList_ren (h : Turns ρ c c') : ∀ es : List ExprTree,
    calmL ρ es = true → visitList c' (renEs ρ es) = (visitList c es).map (renRs ρ)
  | [], _ => by simp only [renEs, visitList]; rfl
  | e :: es, hc => by
    obtain ⟨⟨-, h3⟩, h4⟩ := calmL_cons hc
    simp only [renEs, visitList]
    exact pair_ren (w := renPs ρ) (visit_ren h e h3)
      (visitList_ren h es h4)
      (fun a b => by simp [renPs])
end

/-! ## The first pass -/

mutual
theorem hasSubquery_ren : ∀ e : ExprTree, hasSubquery (renE ρ e) = hasSubquery e
  | .call id args x ty => by simp only [renE, hasSubquery, hasSubqueries_ren args]
  | .const _ => by simp only [renE]
  | .column _ _ => by simp only [renE, hasSubquery]
  | .cast e _ _ => by simp only [renE, hasSubquery, hasSubquery_ren e]
  | .scalarSubquery _ _ => by simp only [renE, hasSubquery]
  | .inSubquery _ _ _ => by simp only [renE, hasSubquery]
  | .setPredicate _ _ _ => by simp only [renE, hasSubquery]
  | .setComparison _ _ _ _ _ => by simp only [renE, hasSubquery]
theorem hasSubqueries_ren : ∀ es : List ExprTree, hasSubqueries (renEs ρ es) = hasSubqueries es
  | [] => by simp only [renEs]
  | e :: es => by simp only [renEs, hasSubqueries, hasSubquery_ren e, hasSubqueries_ren es]
end

def Value.ren (ρ : Str → Str) : Value → Value
  | .nothing => .nothing
  | .expr e => .expr (renP ρ e)
  | .list es => .list (renPs ρ es)

def renV {E : Type} (ρ : Str → Str) (r : Value × List E) : Value × List E := (r.1.ren ρ, r.2)
def renFA {E : Type} (ρ : Str → Str) (r : FirstArgs × List E) : FirstArgs × List E :=
  ((renPArgs ρ r.1.1, r.1.2), r.2)

theorem asExpr_ren {α β : Type} {v : Value} {f : PbExpr → Outcome α} {f' : PbExpr → Outcome β}
    {w : α → β} (h : ∀ e, f' (renP ρ e) = (f e).map w) :
    (v.ren ρ).asExpr f' = (v.asExpr f).map w := by
  cases v with
  | expr e => exact h e
  | nothing => rfl
  | list es => rfl

mutual
theorem first_ren (h : Turns ρ c c') (inside : Bool) : ∀ e : ExprTree,
    calm ρ e = true → first c' inside (renE ρ e) = (first c inside e).map (renV ρ)
  | .call id args x ty, hc => by
    simp only [calm, Bool.and_eq_true, beq_iff_eq] at hc
    obtain ⟨hi, hc⟩ := hc
    simp only [renE, first]
    rw [firstList_ren h inside args hc, firstArgs_ren h inside args hc, readFunction_ren h id, hi]
    split
    · cases firstList c inside args with
      | ok r => simp [Outcome.map, renRs, renV, Value.ren, ifThenOf_ren]
      | throw e => rfl
      | ub => rfl
    · cases firstArgs c inside args with
      | throw e => rfl
      | ub => rfl
      | ok r =>
        simp only [Outcome.map, Outcome.bind_ok, renFA]
        split
        · cases readOutput ty <;> simp [Outcome.map, renV, Value.ren, renP, renPs]
        · simp [renV, Value.ren, renP, renPs]
  | .const k, _ => by
    simp only [renE, first, h.lib]
    cases Literal.visitConst c.lib false none k <;> rfl
  | .column s i, _ => by
    simp only [renE, first, columnText_ren h.spelling, firstColumn_ren h]
    split <;> rfl
  | .cast e x ty, hc => by
    simp only [renE, first]
    rw [first_ren h inside e (by simpa [calm] using hc)]
    cases first c inside e with
    | throw e => rfl
    | ub => rfl
    | ok v =>
      refine asExpr_ren fun e => ?_
      cases readType ty <;> rfl
  | .scalarSubquery x ref, hc => by simp only [renE, first]; rfl
  | .inSubquery es x ref, hc => by
    simp only [calm, Bool.and_eq_true] at hc
    simp only [renE, first]
    rw [firstList_ren h inside es hc.2]
    cases firstList c inside es <;> rfl
  | .setPredicate a x ref, hc => by simp only [renE, first]; rfl
  | .setComparison e op al x ref, hc => by
    simp only [calm, Bool.and_eq_true] at hc
    simp only [renE, first]
    exact first_ren h inside e hc.2
theorem firstArgs_ren (h : Turns ρ c c') (inside : Bool) : ∀ es : List ExprTree,
    calmL ρ es = true →
      firstArgs c' inside (renEs ρ es) = (firstArgs c inside es).map (renFA ρ)
  | [], _ => by simp only [renEs, firstArgs]; rfl
  | e :: es, hc => by
    obtain ⟨⟨⟨h1, h2⟩, h3⟩, h4⟩ := calmL_cons hc
    simp only [renEs, firstArgs]
    have ih := firstArgs_ren h inside es h4
    rw [ih, h1, hasSubquery_ren, first_ren h inside e h3]
    split
    · rename_i he
      rw [h2 he]
      cases firstArgs c inside es <;> rfl
    · split
      · cases firstArgs c inside es <;> simp [Outcome.map, renFA, renPArgs, renPArg, renP]
      · cases first c inside e with
        | throw e => rfl
        | ub => rfl
        | ok v =>
          obtain ⟨v, er⟩ := v
          cases v with
          | nothing => rfl
          | list es => rfl
          | expr x =>
            cases firstArgs c inside es <;> simp [Outcome.map, renFA, renV, Value.ren, renPArgs, renPArg]
theorem firstList_ren (h : Turns ρ c c') (inside : Bool) : ∀ es : List ExprTree,
    calmL ρ es = true →
      firstList c' inside (renEs ρ es) = (firstList c inside es).map (renRs ρ)
  | [], _ => by simp only [renEs, firstList]; rfl
  | e :: es, hc => by
    obtain ⟨⟨-, h3⟩, h4⟩ := calmL_cons hc
    simp only [renEs, firstList]
    rw [first_ren h inside e h3,
      firstList_ren h inside es h4]
    cases first c inside e with
    | throw e => rfl
    | ub => rfl
    | ok v =>
      refine asExpr_ren fun x => ?_
      cases firstList c inside es <;> simp [Outcome.map, renRs, renPs, renV]
end

mutual
theorem subqueryRefs_ren : ∀ e : ExprTree, subqueryRefs (renE ρ e) = (subqueryRefs e).map ρ
  | .call id args x ty => by simp only [renE, subqueryRefs, subqueryRefsL_ren args]
  | .const _ => by simp only [renE, subqueryRefs]; rfl
  | .column _ _ => by simp only [renE, subqueryRefs]; rfl
  | .cast e _ _ => by simp only [renE, subqueryRefs, subqueryRefs_ren e]
  | .scalarSubquery _ _ => by simp only [renE, subqueryRefs]; rfl
  | .inSubquery es _ _ => by simp only [renE, subqueryRefs, subqueryRefsL_ren es]; rfl
  | .setPredicate _ _ _ => by simp only [renE, subqueryRefs]; rfl
  | .setComparison e _ _ _ _ => by simp only [renE, subqueryRefs, subqueryRefs_ren e]; rfl
theorem subqueryRefsL_ren : ∀ es : List ExprTree,
    subqueryRefsL (renEs ρ es) = (subqueryRefsL es).map ρ
  | [] => by simp only [renEs, subqueryRefsL]; rfl
  | e :: es => by
    simp only [renEs, subqueryRefsL, subqueryRefs_ren e, subqueryRefsL_ren es, List.map_append]
end

end Verif.Expr
