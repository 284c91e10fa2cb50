import Verif.Spec.Within
import Verif.Spec.Settles
import Verif.Spec.Pipeline
import Verif.Spec.FormedTypes

/-! # Text plans that are read without undefined behaviour

What a text plan must not do.  Every condition concerns something the program does not test. -/

namespace Verif.Literal

open Verif Tree TyPb

/-- The calls of the C++ library return or throw. -/
def Lib.Defined (lib : Lib) : Prop := (∀ s, lib.read32 s ≠ .ub) ∧ ∀ s, lib.read64 s ≠ .ub

mutual
/-- An interval in braces has all its fields.  `inside` and `ext` are as in `visitConst`: they tell the
type the constant is read with. -/
def enough (inside : Bool) (ext : Option PbType) : ConstTree → Bool
  | .structLit items own =>
    match typeFor true ext own with
    | .ok (some (.struct types _), _) => enoughEach true (types.map some) items
    | .ok (some (.list e _), _) => enoughEach true (List.replicate items.length (some e)) items
    | .ok (some (.scalar .intervalYear _), _) =>
      decide (2 ≤ items.length) && enoughEach true ((i32Types 2).map some) items
    | .ok (some (.scalar .intervalDay _), _) =>
      decide (3 ≤ items.length) && enoughEach true ((i32Types 3).map some) items
    | _ => true
  | .mapLit keys values own =>
    match typeFor inside ext own with
    | .ok (some (.list _ _), _) => enoughEach inside (List.replicate keys.length none) keys &&
      enoughEach inside (List.replicate values.length none) values
    | .ok (some (.map k v _), _) => enoughEach inside (List.replicate keys.length (some k)) keys &&
      enoughEach inside (List.replicate values.length (some v)) values
    | .ok (some (.scalar .intervalYear _), _) => false
    | .ok (some (.scalar .intervalDay _), _) => false
    | _ => true
  | _ => true
def enoughEach (inside : Bool) : List (Option PbType) → List ConstTree → Bool
  | e :: es, c :: cs => enough inside e c && enoughEach inside es cs
  | _, _ => true
end

end Verif.Literal

namespace Verif.Expr

open Verif Literal Tree

mutual
/-- The intervals in an expression have all their fields. -/
def enough : ExprTree → Bool
  | .call _ args _ _ => enoughL args
  | .const k => Literal.enough false none k
  | .column _ _ => true
  | .cast e _ _ => enough e
  | .scalarSubquery _ _ => true
  | .inSubquery es _ _ => enoughL es
  | .setPredicate _ _ _ => true
  | .setComparison e _ _ _ _ => enough e
def enoughL : List ExprTree → Bool
  | [] => true
  | e :: es => enough e && enoughL es
end

/-- A call of a function. -/
def isCall : ExprTree → Bool
  | .call id _ _ _ => !isIfThen id
  | _ => false

/-- The column a grouping expression is, or compares with a subquery. -/
def column : ExprTree → Option Str
  | .column schema id => some (ExprTree.column schema id).text
  | .setComparison e _ _ _ _ => column e
  | _ => none

end Verif.Expr

namespace Verif.Rel

open Verif Tree

/-- Intervals have all their fields, and a measure that is no call of a function has an identifier. -/
def soundMeasure : MeasureDetail → Bool
  | .measure t _ ids => Expr.enough t && (!ids.isEmpty || Expr.isCall t)
  | .filter t => Expr.enough t
  | .invocation _ => true
  | .sort t _ => Expr.enough t

/-- The same for a detail. -/
def soundDetail : Detail → Bool
  | .filter _ e => Expr.enough e
  | .expression e _ => Expr.enough e
  | .grouping e => Expr.enough e
  | .measure ds => ds.all soundMeasure
  | .sort e _ => Expr.enough e
  | _ => true

/-- The column of a grouping is one of the fields of the inputs. -/
def OwnColumn (c : RelContext) (st : State) (e : ExprTree) : Prop :=
  ∀ n, Expr.column e = some n →
    ∀ k i, Schema.find false (st.data :: c.outer) n = some (k, i) → i < st.data.fields.length

/-- The columns of all groupings are, when they are reached. -/
def OwnColumns (first : Bool) (c : RelContext) (st : State) : List Detail → Prop
  | [] => True
  | d :: ds => (∀ e, d = .grouping e → OwnColumn c st e) ∧
    ∀ r, readDetail first c st d = .ok r → OwnColumns first c r.1 ds

end Verif.Rel

namespace Verif.Whole

open Verif

/-- A relation of the text is read in a pass, after these ones and with these names left. -/
inductive Reached (lib : Literal.Lib) (st : Sec.State) (g : Pipe.Table) (ts : List Rel.RelTree) :
    Bool → Counters → Relations → List Rel.RelTree → Prop
  | start : Reached lib st g ts true Sym.Table.empty [] ts
  | again {done : Relations} :
      readRelations lib st g true Sym.Table.empty [] ts = .ok done →
      Reached lib st g ts false Sym.Table.empty done ts
  | next {first : Bool} {u : Counters} {done : Relations} {t : Rel.RelTree}
      {rest : List Rel.RelTree} {r : Done} :
      Reached lib st g ts first u done (t :: rest) →
      readRelation lib st g first done (freshOf first u t).2 t = .ok r →
      Reached lib st g ts first (freshOf first u t).1 ((t.ref.id, r) :: done) rest

/-- The groupings of a relation are by the fields of its inputs. -/
def GroupsOwn (lib : Literal.Lib) (st : Sec.State) (g : Pipe.Table) (first : Bool) (u : Counters)
    (done : Relations) (t : Rel.RelTree) : Prop :=
  ∀ k, Enum.readRelationType t.type = some k →
    let c := readerContext lib st g done (freshOf first u t).2 t.ref.id
    Rel.OwnColumns first c (Rel.startState first c k (done.namesOf t.ref.id)) t.details

/-- What a text plan has to keep to. -/
structure SoundPlan (lib : Literal.Lib) (ds : List Sec.PlanDetail) : Prop where
  /-- Intervals and measures. -/
  relations : ∀ t ∈ ds.filterMap relationOf, ∀ d ∈ t.details, Rel.soundDetail d = true
  /-- Only relations are in pipelines. -/
  pipelines : ∀ st, Sec.visitPlan ds = .ok st →
    ∀ p ∈ (ds.filterMap pipelinesOf).flatten, ∀ r ∈ p,
      ¬ Pipe.IsOther (graphOf st.symbols (ds.filterMap relationOf)) r.name
  /-- Groupings are by columns of the inputs. -/
  groups : ∀ st g, Sec.visitPlan ds = .ok st →
    Pipe.visitAll (ds.filterMap pipelinesOf).flatten
      ⟨graphOf st.symbols (ds.filterMap relationOf), []⟩ = .ok g →
    ∀ first u done t rest,
      Reached lib st g.table (ds.filterMap relationOf) first u done (t :: rest) →
      GroupsOwn lib st g.table first u done t
  /-- No relation is within itself. -/
  apart : ∀ t, HasGraph lib ds t → ∀ n, Pipe.Part t n → ¬ Pipe.WithinItself t n

end Verif.Whole
