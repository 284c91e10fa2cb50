import Verif.Model.Whole

/-! # Relations within relations -/

namespace Verif.Pipe

open Verif

/-- The first relation is an input of the second, or the relation of one of its subqueries. -/
def Uses (t : Table) (m n : Str) : Prop :=
  ∃ k ins, t.kind n = some k ∧ inputsOf k (t.data n) = .ok ins ∧
    (m ∈ ins ∨ (takesSubs k ins.length = true ∧ m ∈ (t.data n).subs))

/-- The relation is within itself: going to inputs and to subqueries leads back to it. -/
def WithinItself (t : Table) (n : Str) : Prop := _root_.Relation.TransGen (Uses t) n n

/-- The relations that become part of the binary plan. -/
inductive Part (t : Table) : Str → Prop
  | first {n m : Str} {l : List Str} : n ∈ t.order → isSubquery t n = false →
      (t.data n).start = none → (t.data n).news = m :: l → Part t m
  | further {m n : Str} : Part t n → Uses t m n → Part t m

/-- Every single input is there. -/
def Complete (t : Table) : Prop := ∀ n k, t.kind n = some k → ∃ ins, inputsOf k (t.data n) = .ok ins

end Verif.Pipe

namespace Verif.Whole

open Verif

/-- The text plan is accepted, with this graph. -/
def HasGraph (lib : Literal.Lib) (ds : List Sec.PlanDetail) (t : Pipe.Table) : Prop :=
  ∃ st g done, Sec.visitPlan ds = .ok st ∧ st.errs.isEmpty = true ∧
    Pipe.visitAll (ds.filterMap pipelinesOf).flatten
      ⟨graphOf st.symbols (ds.filterMap relationOf), []⟩ = .ok g ∧
    (g.errors.isEmpty && refsKnown st.symbols [] ds) = true ∧
    readPasses lib st g.table (ds.filterMap relationOf) = .ok done ∧ g.table = t

end Verif.Whole
