import Verif.Model.Expression
import Verif.Spec.Literal
import Verif.Spec.Extension

/-!
# Specification of expressions in text plans
-/

namespace Verif.Expr

open Verif Verif.TyPb Verif.Literal Verif.Lex Verif.Parse

/-- The expression is printed without an error and the text is read back, without an error, as
the same expression. -/
def ReadsBack (c : Context) (depth : Nat) (e : PbExpr) : Prop :=
  ∃ text, printExpr c depth e = .ok (text, []) ∧ readText c text = some (.ok (e, []))

/-! ## The expressions that survive -/

/-- The name of a column: an identifier whose first token is not `NULL`, or two identifiers
with a period between them. -/
def IsColumn (s : Str) : Prop :=
  (∃ ts, lex s = some ts ∧ parseId ts = some (s, []) ∧ nextIs .null ts = false) ∨
  ∃ a b, s = a ++ '.' :: b ∧ Ext.IsName a ∧ Ext.IsName b

/-- A literal that survives (C35). -/
def LiteralOk (c : Context) : PbLit → Prop
  | .atom a n => a.fits ∧ a.noBackslash ∧ Survives c.lib a n
  | _ => False

/-- A type that survives (C37). -/
def TypeOk (t : PbType) : Prop :=
  printable t = true ∧ paramsFit t ∧ nullability t ≠ .unspecified

/-- The reference is to a field with a name the reader takes for the same field (C38). -/
def FieldOk (c : Context) (n : Int) (base : Root) : Prop :=
  0 ≤ n ∧ n < 2147483648 ∧ (base = .root ∨ ∃ k, base = .outer (k + 1)) ∧
  ∃ s, Schema.lookup c.scopes base.steps n.toNat = some s ∧ IsColumn s ∧
    Schema.find false c.readScopes s = some (base.steps, n.toNat)

/-- The function has a name that stands for it in the reader's table. -/
def FunctionOk (c : Context) (f : Nat) : Prop :=
  ∃ s, c.functionName f = some s ∧ Ext.IsName s ∧ s.map toLower ≠ "ifthen".toList ∧
    c.functionAnchor s = some f

/-- The relation of a subquery is known to the reader. -/
def RelationOk (c : Context) (r : Option Str) : Prop :=
  ∃ s, r = some s ∧ Ext.IsName s ∧ c.relation s = some true

/-- There is an expression. -/
def PbExpr.isSet : PbExpr → Bool
  | .notSet => false
  | _ => true

/-- The name an expression ends with, for those that end with a name that is not a type. -/
def lastName (c : Context) : PbExpr → Option Str
  | .field (.field n _) base => Schema.lookup c.scopes base.steps n.toNat
  | .scalar r | .inPredicate _ r | .setPredicate _ r | .setComparison _ _ _ r => r
  | _ => none

/-- The expression does not end with a name that makes an enumeration of it. -/
def NotEnum (c : Context) (e : PbExpr) : Prop :=
  ∀ s, lastName c e = some s → ¬ "_enum".toList <:+ s

mutual
/-- The expressions that survive printing and reading. -/
def Readable (c : Context) : PbExpr → Prop
  | .literal l => LiteralOk c l
  | .field (.field n false) base => FieldOk c n base
  | .call f 0 arguments [] out =>
    FunctionOk c f ∧ arguments ≠ [] ∧ ReadableArgs c arguments ∧ TypeOk out
  | .ifThen clauses els =>
    (clauses ≠ [] ∨ els.isSet = true) ∧ ReadableClauses c clauses ∧
      (els.isSet = true → Readable c els)
  | .cast e t 0 => Readable c e ∧ TypeOk t
  | .scalar r => RelationOk c r
  | .inPredicate es r => es ≠ [] ∧ ReadableList c es ∧ RelationOk c r
  | .setPredicate op r => (op = 1 ∨ op = 2) ∧ RelationOk c r
  | .setComparison e op red r =>
    Readable c e ∧ (1 ≤ op ∧ op ≤ 6) ∧ (red = 1 ∨ red = 2) ∧ RelationOk c r
  | _ => False
/-- Arguments: enumerations with a suitable name, and expressions that do not look like
enumerations. -/
def ReadableArg (c : Context) : PbArg → Prop
  | .enum s => IsColumn (s ++ "_enum".toList)
  | .value e => Readable c e ∧ NotEnum c e
  | _ => False
def ReadableArgs (c : Context) : List PbArg → Prop
  | [] => True
  | a :: as => ReadableArg c a ∧ ReadableArgs c as
def ReadableList (c : Context) : List PbExpr → Prop
  | [] => True
  | e :: es => Readable c e ∧ ReadableList c es
def ReadableClause (c : Context) : PbClause → Prop
  | .mk a b => Readable c a ∧ Readable c b
def ReadableClauses (c : Context) : List PbClause → Prop
  | [] => True
  | a :: as => ReadableClause c a ∧ ReadableClauses c as
end

/-! ## Subqueries -/

mutual
/-- The relations of the subqueries of an expression; that of a subquery comes before those in the
expressions that are compared with it. -/
def askedOf : PbExpr → List Str
  | .call _ _ arguments _ _ => askedArgs arguments
  | .ifThen clauses els => askedClauses clauses ++ askedOf els
  | .cast e _ _ => askedOf e
  | .scalar r => r.toList
  | .inPredicate es r => r.toList ++ askedList es
  | .setPredicate _ r => r.toList
  | .setComparison e _ _ r => r.toList ++ askedOf e
  | _ => []
def askedArg : PbArg → List Str
  | .value e => askedOf e
  | _ => []
def askedArgs : List PbArg → List Str
  | [] => []
  | a :: as => askedArg a ++ askedArgs as
def askedList : List PbExpr → List Str
  | [] => []
  | e :: es => askedOf e ++ askedList es
def askedClause : PbClause → List Str
  | .mk a b => askedOf a ++ askedOf b
def askedClauses : List PbClause → List Str
  | [] => []
  | a :: as => askedClause a ++ askedClauses as
end

/-! ## The expressions that can be read at all -/

mutual
/-- What the reader can make of some text: calls have no options, no arguments in the field
from before arguments had kinds, and no types as arguments; references have a base and nothing
inside the field; casts have no failure behaviour; and there are no masked references and none
of the kinds that are not supported. -/
def Producible : PbExpr → Prop
  | .notSet => True
  | .literal _ => True
  | .field (.field n child) base =>
    0 ≤ n ∧ child = false ∧ (base = .root ∨ ∃ k, base = .outer (k + 1))
  | .field .other _ => False
  | .call _ options arguments args _ => options = 0 ∧ ProducibleArgs arguments ∧ args = []
  | .ifThen clauses els => ProducibleClauses clauses ∧ Producible els
  | .cast e _ failure => Producible e ∧ failure = 0
  | .scalar _ => True
  | .inPredicate es _ => ProducibleList es
  | .setPredicate op _ => op = 1 ∨ op = 2
  | .setComparison e _ red _ => Producible e ∧ (red = 1 ∨ red = 2)
  | .masked _ | .noReference _ | .noSubquery | .other _ => False
def ProducibleArg : PbArg → Prop
  | .enum _ => True
  | .value e => Producible e
  | .type _ | .notSet => False
def ProducibleArgs : List PbArg → Prop
  | [] => True
  | a :: as => ProducibleArg a ∧ ProducibleArgs as
def ProducibleList : List PbExpr → Prop
  | [] => True
  | e :: es => Producible e ∧ ProducibleList es
def ProducibleClause : PbClause → Prop
  | .mk a b => Producible a ∧ Producible b
def ProducibleClauses : List PbClause → Prop
  | [] => True
  | a :: as => ProducibleClause a ∧ ProducibleClauses as
end

/-! ## The conditions the first pass accepts -/

/-- The errors other than those of columns that are not found. -/
def noColumn (errs : List RErr) : List RErr := errs.filter fun e => e ≠ .column

mutual
/-- The condition is not itself one of the subqueries `SUBQUERY`, `EXISTS`, `UNIQUE` and `IN`,
nor the left side of a comparison, what is cast or a part of an if-then inside it. -/
def Acceptable : Tree.ExprTree → Prop
  | .call id args _ _ => if isIfThen id then AcceptableAll args else True
  | .const _ | .column _ _ => True
  | .cast e _ _ => Acceptable e
  | .setComparison e _ _ _ _ => Acceptable e
  | .scalarSubquery _ _ | .inSubquery _ _ _ | .setPredicate _ _ _ => False
def AcceptableAll : List Tree.ExprTree → Prop
  | [] => True
  | t :: ts => Acceptable t ∧ AcceptableAll ts
end

end Verif.Expr
