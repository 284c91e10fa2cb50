import Verif.Model.Literal
import Verif.Model.Enum
import Verif.Model.Schema

/-!
Model of expressions in text plans: the printer
(src/substrait/textplan/PlanPrinterVisitor.cpp:68-72, 257-443, 667-838 and
src/substrait/textplan/converter/BasePlanProtoVisitor.cpp:487-504, 637-670), the first pass of
the reader (src/substrait/textplan/parser/SubstraitPlanRelationVisitor.cpp:1078-1260,
2143-2188) and its second pass (SubstraitPlanSubqueryRelationVisitor.cpp:1128-1393).
-/

namespace Verif.Expr

open Verif Verif.TyPb Verif.Tree Verif.Literal

/-! ## Messages -/

/-- `Expression.ReferenceSegment`.  `child` says that there is a segment inside.  `other` is a
map key, a list element or a segment that is not set. -/
inductive Segment where
  | field (n : Int) (child : Bool)
  | other
  deriving DecidableEq, Repr

/-- The `root_type` of `Expression.FieldReference`; the expression of the last kind is left
out (no code here reads or writes it). -/
inductive Root where
  | unset
  | root
  | outer (steps : Nat)
  | expression
  deriving DecidableEq, Repr

/-- The kinds of expression that are not supported. -/
inductive Other where
  | window | switch | singularOrList | multiOrList | nested | enum
  deriving DecidableEq, Repr

mutual
/-- The message `Expression`.

Simplifications: an expression that is absent and one that is empty are both `notSet`;
of the options of a call there is only the number; the relation of a subquery is given by
its name (the printer finds that name by counting the subqueries of a relation, C43). -/
inductive PbExpr where
  | notSet
  | literal (l : PbLit)
  | field (seg : Segment) (base : Root)
  | masked (base : Root)
  | noReference (base : Root)
  | call (function : Nat) (options : Nat) (arguments : List PbArg) (args : List PbExpr)
      (output : PbType)
  | ifThen (clauses : List PbClause) (els : PbExpr)
  | cast (input : PbExpr) (type : PbType) (failure : Int)
  | scalar (rel : Option Str)
  | inPredicate (needles : List PbExpr) (haystack : Option Str)
  | setPredicate (op : Int) (tuples : Option Str)
  | setComparison (left : PbExpr) (op reduction : Int) (right : Option Str)
  | noSubquery
  | other (k : Other)
/-- The message `FunctionArgument`. -/
inductive PbArg where
  | notSet
  | enum (s : Str)
  | type (t : PbType)
  | value (e : PbExpr)
/-- The message `Expression.IfThen.IfClause`. -/
inductive PbClause where
  | mk (cond value : PbExpr)
end

instance : Inhabited PbExpr := ⟨.notSet⟩

/-- What an expression is printed and read with. -/
structure Context where
  /-- Functions on numbers and times. -/
  lib : Lib
  /-- The fields the printer knows for the relation the expression is in and those it is a
  subquery of, from the inside. -/
  scopes : List Schema.RelData
  /-- The fields the reader knows for the same relations at this place of the text. -/
  readScopes : List Schema.RelData
  /-- The printer's table of functions by anchor; the first one counts. -/
  functionName : Nat → Option Str
  /-- The reader's table: the anchor if the name is the name of a function. -/
  functionAnchor : Str → Option Nat
  /-- The reader's table: `none` if there is no symbol of that name, otherwise whether it is
  a relation. -/
  relation : Str → Option Bool

/-! ## Printing -/

/-- The errors the printer reports for expressions. -/
inductive PErr where
  /-- "Literal of this type not yet supported", "Type not specified in literal". -/
  | literal (e : LitPrintErr)
  /-- The errors of types. -/
  | type (e : TyPb.PrintErr)
  /-- The errors of `lookupFieldReference`. -/
  | field
  /-- "Masked reference not yet supported" -/
  | masked
  /-- "Reference type missing from field reference." -/
  | noReference
  /-- "Reference of undefined function" -/
  | function
  /-- "Argument type missing the type field." -/
  | argument
  /-- "Function encountered without any arguments" -/
  | noArguments
  /-- "If then clauses require both an if and a then expression" -/
  | clause
  /-- "No subquery input provided", "No haystack defined", ... -/
  | noRelation
  /-- "No expression defined for set comparison operation." -/
  | noLeft
  /-- "Did not recognize the subquery predicate/comparison/reduction op." -/
  | operator
  /-- "... not yet supported" -/
  | unsupported (k : Other)
  deriving DecidableEq, Repr

/-- A text and the errors reported. -/
abbrev Printed := Outcome (Str × List PErr)

/-- Texts that will be separated by commas, and the errors reported. -/
abbrev Pieces := Outcome (List Str × List PErr)

/-- One text. -/
def piece (p : Printed) : Pieces := p.map fun r => ([r.1], r.2)

/-- The texts of `p` and then those of `q`. -/
def both (p q : Pieces) : Pieces := p.bind fun a => q.map fun b => (a.1 ++ b.1, a.2 ++ b.2)

/-- Texts separated by a comma and a blank (the `hasPreviousText` of
PlanPrinterVisitor.cpp:710-744, 763-785, 301-309). -/
def listText : List Str → Str
  | [] => []
  | [s] => s
  | s :: t :: rest => s ++ ',' :: ' ' :: listText (t :: rest)

/-- PlanPrinterVisitor.cpp:700-705: the line break before a call inside a call. -/
def indent (depth : Nat) : Str :=
  if depth = 0 then [] else '\n' :: List.replicate (2 * (depth + 1)) ' '

/-- PlanPrinterVisitor.cpp:257-272 `lookupFunctionReference`. -/
def functionText (c : Context) (n : Nat) : Str × List PErr :=
  match c.functionName n with
  | some s => (s, [])
  | none => ("functionref#".toList ++ natText n, [.function])

/-- PlanPrinterVisitor.cpp:68-72 `visitEnumArgument`. -/
def enumText (s : Str) : Str := s ++ "_enum".toList

/-- `ref.outer_reference().steps_out()` if there is one. -/
def Root.steps : Root → Nat
  | .outer k => k
  | _ => 0

/-- `ref.direct_reference().struct_field().field()`: the default value 0 for the other
segments; segments inside are not looked at. -/
def Segment.number : Segment → Int
  | .field n _ => n
  | .other => 0

/-- PlanPrinterVisitor.cpp:672-683: the number is passed on as `uint32_t`. -/
def fieldText (c : Context) (seg : Segment) (base : Root) : Str × List PErr :=
  let n := (seg.number % 4294967296).toNat
  match Schema.lookup c.scopes base.steps n with
  | some s => (s, [])
  | none => ("field#".toList ++ natText n, [.field])

/-- The name of the relation of a subquery (PlanPrinterVisitor.cpp:278-292 and its copies). -/
def relText : Option Str → Str × List PErr
  | some s => (s, [])
  | none => ([], [.noRelation])

/-- What is printed for an operator, with a blank; `none` for the operators that are not
recognised. -/
def operatorText : Enum.Printed → Option Str
  | .text s => some (s ++ [' '])
  | .nothing => some []
  | .error => none

/-- PlanPrinterVisitor.cpp:322-361 `visitSubquerySetPredicate`. -/
def printSetPredicate (op : Int) (rel : Option Str) : Str × List PErr :=
  match Enum.printPredicate op with
  | .error => ("UNSUPPORTED SUBQUERY".toList, [.operator])
  | .text s => (s ++ " IN SUBQUERY ".toList ++ (relText rel).1, (relText rel).2)
  | .nothing => ("SUBQUERY ".toList ++ (relText rel).1, (relText rel).2)

/-- PlanPrinterVisitor.cpp:363-443 `visitSubquerySetComparison`, after the left side. -/
def printSetComparison (left : Str × List PErr) (op reduction : Int) (rel : Option Str) :
    Str × List PErr :=
  match operatorText (Enum.printComparison op), operatorText (Enum.printReduction reduction) with
  | some a, some b =>
    (left.1 ++ a ++ b ++ "SUBQUERY ".toList ++ (relText rel).1, left.2 ++ (relText rel).2)
  | _, _ => ("UNSUPPORTED SUBQUERY".toList, left.2 ++ [.operator])

/-- The texts of the kinds that are not supported. -/
def Other.text : Other → Str
  | .window => "WINDOWFUNC_NOT_YET_IMPLEMENTED".toList
  | .switch => "SWITCH_NOT_YET_IMPLEMENTED".toList
  | .singularOrList => "SINGORLIST_NOT_YET_IMPLEMENTED".toList
  | .multiOrList => "MULTIORLIST_NOT_YET_IMPLEMENTED".toList
  | .nested => "NESTED_NOT_YET_IMPLEMENTED".toList
  | .enum => "ENUM_EXPRESSION_DEPRECATED".toList

/-- PlanPrinterVisitor.cpp:779-784: the `else` of an if-then; `r` is its text. -/
def elsePieces (e : PbExpr) (r : Printed) : Pieces :=
  match e with
  | .notSet => .ok ([], [])
  | _ => piece r

/-- PlanPrinterVisitor.cpp:366-372: the left side of a comparison; `r` is its text. -/
def leftPrinted (e : PbExpr) (r : Printed) : Printed :=
  match e with
  | .notSet => .ok ([], [.noLeft])
  | _ => r.map fun r => (r.1 ++ [' '], r.2)

/-- PlanPrinterVisitor.cpp:765-777: a clause of an if-then; `r` and `q` are the texts of its parts. -/
def clausePieces (a b : PbExpr) (r q : Printed) : Pieces :=
  match a, b with
  | .notSet, _ => .ok ([], [.clause])
  | _, .notSet => .ok ([], [.clause])
  | _, _ => both (piece r) (piece q)

mutual
/-- `visitExpression` (BasePlanProtoVisitor.cpp:637-670) and the functions it calls.  `depth`
is `functionDepth_`.  A masked reference and one that is not set are returned as
`const char *`, so the `ANY_CAST` to `std::string` of every caller throws. -/
def printExpr (c : Context) (depth : Nat) : PbExpr → Printed
  | .notSet => .throw .unsupported
  | .literal l => .ok ((printLiteral c.lib l).1, (printLiteral c.lib l).2.map .literal)
  | .field seg base => .ok (fieldText c seg base)
  | .masked _ => .throw .invalidArgument
  | .noReference _ => .throw .invalidArgument
  | .call f _ arguments args out =>
    (both (printArgs c (depth + 1) arguments) (printExprs c (depth + 1) args)).map fun r =>
      (indent depth ++ (functionText c f).1 ++ '(' :: listText r.1 ++ ")->".toList ++
          (printType out).1,
        (functionText c f).2 ++ r.2 ++ (if r.1.isEmpty then [.noArguments] else []) ++
          (printType out).2.map .type)
  | .ifThen clauses els =>
    (both (printClauses c depth clauses) (elsePieces els (printExpr c depth els))).map fun r =>
      ("IFTHEN(".toList ++ listText r.1 ++ [')'], r.2)
  | .cast e t _ =>
    (printExpr c depth e).map fun r =>
      (r.1 ++ " AS ".toList ++ (printType t).1, r.2 ++ (printType t).2.map .type)
  | .scalar rel => .ok ("SUBQUERY ".toList ++ (relText rel).1, (relText rel).2)
  | .inPredicate needles rel =>
    (printExprs c depth needles).map fun r =>
      ('(' :: listText r.1 ++ ") IN SUBQUERY ".toList ++ (relText rel).1, r.2 ++ (relText rel).2)
  | .setPredicate op rel => .ok (printSetPredicate op rel)
  | .setComparison left op red rel =>
    (leftPrinted left (printExpr c depth left)).map fun r => printSetComparison r op red rel
  | .noSubquery => .throw .unsupported
  | .other k => .ok (k.text, [.unsupported k])
/-- PlanPrinterVisitor.cpp:711-731: the arguments of a call. -/
def printArgs (c : Context) (depth : Nat) : List PbArg → Pieces
  | [] => .ok ([], [])
  | a :: as => both (piece (printArg c depth a)) (printArgs c depth as)
/-- PlanPrinterVisitor.cpp:715-730. -/
def printArg (c : Context) (depth : Nat) : PbArg → Printed
  | .enum s => .ok (enumText s, [])
  | .type t => .ok ((printType t).1, (printType t).2.map .type)
  | .value e => printExpr c depth e
  | .notSet => .ok ("SCALAR_FUNCTION_ARGUMENT_TYPE_MISSING".toList, [.argument])
/-- PlanPrinterVisitor.cpp:732-738 and 301-308: expressions in a row. -/
def printExprs (c : Context) (depth : Nat) : List PbExpr → Pieces
  | [] => .ok ([], [])
  | e :: es => both (piece (printExpr c depth e)) (printExprs c depth es)
/-- PlanPrinterVisitor.cpp:764-778: the clauses of an if-then. -/
def printClauses (c : Context) (depth : Nat) : List PbClause → Pieces
  | [] => .ok ([], [])
  | a :: as => both (printClause c depth a) (printClauses c depth as)
/-- PlanPrinterVisitor.cpp:765-777. -/
def printClause (c : Context) (depth : Nat) : PbClause → Pieces
  | .mk a b => clausePieces a b (printExpr c depth a) (printExpr c depth b)
end

/-! ## Reading -/

/-- The errors the reader reports for expressions. -/
inductive RErr where
  | literal (e : LitErr)
  | type (e : TypeErr)
  /-- "... is not a function reference." -/
  | function
  /-- The errors of `findFieldReferenceByName`. -/
  | column
  /-- "Internal error -- Failed to find a known symbol." -/
  | relation
  /-- "Could not parse as an expression" -/
  | notExpression
  deriving DecidableEq, Repr

/-- A value and the errors reported. -/
abbrev Got (α : Type) := Outcome (α × List RErr)

/-- Two values, the first being read first. -/
def Got.pair {α β γ : Type} (f : α → β → γ) (p : Got α) (q : Got β) : Got γ :=
  p.bind fun a => q.map fun b => (f a.1 b.1, a.2 ++ b.2)

/-- The test for an if-then (SubstraitPlanSubqueryRelationVisitor.cpp:1200). -/
def isIfThen (id : Str) : Bool := id.map toLower == "ifthen".toList

/-- The test for an enumeration argument (1216). -/
def isEnum (e : ExprTree) : Bool := StringManipulation.endsWith e.text "_enum".toList

/-- `absl::StripSuffix(text, "_enum")` of a text that ends so. -/
def stripEnum (s : Str) : Str := s.take (s.length - 5)

/-- `visitLiteral_complex_type` for a type that is not in a literal. -/
def readType (t : TypeTree) : Got PbType :=
  (textToTypeProto false t.text).map fun r => (r.1, r.2.map .type)

/-- The type after an arrow, if there is one (1231-1236). -/
def readOutput : Option TypeTree → Got PbType
  | some t => readType t
  | none => .ok (.notSet, [])

/-- The anchor of a function (1203-1212). -/
def readFunction (c : Context) (id : Str) : Nat × List RErr :=
  match c.functionAnchor id with
  | some n => (n, [])
  | none => (0, [.function])

/-- SubstraitPlanSubqueryRelationVisitor.cpp:1262-1285 `visitExpressionColumn`. -/
def readColumn (c : Context) (name : Str) : PbExpr × List RErr :=
  match Schema.find false c.readScopes name with
  | some (k, i) => (.field (.field i false) (if k > 0 then .outer k else .root), [])
  | none => (.notSet, [.column])

/-- SubstraitPlanRelationVisitor.cpp:1220-1250 `visitExpressionColumn` of the first pass, with
its `findFieldReferenceByName` (2030-2074), which looks at the relation itself only and reports
no error. -/
def firstColumn (c : Context) (name : Str) : PbExpr :=
  match c.readScopes with
  | [] => .notSet
  | d :: _ =>
    match Schema.findHere false d name with
    | some i => .field (.field i false) .root
    | none => .notSet

/-- The pairs of the arguments of an if-then and the expression left over. -/
def ifClauses : List PbExpr → List PbClause × PbExpr
  | a :: b :: r => (.mk a b :: (ifClauses r).1, (ifClauses r).2)
  | [e] => ([], e)
  | [] => ([], .notSet)

/-- SubstraitPlanSubqueryRelationVisitor.cpp:1168-1193 `visitExpressionIfThenUse`, with the
expressions read. -/
def ifThenOf (es : List PbExpr) : PbExpr :=
  if es.isEmpty then .notSet else .ifThen (ifClauses es).1 (ifClauses es).2

/-- The lookup of the relation of a subquery (1290-1301 and its copies); `f` says what is made
of it.  The `ANY_CAST` of the blob of another symbol throws. -/
def withRelation (c : Context) (ref : RelRef) (missing : PbExpr × List RErr)
    (f : Str → Got PbExpr) : Got PbExpr :=
  match c.relation ref.text with
  | none => .ok missing
  | some true => f ref.text
  | some false => .throw .invalidArgument

/-- The operator of a set comparison (1371-1380). -/
def reductionOf (all : Bool) : Int := Enum.readReduction (if all then .all else .any)

/-- The operator of a set predicate (1350-1361). -/
def predicateOf (exist : Bool) : Int := (Enum.readPredicate (if exist then .exists else .unique)).1

mutual
/-- The second pass: `visitExpression` (SubstraitPlanSubqueryRelationVisitor.cpp:1128-1393).
The relation of a subquery is filled in later for all but scalar subqueries; here it is its
name.  In a predicate `IN` the blob is cast after the needles have been read (1325), so the
order of an exception and errors differs. -/
def visit (c : Context) : ExprTree → Got PbExpr
  | .call id args _ ty =>
    if isIfThen id then (visitList c args).map fun r => (ifThenOf r.1, r.2)
    else
      (Got.pair (fun as t => .call (readFunction c id).1 0 as [] t) (visitArgs c args)
        (readOutput ty)).map fun r => (r.1, (readFunction c id).2 ++ r.2)
  | .const k => (visitConst c.lib false none k).map fun r => (.literal r.1, r.2.map .literal)
  | .column schema id => .ok (readColumn c (ExprTree.column schema id).text)
  | .cast e _ ty => Got.pair (fun e t => .cast e t 0) (visit c e) (readType ty)
  | .scalarSubquery _ ref =>
    withRelation c ref (.notSet, [.relation]) fun n => .ok (.scalar (some n), [])
  | .inSubquery es _ ref =>
    withRelation c ref (.notSet, [.relation]) fun n =>
      (visitList c es).map fun r => (.inPredicate r.1 (some n), r.2)
  | .setPredicate exist _ ref =>
    withRelation c ref (.notSet, [.relation]) fun n =>
      .ok (.setPredicate (predicateOf exist) (some n), [])
  | .setComparison e op all _ ref =>
    (visit c e).bind fun l =>
      withRelation c ref
        (.setComparison l.1 (Enum.readComparison op) (reductionOf all) none, l.2 ++ [.relation])
        fun n =>
          .ok (.setComparison l.1 (Enum.readComparison op) (reductionOf all) (some n), l.2)
/-- The arguments of a call (1215-1230). -/
def visitArgs (c : Context) : List ExprTree → Got (List PbArg)
  | [] => .ok ([], [])
  | e :: es =>
    if isEnum e then (visitArgs c es).map fun r => (.enum (stripEnum e.text) :: r.1, r.2)
    else Got.pair (fun e es => .value e :: es) (visit c e) (visitArgs c es)
/-- Expressions in a row (1175-1191, 1384-1393). -/
def visitList (c : Context) : List ExprTree → Got (List PbExpr)
  | [] => .ok ([], [])
  | e :: es => Got.pair (· :: ·) (visit c e) (visitList c es)
end

/-! ## The first pass -/

mutual
/-- SubstraitPlanRelationVisitor.cpp:2143-2188 `hasSubquery`. -/
def hasSubquery : ExprTree → Bool
  | .call _ args _ _ => hasSubqueries args
  | .const _ => false
  | .column _ _ => false
  | .cast e _ _ => hasSubquery e
  | .scalarSubquery _ _ => true
  | .inSubquery _ _ _ => true
  | .setPredicate _ _ _ => true
  | .setComparison _ _ _ _ _ => true
def hasSubqueries : List ExprTree → Bool
  | [] => false
  | e :: es => hasSubquery e || hasSubqueries es
end

/-- What the first pass gives: nothing, an expression or a list of expressions. -/
inductive Value where
  | nothing
  | expr (e : PbExpr)
  | list (es : List PbExpr)

/-- `ANY_CAST(Expression, value)`. -/
def Value.asExpr {α : Type} (v : Value) (f : PbExpr → Outcome α) : Outcome α :=
  match v with
  | .expr e => f e
  | _ => .throw .invalidArgument

/-- The arguments of a call, and whether all of them were expressions. -/
abbrev FirstArgs := List PbArg × Bool

mutual
/-- The first pass: `visitExpression` (SubstraitPlanRelationVisitor.cpp:1078-1260).
Subqueries are visited as their children (`visitChildren` with the `aggregateResult` of
329-337): a list of expressions or the left side of a comparison is all that has a value.
`inside` says that the relation is in a subquery; columns are not looked up there. -/
def first (c : Context) (inside : Bool) : ExprTree → Got Value
  | .call id args _ ty =>
    if isIfThen id then (firstList c inside args).map fun r => (.expr (ifThenOf r.1), r.2)
    else
      (firstArgs c inside args).bind fun r =>
        if r.1.2 then
          (readOutput ty).map fun t =>
            (.expr (.call (readFunction c id).1 0 r.1.1 [] t.1),
              (readFunction c id).2 ++ r.2 ++ t.2)
        else
          .ok (.expr (.call (readFunction c id).1 0 r.1.1 [] .notSet),
            (readFunction c id).2 ++ r.2)
  | .const k =>
    (visitConst c.lib false none k).map fun r => (.expr (.literal r.1), r.2.map .literal)
  | .column schema id =>
    if inside then .ok (.expr .notSet, [])
    else .ok (.expr (firstColumn c (ExprTree.column schema id).text), [])
  | .cast e _ ty =>
    (first c inside e).bind fun v => v.1.asExpr fun e =>
      (readType ty).map fun t => (.expr (.cast e t.1 0), v.2 ++ t.2)
  | .scalarSubquery _ _ => .ok (.nothing, [])
  | .inSubquery es _ _ => (firstList c inside es).map fun r => (.list r.1, r.2)
  | .setPredicate _ _ _ => .ok (.nothing, [])
  | .setComparison e _ _ _ _ => first c inside e
/-- SubstraitPlanRelationVisitor.cpp:1166-1191: arguments with subqueries are left empty. -/
def firstArgs (c : Context) (inside : Bool) : List ExprTree → Got FirstArgs
  | [] => .ok (([], true), [])
  | e :: es =>
    if isEnum e then
      (firstArgs c inside es).map fun r => ((.enum (stripEnum e.text) :: r.1.1, r.1.2), r.2)
    else if hasSubquery e then
      (firstArgs c inside es).map fun r => ((.value .notSet :: r.1.1, r.1.2), r.2)
    else
      (first c inside e).bind fun v =>
        match v.1 with
        | .expr x =>
          (firstArgs c inside es).map fun r => ((.value x :: r.1.1, r.1.2), v.2 ++ r.2)
        | _ => .ok (([], false), v.2 ++ [.notExpression])
/-- SubstraitPlanRelationVisitor.cpp:1125-1141, 1252-1260. -/
def firstList (c : Context) (inside : Bool) : List ExprTree → Got (List PbExpr)
  | [] => .ok ([], [])
  | e :: es =>
    (first c inside e).bind fun v => v.1.asExpr fun x =>
      (firstList c inside es).map fun r => (x :: r.1, v.2 ++ r.2)
end

/-- SubstraitPlanRelationVisitor.cpp:552-570: the condition of a filter in the first pass;
an error if it is not an expression. -/
def firstCondition (c : Context) (inside : Bool) (e : ExprTree) : Got (Option PbExpr) :=
  (first c inside e).map fun v =>
    match v.1 with
    | .expr x => (some x, v.2)
    | _ => (none, v.2 ++ [.notExpression])

/-! ## The relations of the subqueries -/

mutual
/-- SubstraitPlanPipelineVisitor.cpp:173-246: the relations that are added to `subQueryPipelines`
for an expression, in this order: the relation of a subquery comes before those in the expressions
that are compared with it. -/
def subqueryRefs : ExprTree → List Str
  | .call _ args _ _ => subqueryRefsL args
  | .const _ => []
  | .column _ _ => []
  | .cast e _ _ => subqueryRefs e
  | .scalarSubquery _ ref => [ref.id]
  | .inSubquery es _ ref => ref.id :: subqueryRefsL es
  | .setPredicate _ _ ref => [ref.id]
  | .setComparison e _ _ _ ref => ref.id :: subqueryRefs e
def subqueryRefsL : List ExprTree → List Str
  | [] => []
  | e :: es => subqueryRefs e ++ subqueryRefsL es
end

/-! ## From text to expressions -/

/-- The expression of a text that is followed by a semicolon; `none` is a syntax error. -/
def parseText (text : Str) : Option ExprTree :=
  (Lex.lex (text ++ [';'])).bind fun ts =>
    match Parse.exprOf ts with
    | some (e, [t]) => if t.kind = .semicolon then some e else none
    | _ => none

/-- The expression the second pass makes of a text. -/
def readText (c : Context) (text : Str) : Option (Got PbExpr) := (parseText text).map (visit c)

end Verif.Expr
