import Verif.Model.Expression
import Verif.Model.Filter
import Verif.Model.Parser

/-!
Model of relations in text plans without their inputs (those are in the pipelines, C40-C42):
the printer (src/substrait/textplan/PlanPrinterVisitor.cpp:88-112, 885-951, 997-1212), the
grammar (src/substrait/textplan/parser/grammar/SubstraitPlanParser.g4:43-86) and the two passes
of the reader (src/substrait/textplan/parser/SubstraitPlanRelationVisitor.cpp:339-1076 and
SubstraitPlanSubqueryRelationVisitor.cpp:395-1126).
-/

namespace Verif.Rel

open Verif Verif.TyPb Verif.Tree Verif.Literal Verif.Lex Verif.Parse Verif.Expr

/-! ## Messages -/

/-- The `sort_kind` of the message `SortField`. -/
inductive SortKind where
  | notSet
  | direction (n : Int)
  | comparison (function : Nat)
  deriving DecidableEq, Repr

/-- The message `SortField`. -/
structure PbSort where
  expr : PbExpr
  kind : SortKind

/-- The message `AggregateFunction`.  An option is its name and its preferences. -/
structure PbAggregate where
  function : Nat
  options : List (Str × List Str)
  arguments : List PbArg
  args : List PbExpr
  output : PbType
  phase : Int
  invocation : Int
  sorts : List PbSort

/-- An `AggregateFunction` in which nothing is set. -/
def PbAggregate.empty : PbAggregate := ⟨0, [], [], [], .notSet, 0, 0, []⟩

/-- The message `AggregateRel.Measure`. -/
structure PbMeasure where
  measure : Option PbAggregate
  filter : Option PbExpr

/-- The messages `ReadRel`, `FilterRel`, ... without their inputs and their common part.

Simplifications: the source and the base schema of a `ReadRel` are given by the names of their
symbols, `none` if they are not set (their contents are printed in other sections); of the
projection there is only whether it is set; advanced extensions are left out.  `other` are the
kinds the printer does not know: sets, extensions, physical joins, exchanges, writes, windows
and so on. -/
inductive Body where
  | read (source schema : Option Str) (filter bestEffort : Option PbExpr) (projection : Bool)
  | filter (condition : Option PbExpr)
  | fetch (offset count : Int)
  | aggregate (groupings : List (List PbExpr)) (measures : List PbMeasure)
  | sort (sorts : List PbSort)
  | project (expressions : List PbExpr)
  | join (type : Int) (expression postJoin : Option PbExpr)
  | cross
  | other

/-- The message `Rel` without its inputs: the body and the output mapping of the common part
(`[]` is a common part without `emit`). -/
structure PbRel where
  body : Body
  emit : List Int

/-- What the reader finds for the name of a source: the kinds of sources, or another symbol
whose `subtype` is no `SourceType`. -/
inductive SourceSymbol where
  | named | files | virtual | extension | unknown | notSource
  deriving DecidableEq, Repr

/-- What a relation is printed and read with. -/
structure RelContext where
  /-- For the expressions.  The first of `scopes` are the fields of this relation in the
  printer's table; `readScopes` are not used. -/
  expr : Context
  /-- The name of the symbol. -/
  name : Str
  /-- `generatedFieldReferenceAlternativeExpression` of the printer's table. -/
  alternative : Nat → Option Str
  /-- The name of the symbol of a measure in the printer's table, if it has one. -/
  measureName : Nat → Option Str
  /-- The relation is in a subquery (`isWithinSubquery`). -/
  inside : Bool
  /-- The fields of the inputs as the second pass knows them. -/
  inputs : List Schema.Field
  /-- The fields of the inputs as the first pass knows them. -/
  firstInputs : List Schema.Field
  /-- The fields of the relations this one is in a subquery of, from the inside, at this time
  of the second pass. -/
  outer : List Schema.RelData
  /-- The reader's table: the symbol of a source. -/
  source : Str → Option SourceSymbol
  /-- The reader's table: the columns that belong to the symbol of this name. -/
  schema : Str → Option (List Schema.Field)
  /-- The names `getUniqueName` gives to the expressions of a project without a name. -/
  fresh : Nat → Str

/-- The fields of this relation in the printer's table. -/
def RelContext.here (c : RelContext) : Schema.RelData :=
  match c.expr.scopes with
  | d :: _ => d
  | [] => ⟨false, [], [], []⟩

/-! ## Printing -/

/-- The errors the printer reports for relations. -/
inductive PrintErr where
  | expr (e : PErr)
  /-- "Relation subtype ... not supported!" -/
  | unsupported
  /-- "Mask expression ... not yet supported" -/
  | projection
  /-- "Encountered aggregate measure without a measure function." -/
  | noMeasure
  /-- "Required sort kind missing from sort relation sort." -/
  | sortKind
  /-- The errors of `lookupFieldReferenceForEmit`. -/
  | emit
  deriving DecidableEq, Repr

/-- A text and the errors reported. -/
abbrev Text := Outcome (Str × List PrintErr)

/-- No text. -/
def Text.none : Text := .ok ([], [])

/-- One text and then the other. -/
def Text.and (p q : Text) : Text := p.bind fun a => q.map fun b => (a.1 ++ b.1, a.2 ++ b.2)

/-- A line: the words before an expression, the expression, and what comes after it. -/
def line (before : Str) (p : Expr.Printed) (after : Str) : Text :=
  p.map fun r => (before ++ r.1 ++ after, r.2.map .expr)

/-- A line for an expression that may be absent. -/
def optLine (c : Context) (before : Str) (after : Str) : Option PbExpr → Text
  | none => Text.none
  | some e => line before (printExpr c 0 e) after

/-- The end of a line. -/
def lineEnd : Str := ";\n".toList

/-- PlanPrinterVisitor.cpp:92-98: `  source <name>;` and `  base_schema <name>;`. -/
def nameLine (before : Str) : Option Str → Text
  | none => Text.none
  | some s => .ok (before ++ s ++ lineEnd, [])

/-- What is printed of an enumerator. -/
def enumWord : Enum.Printed → Str
  | .text s => s
  | .nothing => []
  | .error => []

/-- PlanPrinterVisitor.cpp:906-936: an argument of an aggregate function.  An argument that is
not set is printed without an error. -/
def printAggregateArg (c : Context) : PbArg → Expr.Printed
  | .notSet => .ok ("UNKNOWN_AGGREGATE_FUNCTION_ARGUMENT_TYPE".toList, [])
  | a => printArg c 1 a

def printAggregateArgs (c : Context) : List PbArg → Pieces
  | [] => .ok ([], [])
  | a :: as => both (piece (printAggregateArg c a)) (printAggregateArgs c as)

/-- PlanPrinterVisitor.cpp:938-943: the preferences of an option. -/
def preferencesText : List Str → Str
  | [] => []
  | p :: ps => ';' :: p ++ preferencesText ps

/-- PlanPrinterVisitor.cpp:938-943: the options. -/
def optionsText : List (Str × List Str) → Str
  | [] => []
  | o :: os => '#' :: o.1 ++ preferencesText o.2 ++ optionsText os

/-- PlanPrinterVisitor.cpp:900-951 `visitAggregateFunction`, which is never called inside a
call.  The sorts are not printed. -/
def printAggregate (c : Context) (f : PbAggregate) : Expr.Printed :=
  (both (printAggregateArgs c f.arguments) (printExprs c 1 f.args)).map fun r =>
    ((functionText c f.function).1 ++ '(' :: listText r.1 ++ ')' :: optionsText f.options ++
        "->".toList ++ (printType f.output).1 ++ '@' :: enumWord (Enum.printPhase f.phase),
      (functionText c f.function).2 ++ r.2 ++ (printType f.output).2.map .type)

/-- ` NAMED <name>`, if there is a name. -/
def namedText : Option Str → Str
  | some n => " NAMED ".toList ++ n
  | none => []

/-- PlanPrinterVisitor.cpp:1100-1105: nothing if the invocation is 0. -/
def invocationLine (n : Int) : Str :=
  if n = 0 then [] else "    invocation ".toList ++ enumWord (Enum.printInvocation n) ++ lineEnd

/-- PlanPrinterVisitor.cpp:1081-1107: a measure. -/
def printMeasure (c : RelContext) (k : Nat) (m : PbMeasure) : Text :=
  match m.measure with
  | none => .ok ([], [.noMeasure])
  | some f =>
    Text.and
      (line "  measure {\n    measure ".toList (printAggregate c.expr f)
        (namedText (c.measureName k) ++ lineEnd))
      (Text.and (optLine c.expr "    filter ".toList lineEnd m.filter)
        (.ok (invocationLine f.invocation ++ "  }\n".toList, [])))

/-- The measures, with their numbers. -/
def printMeasures (c : RelContext) : Nat → List PbMeasure → Text
  | _, [] => Text.none
  | k, m :: ms => Text.and (printMeasure c k m) (printMeasures c (k + 1) ms)

/-- The expressions of a grouping set (PlanPrinterVisitor.cpp:1076-1079). -/
def printGrouping (c : Context) : List PbExpr → Text
  | [] => Text.none
  | e :: es => Text.and (line "  grouping ".toList (printExpr c 0 e) lineEnd) (printGrouping c es)

/-- PlanPrinterVisitor.cpp:1075-1080: the grouping sets, one after the other. -/
def printGroupings (c : Context) : List (List PbExpr) → Text
  | [] => Text.none
  | g :: gs => Text.and (printGrouping c g) (printGroupings c gs)

/-- One item of the output mapping (PlanPrinterVisitor.cpp:891-896); the number is passed on as
`uint32_t`. -/
def printEmitLine (c : RelContext) (i : Int) : Text :=
  match Schema.printEmit c.here i with
  | some n => .ok ("  emit ".toList ++ n ++ lineEnd, [])
  | none =>
    .ok ("  emit field#".toList ++ natText ((i % 4294967296).toNat) ++ lineEnd, [.emit])

def printEmitLines (c : RelContext) : List Int → Text
  | [] => Text.none
  | i :: is => Text.and (printEmitLine c i) (printEmitLines c is)

/-- PlanPrinterVisitor.cpp:885-898 `visitRelationCommon`. -/
def printCommon (c : RelContext) (emit : List Int) : Text :=
  Text.and (.ok (if emit.isEmpty then [] else ['\n'], [])) (printEmitLines c emit)

/-- ` by <direction>` (PlanPrinterVisitor.cpp:1120-1139). -/
def directionText (n : Int) : Str :=
  match Enum.printDirection n with
  | .text s => " by ".toList ++ s
  | _ => []

/-- PlanPrinterVisitor.cpp:1112-1157 `visitSortRelation`; `acc` is what has been printed.  A sort
with a comparison function ends the loop, and the name of the function is all that is
returned. -/
def printSorts (c : Context) (acc : Str × List PrintErr) : List PbSort → Text
  | [] => .ok acc
  | s :: ss =>
    (printExpr c 0 s.expr).bind fun r =>
      match s.kind with
      | .direction n =>
        printSorts c (acc.1 ++ "  sort ".toList ++ r.1 ++ directionText n ++ lineEnd,
          acc.2 ++ r.2.map .expr) ss
      | .comparison f =>
        .ok ((functionText c f).1, acc.2 ++ r.2.map .expr ++ (functionText c f).2.map .expr)
      | .notSet =>
        printSorts c (acc.1 ++ "  sort ".toList ++ r.1 ++ lineEnd,
          acc.2 ++ r.2.map .expr ++ [.sortKind]) ss

/-- The alias of a generated field of the printer's table. -/
def aliasOf (c : RelContext) (k : Nat) : Option Str :=
  (c.here.generated[k]?).bind fun f => if f.alias.isEmpty then none else some f.alias

/-- PlanPrinterVisitor.cpp:1159-1187: the expressions of a project. -/
def printProject (c : RelContext) : Nat → List PbExpr → Text
  | _, [] => Text.none
  | k, e :: es =>
    Text.and
      (match c.alternative k with
        | some s => .ok ("  expression ".toList ++ s ++ lineEnd, [])
        | none =>
          line "  expression ".toList (printExpr c.expr 0 e) (namedText (aliasOf c k) ++ lineEnd))
      (printProject c (k + 1) es)

/-- PlanPrinterVisitor.cpp:1062-1070 `visitFetchRelation`: the offset is printed if it is
not 0. -/
def offsetLine (n : Int) : Str :=
  if n = 0 then [] else "  offset ".toList ++ intText n ++ lineEnd

/-- PlanPrinterVisitor.cpp:1042-1046 and `visitMaskExpression` (968-974). -/
def projectionLine (b : Bool) : Text :=
  if b then
    .ok ("  projection MASKEXPR-NOT-YET-IMPLEMENTED".toList ++ lineEnd, [.projection])
  else Text.none

/-- The functions for the kinds of relations (PlanPrinterVisitor.cpp:997-1212); `none` if what
they return is no `std::string`.  The lines for the source and the schema are printed by
`printRelation`: `visitReadRelation` looks for them by the locations of the copy of the message
that is kept in the symbol table, where nothing is.  The errors of expressions in relations
that are not supported are left out. -/
def printBody (c : RelContext) (r : PbRel) : Option Text :=
  match r.body with
  | .read none _ _ _ _ => none
  | .read (some _) _ f b p =>
    some (Text.and (optLine c.expr "  filter ".toList lineEnd f)
      (Text.and (optLine c.expr "  filter ".toList lineEnd b) (projectionLine p)))
  | .filter f => some (optLine c.expr "  filter ".toList lineEnd f)
  | .fetch o n => some (.ok (offsetLine o ++ "  count ".toList ++ intText n ++ lineEnd, []))
  | .aggregate gs ms =>
    some (Text.and (printGroupings c.expr gs)
      (Text.and (printMeasures c 0 ms) (printCommon c r.emit)))
  | .sort ss => some (printSorts c.expr ([], []) ss)
  | .project es => some (Text.and (printProject c 0 es) (printCommon c r.emit))
  | .join t e p =>
    some (Text.and (.ok ("  type ".toList ++ enumWord (Enum.printJoin t) ++ lineEnd, []))
      (Text.and (optLine c.expr "  expression ".toList lineEnd e)
        (optLine c.expr "  post_join ".toList lineEnd p)))
  | .cross => some Text.none
  | .other => none

/-- The names of the kinds that can be read: `relTypeCaseName` (C33). -/
def kindText : Enum.RelType → Str
  | .read => "read".toList
  | .project => "project".toList
  | .join => "join".toList
  | .cross => "cross".toList
  | .fetch => "fetch".toList
  | .aggregate => "aggregate".toList
  | .sort => "sort".toList
  | .filter => "filter".toList
  | .set => "set".toList

/-- The kind of a body. -/
def Body.kind : Body → Enum.RelType
  | .read _ _ _ _ _ => .read
  | .filter _ => .filter
  | .fetch _ _ => .fetch
  | .aggregate _ _ => .aggregate
  | .sort _ => .sort
  | .project _ => .project
  | .join _ _ _ => .join
  | .cross => .cross
  | .other => .set

/-- `relationData->source` and `relationData->schema` are set for read relations only. -/
def Body.names : Body → Option Str × Option Str
  | .read s t _ _ _ => (s, t)
  | _ => (none, none)

/-- PlanPrinterVisitor.cpp:88-112 `printRelation`. -/
def printRelation (c : RelContext) (r : PbRel) : Text :=
  match printBody c r with
  | none => .ok ([], [.unsupported])
  | some t =>
    Text.and
      (.ok (kindText r.body.kind ++ " relation ".toList ++ c.name ++ " {\n".toList, []))
      (Text.and (nameLine "  source ".toList r.body.names.1)
        (Text.and (nameLine "  base_schema ".toList r.body.names.2)
          (Text.and t (.ok ("}\n".toList, [])))))

/-! ## Grammar -/

/-- SubstraitPlanParser.g4:66-71 `measure_detail`.  `ids` are the identifiers after `@` and
after `NAMED`, as far as they are there. -/
inductive MeasureDetail where
  | measure (e : ExprTree) (ty : Option TypeTree) (ids : List Str)
  | filter (e : ExprTree)
  | invocation (id : Str)
  | sort (e : ExprTree) (by_ : Option Str)

/-- SubstraitPlanParser.g4:73-86 `relation_detail`.  `words` is the text of
`relation_filter_behavior`. -/
inductive Detail where
  | common
  | schema (id : Str)
  | filter (words : Option Str) (e : ExprTree)
  | expression (e : ExprTree) (named : Option Str)
  | extension
  | source (id : Str)
  | grouping (e : ExprTree)
  | measure (ds : List MeasureDetail)
  | sort (e : ExprTree) (by_ : Option Str)
  | count (text : Str)
  | type (id : Str)
  | emit (schema : Option Str) (id : Str)

/-- SubstraitPlanPipelineVisitor.cpp:173-246: the relations of the subqueries in a part of a
measure; all its expressions are visited. -/
def measureRefs : MeasureDetail → List Str
  | .measure e _ _ => subqueryRefs e
  | .filter e => subqueryRefs e
  | .invocation _ => []
  | .sort e _ => subqueryRefs e

/-- SubstraitPlanPipelineVisitor.cpp:173-246: the relations of the subqueries in a detail. -/
def detailRefs : Detail → List Str
  | .filter _ e => subqueryRefs e
  | .expression e _ => subqueryRefs e
  | .grouping e => subqueryRefs e
  | .measure ds => ds.flatMap measureRefs
  | .sort e _ => subqueryRefs e
  | _ => []

/-- A part and then a semicolon. -/
def semi {α : Type} (r : Option (α × List Token)) : Option (α × List Token) :=
  r.bind fun x => (expect .semicolon x.2).map fun u => (x.1, u)

/-- `(<keyword> id)?`. -/
def parseOptId (k : Tk) (ts : List Token) : Option (Option Str × List Token) :=
  if nextIs k ts then (parseId ts.tail).map fun i => (some i.1, i.2) else some (none, ts)

/-- `expression (BY id)?` of `sort_field` (SubstraitPlanParser.g4:207-209). -/
def parseSort (ts : List Token) : Option ((ExprTree × Option Str) × List Token) :=
  (exprOf ts).bind fun e => (parseOptId .by e.2).map fun b => ((e.1, b.1), b.2)

/-- `(ATSIGN id)? (NAMED id)?`. -/
def parseIds (ts : List Token) : Option (List Str × List Token) :=
  (parseOptId .atSign ts).bind fun a => (parseOptId .named a.2).map fun b =>
    (a.1.toList ++ b.1.toList, b.2)

/-- SubstraitPlanParser.g4:66-71 `measure_detail`. -/
def parseMeasureDetail : List Token → Option (MeasureDetail × List Token)
  | [] => none
  | t :: ts =>
    match t.kind with
    | .measure =>
      semi ((exprOf ts).bind fun e => (parseArrow (rounds e.2) e.2).bind fun a =>
        (parseIds a.2).map fun i => (.measure e.1 a.1 i.1, i.2))
    | .filter => semi ((exprOf ts).map fun e => (.filter e.1, e.2))
    | .invocation => semi ((parseId ts).map fun i => (.invocation i.1, i.2))
    | .sort => semi ((parseSort ts).map fun s => (.sort s.1.1 s.1.2, s.2))
    | _ => none

/-- Details up to the closing brace. -/
def parseUntilBrace {α : Type} (p : List Token → Option (α × List Token)) :
    Nat → List Token → Option (List α × List Token)
  | 0, _ => none
  | n + 1, ts =>
    if nextIs .rightBrace ts then some ([], ts.tail)
    else (p ts).bind fun d => (parseUntilBrace p n d.2).map fun r => (d.1 :: r.1, r.2)

/-- The alternatives of `relation_detail` that start with a keyword of their own, and a filter
without words before it. -/
def parseKeywordDetail : List Token → Option (Detail × List Token)
  | [] => none
  | t :: ts =>
    match t.kind with
    | .common => semi (some (.common, ts))
    | .baseSchema => semi ((parseId ts).map fun i => (.schema i.1, i.2))
    | .filter => semi ((exprOf ts).map fun e => (.filter none e.1, e.2))
    | .expression =>
      semi ((exprOf ts).bind fun e => (parseOptId .named e.2).map fun n =>
        (.expression e.1 n.1, n.2))
    | .advancedExtension => semi (some (.extension, ts))
    | .source => semi ((parseId ts).map fun i => (.source i.1, i.2))
    | .grouping => semi ((exprOf ts).map fun e => (.grouping e.1, e.2))
    | .measure =>
      (expect .leftBrace ts).bind fun u =>
        (parseUntilBrace parseMeasureDetail u.length u).map fun r => (.measure r.1, r.2)
    | .sort => semi ((parseSort ts).map fun s => (.sort s.1.1 s.1.2, s.2))
    | .count =>
      match ts with
      | n :: us => if n.kind = .number then semi (some (.count n.text, us)) else none
      | [] => none
    | .type => semi ((parseId ts).map fun i => (.type i.1, i.2))
    | .emit =>
      semi ((parseId ts).bind fun i => (parseColumn i.1 i.2).bind fun r =>
        match r.1 with
        | .column s n => some (.emit s n, r.2)
        | _ => none)
    | _ => none

/-- `FILTER expression SEMICOLON` after the words. -/
def parseAfterWords (words : Str) (ts : List Token) : Option (Detail × List Token) :=
  (expect .filter ts).bind fun u => semi ((exprOf u).map fun e => (.filter (some words) e.1, e.2))

/-- SubstraitPlanParser.g4:58-62 `relation_filter_behavior`, and what follows it. -/
def parseWordsDetail (ts : List Token) : Option (Detail × List Token) :=
  (parseId ts).bind fun i =>
    ((parseAfterWords i.1 i.2).or
      ((expect .minus i.2).bind fun u => (parseId u).bind fun j =>
        parseAfterWords (i.1 ++ '-' :: j.1) j.2)).or
      ((parseId i.2).bind fun j => parseAfterWords (i.1 ++ j.1) j.2)

/-- SubstraitPlanParser.g4:73-86 `relation_detail`. -/
def parseDetail (ts : List Token) : Option (Detail × List Token) :=
  (parseKeywordDetail ts).or (parseWordsDetail ts)

/-- SubstraitPlanParser.g4:44-46 `relation`. -/
structure RelTree where
  type : Str
  ref : RelRef
  details : List Detail

def parseRelation (ts : List Token) : Option (RelTree × List Token) :=
  (parseId ts).bind fun i => (expect .relation i.2).bind fun u => (Parse.parseRef u).bind fun r =>
    (expect .leftBrace r.2).bind fun v =>
      (parseUntilBrace parseDetail v.length v).map fun d => (⟨i.1, r.1, d.1⟩, d.2)

/-! ## Reading -/

/-- The errors the reader reports for relations. -/
inductive ReadErr where
  | expr (e : RErr)
  | filter (e : Filter.FilterErr)
  /-- "... not permitted/defined/supported for this kind of relation", one for each detail. -/
  | kind
  /-- "A join expression has already been specified." -/
  | expressionTwice
  /-- "A measure expression has already been provided for this measure." -/
  | measureTwice
  /-- "A filter has already been provided for this measure." -/
  | measureFilterTwice
  /-- "Expected an expression utilizing a function here." -/
  | notFunction
  /-- "Unrecognized aggregation phase", "... invocation", "Unrecognized sort direction",
  "Unsupported join type direction". -/
  | enumerator
  /-- The errors of `visitNumber`. -/
  | count (e : LitErr)
  /-- "Reference ... does not exist." in an `emit`. -/
  | emitColumn
  /-- "Emitting outer references is not supported." -/
  | emitOuter
  /-- "Field #... requested but only ... are available." -/
  | field (i : Int)
  /-- The type of the relation is not known. -/
  | type
  deriving DecidableEq, Repr

/-- A relation while it is read. -/
structure State where
  body : Body
  emit : List Int
  data : Schema.RelData
  /-- `generatedFieldReferenceAliases` -/
  names : List Str

/-- The state after a detail, and the errors reported. -/
abbrev Step := Outcome (State × List ReadErr)

/-- The value of an expression and the errors: `visitExpression` of the pass. -/
def value (first : Bool) (c : RelContext) (d : Schema.RelData) (t : ExprTree) :
    Outcome (Value × List RErr) :=
  let x := { c.expr with readScopes := d :: c.outer }
  if first then Expr.first x c.inside t
  else (visit x t).map fun r => (.expr r.1, r.2)

/-- The value as an expression: `ANY_CAST(Expression, ...)`. -/
def exprValue (first : Bool) (c : RelContext) (d : Schema.RelData) (t : ExprTree) :
    Outcome (PbExpr × List ReadErr) :=
  (value first c d t).bind fun v => v.1.asExpr fun e => .ok (e, v.2.map .expr)

/-- The type of a relation as `Filter.visitFilter` knows it. -/
def filterKind : Body → Filter.RelationType
  | .read _ _ _ _ _ => .read
  | .filter _ => .filter
  | .fetch _ _ => .fetch
  | .aggregate _ _ => .aggregate
  | .sort _ => .sort
  | .project _ => .project
  | .join _ _ _ => .join
  | .cross => .cross
  | .other => .set

/-- The filters of a body. -/
def filtersOf : Body → Filter.Filters PbExpr
  | .read _ _ f b _ => { filter := f, bestEffort := b }
  | .filter f => { condition := f }
  | .join _ _ p => { postJoin := p }
  | _ => {}

/-- The body with other filters. -/
def withFilters (f : Filter.Filters PbExpr) : Body → Body
  | .read s t _ _ p => .read s t f.filter f.bestEffort p
  | .filter _ => .filter f.condition
  | .join t e _ => .join t e f.postJoin
  | b => b

/-- `visitRelationFilter` (SubstraitPlanSubqueryRelationVisitor.cpp:543-643). -/
def readFilter (first : Bool) (c : RelContext) (st : State) (words : Option Str) (t : ExprTree) :
    Step :=
  (value first c st.data t).bind fun v =>
    let x := match v.1 with
      | .expr e => some e
      | _ => none
    let r := Filter.visitFilter (filterKind st.body) (filtersOf st.body) ⟨words, x⟩
    if r.threw then .throw .invalidArgument
    else .ok ({ st with body := withFilters r.filters st.body },
      v.2.map .expr ++ r.errs.map .filter)

/-- `visitRelationUsesSchema` (645-684).  A name that is not known is ignored.  If there are
two of these details the second replaces the first here, while the program adds its columns. -/
def readSchema (c : RelContext) (st : State) (id : Str) : Step :=
  match st.body with
  | .read s _ f b p =>
    match c.schema id with
    | some cols =>
      .ok ({ st with
        body := .read s (some id) f b p
        data := { st.data with output := st.data.output ++ cols } }, [])
    | none => .ok (st, [])
  | _ => .ok (st, [.kind])

/-- `visitRelationSourceReference` (1018-1079).  A name that is not known is ignored, and so are
virtual tables and extension tables; the cast of the `subtype` of another symbol throws.  If
there are two of these details the second replaces the first here. -/
def readSource (c : RelContext) (st : State) (id : Str) : Step :=
  match st.body with
  | .read _ t f b p =>
    match c.source id with
    | some .named | some .files => .ok ({ st with body := .read (some id) t f b p }, [])
    | some .notSource => .throw .invalidArgument
    | _ => .ok (st, [])
  | _ => .ok (st, [.kind])

/-- `visitRelationExpression` (686-718 and, in the first pass,
SubstraitPlanRelationVisitor.cpp:626-668, which also keeps the name). -/
def readExpression (first : Bool) (c : RelContext) (st : State) (t : ExprTree)
    (named : Option Str) : Step :=
  (value first c st.data t).bind fun v =>
    match st.body with
    | .join _ (some _) _ => .ok (st, v.2.map .expr ++ [.expressionTwice])
    | .join ty none p =>
      v.1.asExpr fun e => .ok ({ st with body := .join ty (some e) p }, v.2.map .expr)
    | .project es =>
      v.1.asExpr fun e =>
        .ok ({ st with
          body := .project (es ++ [e])
          names := if first then st.names ++ [named.getD (c.fresh es.length)] else st.names },
          v.2.map .expr)
    | _ => .ok (st, v.2.map .expr ++ [.kind])

/-- A grouping expression: every reference is made one to the root (740-741). -/
def rooted : PbExpr → PbExpr
  | .field seg _ => .field seg .root
  | .masked _ => .masked .root
  | .noReference _ => .noReference .root
  | e => e

/-- An expression is added to the first grouping set (731-739). -/
def addGrouping (e : PbExpr) : List (List PbExpr) → List (List PbExpr)
  | [] => [[e]]
  | g :: gs => (g ++ [e]) :: gs

/-- The field with the number of the reference is added to the generated ones, without a test of
the number (742-748). -/
def pushField (d : Schema.RelData) : PbExpr → Outcome Schema.RelData
  | .field (.field n _) _ =>
    (Schema.vecAt d.fields (Schema.asSize n)).map fun f =>
      { d with generated := d.generated ++ [f] }
  | _ => .ok d

/-- `visitRelationGrouping` (720-758). -/
def readGrouping (first : Bool) (c : RelContext) (st : State) (t : ExprTree) : Step :=
  (value first c st.data t).bind fun v =>
    match st.body with
    | .aggregate gs ms =>
      v.1.asExpr fun e => (pushField st.data e).map fun d =>
        ({ st with body := .aggregate (addGrouping (rooted e) gs) ms, data := d }, v.2.map .expr)
    | _ => .ok (st, v.2.map .expr ++ [.kind])

/-- `visitSort_field` (2088-2099) and `visitSortDirection` (2101-2119). -/
def readSortField (first : Bool) (c : RelContext) (d : Schema.RelData) (t : ExprTree)
    (by_ : Option Str) : Outcome (PbSort × List ReadErr) :=
  (exprValue first c d t).map fun r =>
    match by_ with
    | none => (⟨r.1, .notSet⟩, r.2)
    | some id =>
      (⟨r.1, .direction (Enum.readDirection id).1⟩,
        r.2 ++ if (Enum.readDirection id).2 then [.enumerator] else [])

/-- The measure while its details are read (760-803). -/
structure MeasureState where
  measure : Option PbAggregate
  filter : Option PbExpr
  invocation : Int
  sorts : List PbSort

/-- The aggregate function made of an expression (945-979).  The report for an expression that is
no call dereferences `ctx->id(0)`, which is null if there is no identifier. -/
def aggregateOf (e : PbExpr) (out : Option PbType) (ids : List Str) :
    Outcome (PbAggregate × List ReadErr) :=
  match e with
  | .call f _ as _ t =>
    let p := match ids with
      | id :: _ => Enum.readPhase id
      | [] => (0, false)
    .ok (⟨f, [], as, [], out.getD t, p.1, 0, []⟩, if p.2 then [.enumerator] else [])
  | _ =>
    match ids with
    | [] => .ub
    | _ :: _ => .ok (PbAggregate.empty, [.notFunction])

/-- The symbol of a measure with a name is added to the generated fields (980-997). -/
def pushMeasure (c : RelContext) (k : Nat) (ids : List Str) (d : Schema.RelData) :
    Schema.RelData :=
  match ids with
  | _ :: n :: _ => { d with generated := d.generated ++ [⟨.measure c.name k, n, [], none⟩] }
  | _ => d

/-- The type after the arrow of a `measure` detail, if it has not been taken by the call; it is
read after calls only. -/
def readMeasureType : PbExpr → Option TypeTree → Outcome (Option PbType × List ReadErr)
  | .call _ _ _ _ _, some t => (readType t).map fun r => (some r.1, r.2.map .expr)
  | _, _ => .ok (none, [])

/-- `visitRelationMeasure` (760-803) and `visitMeasure_detail` (942-1016): the details of
measure `k`.  A second `measure` or `filter` ends the loop. -/
def readMeasureDetails (first : Bool) (c : RelContext) (k : Nat) (d : Schema.RelData)
    (m : MeasureState) :
    List MeasureDetail → Outcome ((Schema.RelData × MeasureState) × List ReadErr)
  | [] => .ok ((d, m), [])
  | .measure t ty ids :: ds =>
    (exprValue first c d t).bind fun e =>
      (readMeasureType e.1 ty).bind fun o =>
      (aggregateOf e.1 o.1 ids).bind fun f =>
        match m.measure with
        | some _ => .ok ((pushMeasure c k ids d, m), e.2 ++ o.2 ++ f.2 ++ [.measureTwice])
        | none =>
          (readMeasureDetails first c k (pushMeasure c k ids d) { m with measure := some f.1 }
            ds).map fun r => (r.1, e.2 ++ o.2 ++ f.2 ++ r.2)
  | .filter t :: ds =>
    (exprValue first c d t).bind fun e =>
      match m.filter with
      | some _ => .ok ((d, m), e.2 ++ [.measureFilterTwice])
      | none =>
        (readMeasureDetails first c k d { m with filter := some e.1 } ds).map fun r =>
          (r.1, e.2 ++ r.2)
  | .invocation id :: ds =>
    (readMeasureDetails first c k d { m with invocation := (Enum.readInvocation id).1 } ds).map
      fun r => (r.1, (if (Enum.readInvocation id).2 then [.enumerator] else []) ++ r.2)
  | .sort t by_ :: ds =>
    (readSortField first c d t by_).bind fun s =>
      (readMeasureDetails first c k d { m with sorts := m.sorts ++ [s.1] } ds).map fun r =>
        (r.1, s.2 ++ r.2)

/-- The measure at the end (794-801): `mutable_measure()` makes one if there is none. -/
def measureOf (m : MeasureState) : PbMeasure :=
  let f := if m.invocation = 0 then m.measure
    else some { m.measure.getD PbAggregate.empty with invocation := m.invocation }
  let g := if m.sorts.isEmpty then f
    else some { f.getD PbAggregate.empty with sorts := (f.getD PbAggregate.empty).sorts ++ m.sorts }
  ⟨g, m.filter⟩

/-- The number of the next measure; the symbols are told apart by it. -/
def measureCount : Body → Nat
  | .aggregate _ ms => ms.length
  | _ => 0

/-- `visitRelationMeasure` (760-822). -/
def readMeasure (first : Bool) (c : RelContext) (st : State) (ds : List MeasureDetail) : Step :=
  (readMeasureDetails first c (measureCount st.body) st.data ⟨none, none, 0, []⟩ ds).map fun r =>
    match st.body with
    | .aggregate gs ms =>
      ({ st with body := .aggregate gs (ms ++ [measureOf r.1.2]), data := r.1.1 }, r.2)
    | _ => ({ st with data := r.1.1 }, r.2 ++ [.kind])

/-- `visitRelationSort` (1081-1101): the field is visited in sort relations only. -/
def readSort (first : Bool) (c : RelContext) (st : State) (t : ExprTree) (by_ : Option Str) :
    Step :=
  match st.body with
  | .sort ss =>
    (readSortField first c st.data t by_).map fun r => ({ st with body := .sort (ss ++ [r.1]) }, r.2)
  | _ => .ok (st, [.kind])

/-- `number.i64()`: 0 for another literal. -/
def i64Of : PbLit → Int
  | .atom (.i64 v) _ => v
  | _ => 0

/-- `visitRelationCount` (1103-1126). -/
def readCount (c : RelContext) (st : State) (text : Str) : Step :=
  match st.body with
  | .fetch o _ =>
    (visitNumber c.expr.lib text (.scalar .i64 .required)).map fun r =>
      ({ st with body := .fetch o (i64Of r.1) }, r.2.map .count)
  | _ => .ok (st, [.kind])

/-- `visitRelationJoinType` (824-871). -/
def readJoinType (st : State) (id : Str) : Step :=
  match st.body with
  | .join _ e p =>
    .ok ({ st with body := .join (Enum.readJoin id).1 e p },
      if (Enum.readJoin id).2 then [.enumerator] else [])
  | _ => .ok (st, [.kind])

/-- `visitRelationDetail` (465-516) for the details other than `emit`. -/
def readDetail (first : Bool) (c : RelContext) (st : State) : Detail → Step
  | .common => .ok (st, [])
  | .schema id => readSchema c st id
  | .filter words e => readFilter first c st words e
  | .expression e named => readExpression first c st e named
  | .extension => .ok (st, [])
  | .source id => readSource c st id
  | .grouping e => readGrouping first c st e
  | .measure ds => readMeasure first c st ds
  | .sort e by_ => readSort first c st e by_
  | .count text => readCount c st text
  | .type id => readJoinType st id
  | .emit _ _ => .ok (st, [])

/-- The details in order (the first loop of `visitRelation`). -/
def readDetails (first : Bool) (c : RelContext) (st : State) : List Detail → Step
  | [] => .ok (st, [])
  | d :: ds =>
    (readDetail first c st d).bind fun r =>
      (readDetails first c r.1 ds).map fun s => (s.1, r.2 ++ s.2)

/-- `addExpressionsToSchema` (2121-2151, SubstraitPlanRelationVisitor.cpp:1973-2015).  `k` is
the number of the expression.  The first pass takes the name with that number, the second the
one with the number of fields generated so far.  A reference out of range adds no field. -/
def addExpressions (first : Bool) (c : RelContext) (names : List Str) (d : Schema.RelData)
    (k : Nat) : List PbExpr → Outcome Schema.RelData
  | [] => .ok d
  | .field (.field n _) _ :: es =>
    if Schema.asSize n < d.fields.length then
      (Schema.vecAt d.fields (Schema.asSize n)).bind fun f =>
        addExpressions first c names { d with generated := d.generated ++ [f] } (k + 1) es
    else addExpressions first c names d (k + 1) es
  | _ :: es =>
    let n := (names[if first then k else d.generated.length]?).getD []
    addExpressions first c names
      { d with generated := d.generated ++ [⟨.computed c.name k, n, [], none⟩] } (k + 1) es

/-- The fields a project adds; other relations add none here. -/
def addProject (first : Bool) (c : RelContext) (st : State) : Outcome State :=
  match st.body with
  | .project es => (addExpressions first c st.names st.data 0 es).map fun d => { st with data := d }
  | _ => .ok st

/-- `visitRelationEmit` (873-900) with `findFieldReferenceByName`: the first pass looks at the
relation itself only and reports nothing; the second counts a step for every relation it went
through, also if it found nothing. -/
def readEmit (first : Bool) (c : RelContext) (st : State) (name : Str) : State × List ReadErr :=
  if first then
    match Schema.findHere true st.data name with
    | some i => ({ st with emit := st.emit ++ [(i : Int)] }, [])
    | none => ({ st with emit := st.emit ++ [-1] }, [])
  else
    match Schema.find true (st.data :: c.outer) name with
    | some (0, i) => ({ st with emit := st.emit ++ [(i : Int)] }, [])
    | some (_ + 1, _) => (st, [.emitOuter])
    | none =>
      if c.outer.isEmpty then ({ st with emit := st.emit ++ [-1] }, [.emitColumn])
      else (st, [.emitColumn, .emitOuter])

/-- The second loop of `visitRelation`. -/
def readEmits (first : Bool) (c : RelContext) (st : State) : List Detail → State × List ReadErr
  | [] => (st, [])
  | .emit s n :: ds =>
    let r := readEmit first c st (ExprTree.column s n).text
    let q := readEmits first c r.1 ds
    (q.1, r.2 ++ q.2)
  | _ :: ds => readEmits first c st ds

/-- The end of `visitRelation` (447-462): the output of an aggregate, the output mapping
(C38) and the grouping set of an aggregate that has none. -/
def finish (st : State) : Step :=
  let d := if st.data.aggregate then
      { st.data with output := st.data.output ++ st.data.generated } else st.data
  (Schema.applyText d st.emit).map fun r =>
    let b := match st.body with
      | .aggregate [] ms => .aggregate [[]] ms
      | b => b
    ({ st with body := b, data := r.1 }, r.2.map .field)

/-- A relation in which nothing is set (`setRelationType`). -/
def emptyBody : Enum.RelType → Body
  | .read => .read none none none none false
  | .project => .project []
  | .join => .join 0 none none
  | .cross => .cross
  | .fetch => .fetch 0 0
  | .aggregate => .aggregate [] []
  | .sort => .sort []
  | .filter => .filter none
  | .set => .other

/-- The state at the start of a pass. -/
def startState (first : Bool) (c : RelContext) (k : Enum.RelType) (names : List Str) : State where
  body := emptyBody k
  emit := []
  data := ⟨k = .aggregate, if first then c.firstInputs else c.inputs, [], []⟩
  names := names

/-- `visitRelation` of one pass (SubstraitPlanRelationVisitor.cpp:339-410,
SubstraitPlanSubqueryRelationVisitor.cpp:395-463).  The first pass leaves the output of
relations in subqueries to the second. -/
def readPass (first : Bool) (c : RelContext) (k : Enum.RelType) (ds : List Detail)
    (names : List Str) : Step :=
  (readDetails first c (startState first c k names) ds).bind fun r =>
    (addProject first c r.1).bind fun s =>
      if first && c.inside then .ok (s, r.2)
      else
        let e := readEmits first c s ds
        (finish e.1).map fun f => (f.1, r.2 ++ e.2 ++ f.2)

/-- Both passes: the relation of the second, and the errors of both.  All relations of a plan
go through the first pass before the second starts. -/
def readTree (c : RelContext) (t : RelTree) : Outcome (PbRel × List ReadErr) :=
  match Enum.readRelationType t.type with
  | none => .ok (⟨.other, []⟩, [.type])
  | some k =>
    (readPass true c k t.details []).bind fun a =>
      (readPass false c k t.details a.1.names).map fun b => (⟨b.1.body, b.1.emit⟩, a.2 ++ b.2)

/-- The tree of a text that is one relation; `none` is a syntax error. -/
def parseText (text : Str) : Option RelTree :=
  (lex text).bind fun ts =>
    match parseRelation ts with
    | some (t, []) => some t
    | _ => none

/-- The relation read from a text. -/
def readText (c : RelContext) (text : Str) : Option (Outcome (PbRel × List ReadErr)) :=
  (parseText text).map (readTree c)

end Verif.Rel
