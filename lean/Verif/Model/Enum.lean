import Verif.Model.StringManipulation
import Verif.Model.Lexer

/-!
# Enumerations in text plans

Model of the tables of `src/substrait/proto/ProtoUtils.cpp` and of the printers and readers of
enumerators in `PlanPrinterVisitor.cpp` and `SubstraitPlanRelationVisitor.cpp` (the copies in
`SubstraitPlanSubqueryRelationVisitor.cpp:251-270, 824-871, 901-940, 2100-2119` are the same).

The fields are open enumerations: a plan can hold any 32-bit number, so enumerators are
numbers here.  The numbers of the enumerators come from the Substrait protobuf definitions,
which are not part of the repository (trusted, see DESIGN.md).
-/

namespace Verif.Enum

open Verif

/-! ## Names of the cases of relations -/

/-- ProtoUtils.cpp:8-12. -/
def planRelCaseNames : List Str := ["unknown".toList, "rel".toList, "root".toList]

/-- ProtoUtils.cpp:22-38. -/
def relCaseNames : List Str :=
  ["unknown".toList, "read".toList, "filter".toList, "fetch".toList, "aggregate".toList,
   "sort".toList, "join".toList, "project".toList, "set".toList, "extensionsingle".toList,
   "extensionmulti".toList, "extensionleaf".toList, "cross".toList, "hashjoin".toList,
   "mergejoin".toList]

/-- ProtoUtils.cpp:14-18 and 40-44.  The comparison converts the number to `size_t`, so
negative numbers are large; reading outside the table is undefined behaviour. -/
def caseName (names : List Str) (num : Int) : Outcome Str :=
  if (num % 18446744073709551616).toNat ≥ names.length then .ok "unknown".toList
  else match names[(num % 18446744073709551616).toNat]? with
    | some n => .ok n
    | none => .ub

/-- ProtoUtils.cpp:7-19. -/
def planRelTypeCaseName (num : Int) : Outcome Str := caseName planRelCaseNames num

/-- ProtoUtils.cpp:21-45. -/
def relTypeCaseName (num : Int) : Outcome Str := caseName relCaseNames num

/-- The relation types of the symbol table that can be written, SymbolTable.h. -/
inductive RelType where
  | read | project | join | cross | fetch | aggregate | sort | filter | set
  deriving DecidableEq, Repr

/-- SubstraitPlanVisitor.cpp:308-317. -/
def relationTypes : List (Str × RelType) :=
  [("read".toList, .read), ("project".toList, .project), ("join".toList, .join),
   ("cross".toList, .cross), ("fetch".toList, .fetch), ("aggregate".toList, .aggregate),
   ("sort".toList, .sort), ("filter".toList, .filter), ("set".toList, .set)]

/-- SubstraitPlanVisitor.cpp:302-325 `visitRelation_type`; `none` is the error. -/
def readRelationType (id : Str) : Option RelType :=
  (relationTypes.find? fun e => e.1 = id.map toLower).map (·.2)

/-! ## Printing -/

/-- What a printer does with an enumerator: a text, an error, or neither. -/
inductive Printed where
  | text (s : Str)
  | error
  | nothing
  deriving DecidableEq, Repr

/-- The `_Name` functions of protobuf: the empty text for an unknown number. -/
def protoName (names : List Str) (num : Int) : Str :=
  if 0 ≤ num then (names[num.toNat]?).getD [] else []

/-- `JoinRel_JoinType`. -/
def joinNames : List Str :=
  ["JOIN_TYPE_UNSPECIFIED".toList, "JOIN_TYPE_INNER".toList, "JOIN_TYPE_OUTER".toList,
   "JOIN_TYPE_LEFT".toList, "JOIN_TYPE_RIGHT".toList, "JOIN_TYPE_SEMI".toList,
   "JOIN_TYPE_ANTI".toList, "JOIN_TYPE_SINGLE".toList]

/-- PlanPrinterVisitor.cpp:1192-1194. -/
def printJoin (num : Int) : Printed := .text (protoName joinNames num)

/-- `AggregationPhase`. -/
def phaseNames : List Str :=
  ["AGGREGATION_PHASE_UNSPECIFIED".toList, "AGGREGATION_PHASE_INITIAL_TO_INTERMEDIATE".toList,
   "AGGREGATION_PHASE_INTERMEDIATE_TO_INTERMEDIATE".toList,
   "AGGREGATION_PHASE_INITIAL_TO_RESULT".toList,
   "AGGREGATION_PHASE_INTERMEDIATE_TO_RESULT".toList]

/-- PlanPrinterVisitor.cpp:951. -/
def printPhase (num : Int) : Printed := .text (protoName phaseNames num)

/-- PlanPrinterVisitor.cpp:46-67 and 1099-1105: nothing for the enumerator 0. -/
def printInvocation (num : Int) : Printed :=
  if num = 0 then .nothing
  else if num = 1 then .text "all".toList
  else if num = 2 then .text "distinct".toList
  else .text "unspecified".toList

/-- PlanPrinterVisitor.cpp:1117-1144: nothing for the enumerator 0 and unknown numbers. -/
def printDirection (num : Int) : Printed :=
  if num = 1 then .text "ASC_NULLS_FIRST".toList
  else if num = 2 then .text "ASC_NULLS_LAST".toList
  else if num = 3 then .text "DESC_NULLS_FIRST".toList
  else if num = 4 then .text "DESC_NULLS_LAST".toList
  else if num = 5 then .text "CLUSTERED".toList
  else .nothing

/-- `INT_MIN` and `INT_MAX` are named in the switches. -/
def isSentinel (num : Int) : Bool := num = -2147483648 ∨ num = 2147483647

/-- PlanPrinterVisitor.cpp:375-408: no `default`, so nothing for unknown numbers. -/
def printComparison (num : Int) : Printed :=
  if num = 1 then .text "EQ".toList
  else if num = 2 then .text "NE".toList
  else if num = 3 then .text "LT".toList
  else if num = 4 then .text "GT".toList
  else if num = 5 then .text "LE".toList
  else if num = 6 then .text "GE".toList
  else if num = 0 ∨ isSentinel num then .error
  else .nothing

/-- PlanPrinterVisitor.cpp:409-427. -/
def printReduction (num : Int) : Printed :=
  if num = 1 then .text "ANY".toList
  else if num = 2 then .text "ALL".toList
  else if num = 0 ∨ isSentinel num then .error
  else .nothing

/-- PlanPrinterVisitor.cpp:327-346. -/
def printPredicate (num : Int) : Printed :=
  if num = 1 then .text "EXISTS".toList
  else if num = 2 then .text "UNIQUE".toList
  else if num = 0 ∨ isSentinel num then .error
  else .nothing

/-! ## Reading -/

/-- SubstraitPlanRelationVisitor.cpp:253-272 `normalizeProtoEnum`.  `std::isalpha` in the "C"
locale. -/
def normalize (text pre : Str) : Str :=
  let r := (text.filter Lex.isLetter).map toLower
  if StringManipulation.startsWith r pre then r.drop pre.length else r

/-- The enumerator and whether an error is reported. -/
abbrev ReadEnum := Int × Bool

/-- A chain of comparisons with a last branch. -/
def chain (names : List (Str × Int)) (text : Str) (last : ReadEnum) : ReadEnum :=
  match names.find? fun e => e.1 = text with
  | some e => (e.2, false)
  | none => last

def joinTable : List (Str × Int) :=
  [("unspecified".toList, 0), ("inner".toList, 1), ("outer".toList, 2), ("left".toList, 3),
   ("right".toList, 4), ("semi".toList, 5), ("anti".toList, 6), ("single".toList, 7)]

/-- SubstraitPlanRelationVisitor.cpp:782-811: the enumerator 0 is reported even if it was
asked for. -/
def readJoin (text : Str) : ReadEnum :=
  let r := chain joinTable (normalize text "jointype".toList) (0, false)
  (r.1, r.1 = 0)

def invocationTable : List (Str × Int) :=
  [("unspecified".toList, 0), ("all".toList, 1), ("distinct".toList, 2)]

/-- SubstraitPlanRelationVisitor.cpp:852-870. -/
def readInvocation (text : Str) : ReadEnum :=
  chain invocationTable (normalize text "aggregationinvocation".toList) (0, true)

def phaseTable : List (Str × Int) :=
  [("unspecified".toList, 0), ("initialtointermediate".toList, 1),
   ("intermediatetointermediate".toList, 2), ("initialtoresult".toList, 3),
   ("intermediatetoresult".toList, 4)]

/-- SubstraitPlanRelationVisitor.cpp:872-890. -/
def readPhase (text : Str) : ReadEnum :=
  chain phaseTable (normalize text "aggregationphase".toList) (0, true)

def directionTable : List (Str × Int) :=
  [("unspecified".toList, 0), ("ascnullsfirst".toList, 1), ("ascnullslast".toList, 2),
   ("descnullsfirst".toList, 3), ("descnullslast".toList, 4), ("clustered".toList, 5)]

/-- SubstraitPlanRelationVisitor.cpp:1952-1971. -/
def readDirection (text : Str) : ReadEnum :=
  chain directionTable (normalize text "sortdirection".toList) (0, true)

def comparisonTable : List (Str × Int) :=
  [("le".toList, 5), ("ge".toList, 6), ("eq".toList, 1), ("ne".toList, 2), ("lt".toList, 3),
   ("gt".toList, 4)]

/-- SubstraitPlanSubqueryRelationVisitor.cpp:342-372 `comparisonToProto`. -/
def readComparison (text : Str) : Int := (chain comparisonTable (text.map toLower) (0, false)).1

/-- SubstraitPlanSubqueryRelationVisitor.cpp:1372-1380, by the kind of the token. -/
def readReduction (k : Lex.Tk) : Int := if k = .any then 1 else 2

/-- SubstraitPlanSubqueryRelationVisitor.cpp:1350-1361. -/
def readPredicate (k : Lex.Tk) : ReadEnum :=
  if k = .exists then (1, false) else if k = .unique then (2, false) else (0, true)

end Verif.Enum
