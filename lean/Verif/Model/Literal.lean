import Verif.Model.TypeProto
import Verif.Model.StringLiteral
import Verif.Model.Decimal
import Verif.Model.Date
import Verif.Model.Parser

/-!
Model of literals in text plans: `PlanPrinterVisitor::visitLiteral`
(src/substrait/textplan/PlanPrinterVisitor.cpp:572-665) and `visitConstant` with its helpers
(src/substrait/textplan/parser/SubstraitPlanRelationVisitor.cpp:1262-1938; the copy in
SubstraitPlanSubqueryRelationVisitor.cpp:1406-2083 differs only in line breaks).
-/

namespace Verif.Literal

open Verif Verif.Ty Verif.TyPb Verif.Tree

/-- The library functions on floating point numbers, times and time zones.  Floating point
numbers are given by their bits. -/
structure Lib where
  /-- `std::ostream << float` with the default precision. -/
  print32 : UInt32 → Str
  /-- `std::ostream << double` with the default precision. -/
  print64 : UInt64 → Str
  /-- `std::stof`. -/
  read32 : Str → Outcome UInt32
  /-- `std::stod`. -/
  read64 : Str → Outcome UInt64
  /-- `date::parse("%Y-%m-%d %H:%M:%S")` into `sys_seconds`; `none` is a failed stream. -/
  timestamp : Str → Option Int
  /-- `date::parse("%Y-%m-%d %H:%M:%S %Z")`: `none` is a failed stream, `some none` an
  exception while the zone was looked up or the time converted. -/
  timestampTz : Str → Option (Option Int)
  /-- `date::parse("%H:%M:%S")` and then `date::parse("%H:%M")`. -/
  time : Str → Option Int

/-- The kinds of `Expression.Literal` without literals inside.  Integers are the values of
32-bit and 64-bit fields. -/
inductive Atom where
  | notSet
  | boolean (b : Bool)
  | i8 (v : Int)
  | i16 (v : Int)
  | i32 (v : Int)
  | i64 (v : Int)
  | fp32 (bits : UInt32)
  | fp64 (bits : UInt64)
  | date (days : Int)
  | string (s : Str)
  | binary (s : Str)
  | timestamp (v : Int)
  | time (v : Int)
  | timestampTz (v : Int)
  | intervalYear (years months : Int)
  | intervalDay (days seconds microseconds : Int)
  | fixedChar (s : Str)
  | varChar (s : Str) (length : Int)
  | fixedBinary (s : Str)
  | decimal (d : Decimal.Proto)
  | uuid (s : Str)
  | null (t : PbType)
  | emptyList (element : PbType) (n : Nullability)
  | emptyMap (key value : PbType) (n : Nullability)
  | userDefined

/-- The message `Expression.Literal`.  The type variation reference is left out (no code here
reads or writes it). -/
inductive PbLit where
  | atom (a : Atom) (nullable : Bool)
  | struct (fields : List PbLit) (nullable : Bool)
  | list (values : List PbLit) (nullable : Bool)
  | map (keys values : List PbLit) (nullable : Bool)

/-! ## Printing -/

/-- The errors `visitLiteral` reports. -/
inductive LitPrintErr where
  /-- "Literal of this type not yet supported: ..." -/
  | unsupported
  /-- "Type not specified in literal: ..." -/
  | notSet
  deriving DecidableEq, Repr

/-- A quoted string, PlanPrinterVisitor.cpp:608, 635, 641. -/
def quotedText (s : Str) : Str := '"' :: StrLit.stringEscape s ++ ['"']

/-- PlanPrinterVisitor.cpp:576-661: the text without the question mark; `none` for the kinds
that are not supported. -/
def atomText (lib : Lib) : Atom → Option Str
  | .boolean b => some (if b then ['1'] else ['0'])
  | .i8 v => some (intText v ++ "_i8".toList)
  | .i16 v => some (intText v ++ "_i16".toList)
  | .i32 v => some (intText v ++ "_i32".toList)
  | .i64 v => some (intText v ++ "_i64".toList)
  | .fp32 v => some (lib.print32 v ++ "_fp32".toList)
  | .fp64 v => some (lib.print64 v ++ "_fp64".toList)
  | .date v => some ('"' :: Date.dateText v ++ "\"_date".toList)
  | .string s => some (quotedText s ++ "_string".toList)
  | .intervalYear y m =>
    some ('{' :: intText y ++ "_years, ".toList ++ intText m ++ "_months}_interval_year".toList)
  | .intervalDay d s u =>
    some ('{' :: intText d ++ "_days, ".toList ++ intText s ++ "_seconds, ".toList ++ intText u ++
      "_microseconds}_interval_day".toList)
  | .fixedChar s => some (quotedText s ++ "_fixedchar<".toList ++ natText s.length ++ ['>'])
  | .varChar s l => some (quotedText s ++ "_varchar<".toList ++ intText l ++ ['>'])
  | .decimal d =>
    some ((Decimal.fromProto d).toBaseString ++ "_decimal<".toList ++ intText d.precision ++
      ',' :: intText d.scale ++ ['>'])
  | _ => none

/-- PlanPrinterVisitor.cpp:572-665 `visitLiteral`: the text and the errors reported. -/
def printLiteral (lib : Lib) : PbLit → Str × List LitPrintErr
  | .atom .notSet _ => ("UNSPECIFIED_LITERAL_TYPE".toList, [.notSet])
  | .atom a nullable =>
    match atomText lib a with
    | some t => (if nullable then t ++ ['?'] else t, [])
    | none => ("UNSUPPORTED_LITERAL_TYPE".toList, [.unsupported])
  | _ => ("UNSUPPORTED_LITERAL_TYPE".toList, [.unsupported])

/-! ## Reading -/

/-- The errors the reader reports for literals. -/
inductive LitErr where
  /-- An error of the type, SubstraitPlanTypeVisitor.cpp. -/
  | type (e : TypeErr)
  /-- "Null literals require type." -/
  | nullType
  /-- "Literals should include a type." -/
  | noType
  /-- "Provided value does not match the provided type." -/
  | mismatch
  /-- "Unsupported type ..." -/
  | unsupportedType
  /-- "The number of fields does not match the number of types in this struct." -/
  | fieldCount
  /-- "Unknown slash escape sequence.", with the position in the text. -/
  | escape (position : Nat)
  /-- The two errors for UUIDs. -/
  | uuid (e : StrLit.UuidError)
  /-- "Unexpected string type: ..." -/
  | stringType
  /-- "Could not parse as a numeric literal." -/
  | number
  /-- "Could not parse literal as decimal." -/
  | decimal
  /-- "Lists only accept literals separated by commas." -/
  | listPairs
  /-- "Map literals require pairs of values separated by colons." -/
  | mapPairs
  /-- "Could not parse timestamp." -/
  | timestamp
  /-- "Could not parse timestamp with timezone." -/
  | timestampTz
  /-- "Failed to locate timezone in the TZ database." -/
  | zone
  /-- "Could not parse date." -/
  | date
  /-- "Could not parse time." -/
  | time
  deriving DecidableEq, Repr

/-- A literal and the errors reported. -/
abbrev Read := PbLit × List LitErr

/-- The empty message. -/
def empty : PbLit := .atom .notSet false

/-- SubstraitPlanRelationVisitor.cpp:52-155 `setNullable`. -/
def setNullable : PbType → PbType
  | .notSet => .notSet
  | .other => .other
  | .scalar k _ => .scalar k .nullable
  | .fixedChar l _ => .fixedChar l .nullable
  | .varchar l _ => .varchar l .nullable
  | .fixedBinary l _ => .fixedBinary l .nullable
  | .decimal p s _ => .decimal p s .nullable
  | .struct ts _ => .struct ts .nullable
  | .list e _ => .list e .nullable
  | .map k v _ => .map k v .nullable

/-- The `catch (...)` of `visitNumber`, SubstraitPlanRelationVisitor.cpp:1732-1735. -/
def orNumberError {α : Type} (f : α → PbLit) : Outcome α → Outcome Read
  | .ok v => .ok (f v, [])
  | .throw _ => .ok (empty, [.number])
  | .ub => .ub

/-- `std::stol`: `long` has 64 bits. -/
def stol64 (s : Str) : Outcome Int := stoBound 9223372036854775807 s

/-- SubstraitPlanRelationVisitor.cpp:1651-1738 `visitNumber`.  The types it does not know
give the empty message without an error (:1729-1730). -/
def visitNumber (lib : Lib) (text : Str) : PbType → Outcome Read
  | .scalar .i8 n => orNumberError (fun v => .atom (.i8 v) (n = .nullable)) (stoi32 text)
  | .scalar .i16 n => orNumberError (fun v => .atom (.i16 v) (n = .nullable)) (stoi32 text)
  | .scalar .i32 n => orNumberError (fun v => .atom (.i32 v) (n = .nullable)) (stoi32 text)
  | .scalar .i64 n => orNumberError (fun v => .atom (.i64 v) (n = .nullable)) (stol64 text)
  | .scalar .fp32 n => orNumberError (fun v => .atom (.fp32 v) (n = .nullable)) (lib.read32 text)
  | .scalar .fp64 n => orNumberError (fun v => .atom (.fp64 v) (n = .nullable)) (lib.read64 text)
  | .decimal p s n =>
    let d := Decimal.fromString text p s
    if d.isValid then .ok (.atom (.decimal d.toProto) (n = .nullable), [])
    else .ok (empty, [.decimal])
  | _ => .ok (empty, [])

/-- SubstraitPlanRelationVisitor.cpp:1494-1558: the literal for the text of a string. -/
def stringLiteral (s : Str) : PbType → Read
  | .scalar .string _ => (.atom (.string s) false, [])
  | .fixedChar _ _ => (.atom (.fixedChar s) false, [])
  | .varchar l _ => (.atom (.varChar s l) false, [])
  | .scalar .binary _ => (.atom (.binary s) false, [])
  | .fixedBinary _ _ => (.atom (.fixedBinary s) false, [])
  | .scalar .uuid _ =>
    let u := StrLit.uuidValue s
    (.atom (.uuid u.1) false, match u.2 with
      | some e => [.uuid e]
      | none => [])
  | .scalar .timestampTz _ | .scalar .timestamp _ | .scalar .date _ | .scalar .time _ =>
    (.atom (.string s) false, [])
  | .notSet => (empty, [])
  | _ => (empty, [.stringType])

/-- SubstraitPlanRelationVisitor.cpp:1466-1561 `visitString`. -/
def visitString (text : Str) (ty : PbType) : Outcome Read :=
  (StrLit.stringText text).bind fun r =>
    let l := stringLiteral r.1 ty
    .ok (l.1, r.2.map .escape ++ l.2)

/-- The text of a string and the errors of its escapes, as `visitString` leaves it for the
functions on times. -/
def plainString (text : Str) : Outcome (Str × List LitErr) :=
  (StrLit.stringText text).bind fun r => .ok (r.1, r.2.map .escape)

/-- SubstraitPlanRelationVisitor.cpp:1844-1863 `visitTimestamp`. -/
def visitTimestamp (lib : Lib) (text : Str) : Outcome Read :=
  (plainString text).bind fun r =>
    match lib.timestamp r.1 with
    | some v => .ok (.atom (.timestamp v) false, r.2)
    | none => .ok (empty, r.2 ++ [.timestamp])

/-- SubstraitPlanRelationVisitor.cpp:1865-1893 `visitTimestampTz`. -/
def visitTimestampTz (lib : Lib) (text : Str) : Outcome Read :=
  (plainString text).bind fun r =>
    match lib.timestampTz r.1 with
    | some (some v) => .ok (.atom (.timestampTz v) false, r.2)
    | some none => .ok (empty, r.2 ++ [.zone])
    | none => .ok (empty, r.2 ++ [.timestampTz])

/-- SubstraitPlanRelationVisitor.cpp:1895-1914 `visitDate`. -/
def visitDate (text : Str) : Outcome Read :=
  (plainString text).bind fun r =>
    match Date.parseDate r.1 with
    | some v => .ok (.atom (.date v) false, r.2)
    | none => .ok (empty, r.2 ++ [.date])

/-- SubstraitPlanRelationVisitor.cpp:1916-1938 `visitTime`. -/
def visitTime (lib : Lib) (text : Str) : Outcome Read :=
  (plainString text).bind fun r =>
    match lib.time r.1 with
    | some v => .ok (.atom (.time v) false, r.2)
    | none => .ok (empty, r.2 ++ [.time])

/-- SubstraitPlanRelationVisitor.cpp:1348-1364: a string with a type. -/
def typedString (lib : Lib) (text : Str) (ty : PbType) : Outcome Read :=
  match ty with
  | .scalar .timestamp _ => visitTimestamp lib text
  | .scalar .timestampTz _ => visitTimestampTz lib text
  | .scalar .date _ => visitDate text
  | .scalar .time _ => visitTime lib text
  | _ => visitString text ty

/-- The field `i32` of a literal. -/
def i32Of : PbLit → Int
  | .atom (.i32 v) _ => v
  | _ => 0

/-- `literal.struct_().fields(i).i32()`: a position after the end is undefined behaviour. -/
def fieldI32 (fields : List PbLit) (i : Nat) : Outcome Int :=
  match fields[i]? with
  | some l => .ok (i32Of l)
  | none => .ub

/-- SubstraitPlanRelationVisitor.cpp:1807-1822, after the struct has been read. -/
def intervalYear (fields : List PbLit) : Outcome PbLit :=
  (fieldI32 fields 0).bind fun y => (fieldI32 fields 1).bind fun m =>
    .ok (.atom (.intervalYear y m) false)

/-- SubstraitPlanRelationVisitor.cpp:1824-1842, after the struct has been read. -/
def intervalDay (fields : List PbLit) : Outcome PbLit :=
  (fieldI32 fields 0).bind fun d => (fieldI32 fields 1).bind fun s =>
    (fieldI32 fields 2).bind fun u => .ok (.atom (.intervalDay d s u) false)

/-- The types of the fields of an interval, SubstraitPlanRelationVisitor.cpp:1810-1812 and
1827-1830. -/
def i32Types (n : Nat) : List PbType := List.replicate n (.scalar .i32 .unspecified)

/-- The type a constant is read with: the one handed over, or the one written behind it
(SubstraitPlanRelationVisitor.cpp:1265-1274); `none` if there is neither. -/
def typeFor (inside : Bool) (ext : Option PbType) (own : Option TypeTree) :
    Outcome (Option PbType × List LitErr) :=
  match ext, own with
  | some t, _ => .ok (some t, [])
  | none, some tree => (textToTypeProto inside tree.text).map fun r => (some r.1, r.2.map .type)
  | none, none => .ok (none, [])

/-- Run with the errors of the type in front. -/
def after (errs : List LitErr) (o : Outcome Read) : Outcome Read := o.map fun r => (r.1, errs ++ r.2)

/-- Run in order; the literals and all the errors. -/
def collect : List (Outcome Read) → Outcome (List PbLit × List LitErr)
  | [] => .ok ([], [])
  | o :: os => o.bind fun a => (collect os).map fun b => (a.1 :: b.1, a.2 ++ b.2)

/-- Alternately the elements of two lists. -/
def interleave {α : Type} : List α → List α → List α
  | a :: as, b :: bs => a :: b :: interleave as bs
  | _, _ => []

/-- The pairs of a list of keys and values. -/
def unpair {α : Type} : List α → List α × List α
  | a :: b :: r => (a :: (unpair r).1, b :: (unpair r).2)
  | _ => ([], [])

/-- SubstraitPlanRelationVisitor.cpp:1442-1464 `visitStructLiteralWithType`, with the results
for the fields that have a type. -/
def structOf (types items : Nat) (fields : List (Outcome Read)) : Outcome (List PbLit × List LitErr) :=
  (collect fields).map fun r =>
    (r.1, r.2 ++ if items = 0 ∨ items = types then [] else [.fieldCount])

/-- A struct or a list: no field makes the message empty. -/
def unlessEmpty (f : List PbLit → PbLit) (fields : List PbLit) : PbLit :=
  if fields.isEmpty then empty else f fields

mutual
/-- SubstraitPlanRelationVisitor.cpp:1262-1294 `visitConstant` (`ext = none`) and 1340-1412
`visitConstantWithType` (`ext = some type`).  `inside` tells whether the constant is inside a
struct literal (SubstraitPlanTypeVisitor.cpp:189-202).  `visitStruct` (1789-1805) takes any
map literal for an empty struct, so an interval written as one has no fields to read. -/
def visitConst (lib : Lib) (inside : Bool) (ext : Option PbType) : ConstTree → Outcome Read
  | .number text own =>
    (typeFor inside ext own).bind fun t =>
      match t.1 with
      | some ty => after t.2 (visitNumber lib text ty)
      | none => .ok (empty, [.noType])
  | .string text own =>
    (typeFor inside ext own).bind fun t =>
      match t.1 with
      | some ty => after t.2 (typedString lib text ty)
      | none => visitString text (.scalar .string .unspecified)
  | .bool b _ own =>
    (typeFor inside ext own).bind fun t =>
      match t.1 with
      | some (.scalar .bool _) => .ok (.atom (.boolean b) false, t.2)
      | some _ => .ok (empty, t.2 ++ [.mismatch])
      | none => .ok (.atom (.boolean b) false, [])
  | .null _ own =>
    (typeFor inside ext own).bind fun t =>
      match t.1 with
      | some ty => .ok (.atom (.null (setNullable ty)) false, t.2)
      | none => .ok (empty, [.nullType])
  | .structLit items own =>
    (typeFor true ext own).bind fun t =>
      match t.1 with
      | some (.struct types _) =>
        after t.2 ((structOf types.length items.length
          (visitEach lib true (types.map some) items)).map fun r =>
            (unlessEmpty (.struct · false) r.1, r.2))
      | some (.list e _) =>
        after t.2 ((collect (visitEach lib true (List.replicate items.length (some e)) items)).map
          fun r => (unlessEmpty (.list · false) r.1, r.2))
      | some (.map k v n) => .ok (.atom (.emptyMap k v n) false, t.2 ++ [.mapPairs])
      | some (.scalar .intervalYear _) =>
        (structOf 2 items.length (visitEach lib true ((i32Types 2).map some) items)).bind fun r =>
          (intervalYear r.1).map fun l => (l, t.2 ++ r.2)
      | some (.scalar .intervalDay _) =>
        (structOf 3 items.length (visitEach lib true ((i32Types 3).map some) items)).bind fun r =>
          (intervalDay r.1).map fun l => (l, t.2 ++ r.2)
      | some _ => .ok (empty, t.2 ++ [.unsupportedType])
      | none => .ok (empty, [.noType])
  | .mapLit keys values own =>
    (typeFor inside ext own).bind fun t =>
      match t.1 with
      | some (.struct _ _) => .ok (.struct [] false, t.2)
      | some (.list e n) =>
        (collect (interleave (visitEach lib inside (List.replicate keys.length none) keys)
          (visitEach lib inside (List.replicate values.length none) values))).map fun r =>
            (.atom (.emptyList e n) false,
              t.2 ++ r.2 ++ if keys.isEmpty then [] else [.listPairs])
      | some (.map k v n) =>
        if keys.isEmpty then .ok (.atom (.emptyMap k v n) false, t.2)
        else
          (collect (interleave (visitEach lib inside (List.replicate keys.length (some k)) keys)
            (visitEach lib inside (List.replicate values.length (some v)) values))).map fun r =>
              (.map (unpair r.1).1 (unpair r.1).2 false, t.2 ++ r.2)
      | some (.scalar .intervalYear _) => (intervalYear []).map fun l => (l, t.2)
      | some (.scalar .intervalDay _) => (intervalDay []).map fun l => (l, t.2)
      | some _ => .ok (empty, t.2 ++ [.unsupportedType])
      | none => .ok (empty, [.noType])
/-- The constants of a list, each with the type handed over for it. -/
def visitEach (lib : Lib) (inside : Bool) :
    List (Option PbType) → List ConstTree → List (Outcome Read)
  | e :: es, c :: cs => visitConst lib inside e c :: visitEach lib inside es cs
  | _, _ => []
end

/-- A constant written as the expression of a relation (SubstraitPlanParser.g4:73-97): its
tree, or `none` for a syntax error and for other expressions. -/
def parseLiteral (text : Str) : Option ConstTree :=
  (Lex.lex (text ++ [';'])).bind fun ts =>
    match Parse.exprOf ts with
    | some (.const c, [t]) => if t.kind = .semicolon then some c else none
    | _ => none

/-- The same, read by `visitConstant`. -/
def readLiteral (lib : Lib) (text : Str) : Option (Outcome Read) :=
  (parseLiteral text).map (visitConst lib false none)

end Verif.Literal
