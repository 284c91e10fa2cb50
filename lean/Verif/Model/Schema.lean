import Verif.Model.Basic

/-!
# Fields of relations: schemas, output mappings and names of fields

Models the `fieldReferences`, `generatedFieldReferences` and `outputFieldReferences` of a
`RelationData` (textplan/StructuredSymbolData.h 37-59), as computed from a binary plan
(textplan/converter/InitialPlanProtoVisitor.cpp) and from a text plan
(textplan/parser/SubstraitPlanSubqueryRelationVisitor.cpp, the pass whose result is kept; the
first pass in SubstraitPlanRelationVisitor.cpp has the same functions), and how the printer
(textplan/PlanPrinterVisitor.cpp) and the parser go from field numbers to names and back.
-/

namespace Verif.Schema

open Verif

/-- What a field stands for: column `k` of a `read`, the value of expression `k` of a
`project`, or measure `k` of an `aggregate`.  This replaces the address of the `SymbolInfo`
as the identity of a field. -/
inductive Origin where
  | column (rel : Str) (k : Nat)
  | computed (rel : Str) (k : Nat)
  | measure (rel : Str) (k : Nat)
  deriving DecidableEq, Repr

/-- The symbol of a field (textplan/SymbolTable.h 83-118).  `schema` is the name of the schema
the field belongs to: `symbol->schema->name` in the converter's tables, the schema symbol with
the same location in the parser's (SubstraitPlanSubqueryRelationVisitor.cpp 2153-2165). -/
structure Field where
  id : Origin
  name : Str
  alias : Str
  schema : Option Str
  deriving DecidableEq, Repr

/-- The part of `RelationData` that concerns fields, and whether the relation is an
aggregate. -/
structure RelData where
  aggregate : Bool
  fields : List Field
  generated : List Field
  output : List Field
  deriving DecidableEq, Repr

/-- The fields other relations see: addInputFieldsToSchema
(SubstraitPlanSubqueryRelationVisitor.cpp 272-310, SubstraitPlanRelationVisitor.cpp 274-312)
and addFieldsToRelation (InitialPlanProtoVisitor.cpp 421-444). -/
def exposed (d : RelData) : List Field :=
  if d.output.isEmpty then d.fields ++ d.generated else d.output

/-- The fields of the inputs, in the order of the inputs: same functions. -/
def inputFields (ins : List RelData) : List Field := ins.flatMap exposed

/-- Conversion of an `int32_t` to `size_t` in comparisons such as
`mapping < fieldReferences.size()`. -/
def asSize (i : Int) : Nat := (i % 2 ^ 64).toNat

/-- `std::vector::operator[]`: undefined beyond the end. -/
def vecAt (l : List Field) (n : Nat) : Outcome Field :=
  match l[n]? with
  | some f => .ok f
  | none => .ub

/-- Result of working through a list of field numbers: the fields found, and the numbers that
were reported as errors. -/
abbrev Picked := List Field × List Int

/-- One step of the loop over the mapping of an aggregate:
applyOutputMappingToSchema (SubstraitPlanSubqueryRelationVisitor.cpp 2251-2261) with `old` the
previous output, updateLocalSchema (InitialPlanProtoVisitor.cpp 637-647) with `old` the
generated fields. -/
def pickGenerated (old : List Field) (i : Int) (r : Picked) : Outcome Picked :=
  if asSize i < old.length then
    (vecAt old (asSize i)).bind fun f => .ok (r.1 ++ [f], r.2)
  else .ok (r.1, r.2 ++ [i])

/-- One step of the loop over the mapping of any other relation:
applyOutputMappingToSchema (2264-2283) and updateLocalSchema (650-665). -/
def pickAny (fs gs : List Field) (i : Int) (r : Picked) : Outcome Picked :=
  if asSize i < fs.length then
    (vecAt fs (asSize i)).bind fun f => .ok (r.1 ++ [f], r.2)
  else if asSize i < fs.length + gs.length then
    (vecAt gs (asSize i - fs.length)).bind fun f => .ok (r.1 ++ [f], r.2)
  else .ok (r.1, r.2 ++ [i])

/-- A loop that adds to a `Picked`. -/
def pickAll (step : Int → Picked → Outcome Picked) : List Int → Picked → Outcome Picked
  | [], r => .ok r
  | i :: is, r => (step i r).bind (pickAll step is)

/-- applyOutputMappingToSchema (SubstraitPlanSubqueryRelationVisitor.cpp 2237-2286).  An empty
mapping leaves the schema alone (the `emit` is replaced by `direct`).  Every relation type that
can be written has a `common` part, so the test for a missing one is left out. -/
def applyText (d : RelData) (mapping : List Int) : Outcome (RelData × List Int) :=
  if mapping.isEmpty then .ok (d, [])
  else if d.aggregate then
    (pickAll (pickGenerated d.output) mapping ([], [])).bind fun r =>
      .ok ({ d with output := r.1 }, r.2)
  else
    (pickAll (pickAny d.fields d.generated) mapping (d.output, [])).bind fun r =>
      .ok ({ d with output := r.1 }, r.2)

/-- The end of updateLocalSchema (InitialPlanProtoVisitor.cpp 629-666). -/
def applyBinary (d : RelData) (mapping : List Int) : Outcome (RelData × List Int) :=
  if mapping.isEmpty then .ok (d, [])
  else if d.aggregate then
    (pickAll (pickGenerated d.generated) mapping ([], [])).bind fun r =>
      .ok ({ d with output := r.1 }, r.2)
  else
    (pickAll (pickAny d.fields d.generated) mapping (d.output, [])).bind fun r =>
      .ok ({ d with output := r.1 }, r.2)

/-! ## From numbers to names: the printer -/

/-- The name printed for a field: the end of lookupFieldReference and of
lookupFieldReferenceForEmit (PlanPrinterVisitor.cpp 184-189, 249-254) with
`needFullyQualified`, which all callers set. -/
def nameOf (f : Field) : Str :=
  if f.alias.isEmpty then
    match f.schema with
    | some s => s ++ '.' :: f.name
    | none => f.name
  else f.alias

/-- lookupFieldReference (PlanPrinterVisitor.cpp 136-190).  The scopes are the relation itself
and then those it is a subquery of; `none` stands for an error report, after which
`field#<number>` is printed.  The field number is unsigned there. -/
def lookup : List RelData → (steps idx : Nat) → Option Str
  | [], _, _ => none
  | _ :: outer, steps + 1, idx => lookup outer steps idx
  | d :: _, 0, idx => ((d.fields ++ d.generated)[idx]?).map nameOf

/-- lookupFieldReferenceForEmit (PlanPrinterVisitor.cpp 192-255); it is always called with no
steps out. -/
def lookupEmit (d : RelData) (idx : Nat) : Option Str :=
  if d.aggregate then (d.generated[idx]?).map nameOf
  else ((d.fields ++ d.generated)[idx]?).map nameOf

/-! ## From names to numbers: the parser -/

/-- The test in the first search of findFieldReferenceByName
(SubstraitPlanSubqueryRelationVisitor.cpp 2178-2183). -/
def refers (n : Str) (f : Field) : Bool :=
  (!f.alias.isEmpty && f.alias == n) || f.name == n

/-- fullyQualifiedReference (SubstraitPlanSubqueryRelationVisitor.cpp 2153-2165). -/
def qualified (f : Field) : Str :=
  match f.schema with
  | some s => s ++ '.' :: f.name
  | none => f.name

/-- The test in the second search (2197-2204). -/
def refersFull (n : Str) (f : Field) : Bool := refers n f || qualified f == n

/-- `std::find_if` over `rbegin() .. rend()`: how far from the back the first hit is. -/
def findBack (p : Field → Bool) (l : List Field) : Option Nat := l.reverse.findIdx? p

/-- `static_cast<int32_t>(n & std::numeric_limits<int32_t>::max())` for a `size_t` that was
computed with wrap-around. -/
def mask (n : Int) : Nat := (n % 2 ^ 64).toNat % 2 ^ 31

/-- The searches of findFieldReferenceByName in one relation
(SubstraitPlanSubqueryRelationVisitor.cpp 2167-2214, SubstraitPlanRelationVisitor.cpp
2030-2074); `emit` says that an `emit` is being processed. -/
def findHere (emit : Bool) (d : RelData) (n : Str) : Option Nat :=
  let size : Int := if d.aggregate && emit then 0 else d.fields.length
  match findBack (refers n) d.generated with
  | some p => some (mask (size + d.generated.length - p - 1))
  | none =>
    match findBack (refersFull n) d.fields with
    | some p => some (mask (size - p - 1))
    | none => none

/-- findFieldReferenceByName (SubstraitPlanSubqueryRelationVisitor.cpp 2167-2235): the number
of steps out and the field number; `none` is an error report.  The scopes are as in
`lookup`. -/
def find (emit : Bool) : List RelData → Str → Option (Nat × Nat)
  | [], _ => none
  | d :: outer, n =>
    match findHere emit d n with
    | some i => some (0, i)
    | none => (find emit outer n).map fun r => (r.1 + 1, r.2)

/-! ## Relation trees

The schemas of a whole tree.  An expression is reduced to the fields it refers to. -/

/-- An expression: a reference to a field, or anything else with the field references in it
from left to right.  Outer references are left out at this level. -/
inductive Item where
  | ref (i : Int)
  | other (refs : List Int)
  deriving DecidableEq, Repr

/-- What a relation does to its fields, in a binary plan. -/
inductive Op where
  /-- `read` with the columns of its base schema. -/
  | read (schema : Str) (columns : List Str)
  /-- `filter`, `sort` and `fetch`, with the references in their expressions. -/
  | pass (refs : List Int)
  /-- `join`, `cross`: the expressions see the fields of both inputs. -/
  | join (refs : List Int)
  | project (items : List Item)
  /-- One grouping set and, for each measure, the references in its arguments. -/
  | aggregate (groups : List Item) (measures : List (List Int))
  deriving DecidableEq, Repr

/-- A relation of a binary plan: name of its symbol, operation, output mapping, inputs. -/
inductive Tree where
  | node (name : Str) (op : Op) (emit : List Int) (inputs : List Tree)

/-- Names for the symbols of computed fields and of measures; the program takes them from
`getUniqueName` (textplan/SymbolTable.cpp 83-96). -/
abbrev Naming := Origin → Str

/-- One expression of a `project`: updateLocalSchema (InitialPlanProtoVisitor.cpp 519-572). -/
def projectBinary (ν : Naming) (rel : Str) (fs : List Field) (k : Nat) :
    List Item → Picked → Outcome Picked
  | [], r => .ok r
  | .ref i :: is, r =>
    if asSize i < fs.length then
      (vecAt fs (asSize i)).bind fun f => projectBinary ν rel fs (k + 1) is (r.1 ++ [f], r.2)
    else projectBinary ν rel fs (k + 1) is (r.1, r.2 ++ [i])
  | .other _ :: is, r =>
    let n := ν (.computed rel k)
    projectBinary ν rel fs (k + 1) is (r.1 ++ [⟨.computed rel k, n, n, none⟩], r.2)

/-- addGroupingToRelation (InitialPlanProtoVisitor.cpp 669-686); other expressions than
references add no field. -/
def groupBinary (fs : List Field) : List Item → Picked → Outcome Picked
  | [], r => .ok r
  | .ref i :: is, r =>
    if fs.length ≤ asSize i then groupBinary fs is (r.1, r.2 ++ [i])
    else (vecAt fs (asSize i)).bind fun f => groupBinary fs is (r.1 ++ [f], r.2)
  | .other _ :: is, r => groupBinary fs is r

/-- The symbols of the measures (InitialPlanProtoVisitor.cpp 491-501). -/
def measureFields (ν : Naming) (rel : Str) (n : Nat) : List Field :=
  (List.range n).map fun k => ⟨.measure rel k, ν (.measure rel k), [], none⟩

/-- The symbols of the columns (InitialPlanProtoVisitor.cpp 466-479). -/
def columnFields (rel schema : Str) (cols : List Str) : List Field :=
  cols.zipIdx.map fun c => ⟨.column rel c.2, c.1, [], some schema⟩

/-- updateLocalSchema without its last part (InitialPlanProtoVisitor.cpp 461-627). -/
def localBinary (ν : Naming) (rel : Str) (op : Op) (ins : List RelData) :
    Outcome (RelData × List Int) :=
  match op with
  | .read s cols => .ok (⟨false, columnFields rel s cols, [], []⟩, [])
  | .pass _ | .join _ => .ok (⟨false, inputFields ins, [], []⟩, [])
  | .project items =>
    (projectBinary ν rel (inputFields ins) 0 items ([], [])).bind fun r =>
      .ok (⟨false, inputFields ins, r.1, []⟩, r.2)
  | .aggregate groups ms =>
    (groupBinary (inputFields ins) groups ([], [])).bind fun r =>
      let g := r.1 ++ measureFields ν rel ms.length
      .ok (⟨true, inputFields ins, g, g⟩, r.2)

/-- updateLocalSchema (InitialPlanProtoVisitor.cpp 461-667). -/
def stepBinary (ν : Naming) (rel : Str) (op : Op) (emit : List Int) (ins : List RelData) :
    Outcome (RelData × List Int) :=
  (localBinary ν rel op ins).bind fun d =>
    (applyBinary d.1 emit).bind fun e => .ok (e.1, d.2 ++ e.2)

mutual
/-- The schema of a relation, from its inputs upwards (InitialPlanProtoVisitor.cpp 253-282:
the inputs are visited first).  The second part holds the field numbers reported. -/
def binary (ν : Naming) : Tree → Outcome (RelData × List Int)
  | .node rel op emit ins =>
    (binaryL ν ins).bind fun r =>
      (stepBinary ν rel op emit r.1).bind fun d => .ok (d.1, r.2 ++ d.2)
def binaryL (ν : Naming) : List Tree → Outcome (List RelData × List Int)
  | [] => .ok ([], [])
  | t :: ts =>
    (binary ν t).bind fun d =>
      (binaryL ν ts).bind fun ds => .ok (d.1 :: ds.1, d.2 ++ ds.2)
end

/-! ## The same trees as text -/

/-- An expression in the text: a column, or anything else with the columns in it; with the
name after `NAMED`. -/
inductive TItem where
  | col (n : Str) (named : Option Str)
  | other (cols : List Str) (named : Option Str)
  deriving DecidableEq, Repr

inductive TOp where
  | read (schema : Str) (columns : List Str)
  | pass (cols : List Str)
  | join (cols : List Str)
  | project (items : List TItem)
  | aggregate (groups : List TItem) (measures : List (List Str × Str))
  deriving DecidableEq, Repr

/-- A relation of a text plan, with its inputs in the order of the pipelines. -/
inductive TTree where
  | node (name : Str) (op : TOp) (emit : List Str) (inputs : List TTree)

/-- The name printed for a field number; a negative `int32_t` passed as `uint32_t` is out of
range.  `none` is an error. -/
def printRef (d : RelData) (i : Int) : Option Str :=
  if i < 0 then none else lookup [d] 0 i.toNat

def printRefs (d : RelData) (is : List Int) : Option (List Str) := is.mapM (printRef d)

/-- visitRelationCommon (PlanPrinterVisitor.cpp 887-899). -/
def printEmit (d : RelData) (i : Int) : Option Str :=
  if i < 0 then none else lookupEmit d i.toNat

/-- One expression of a `project` (PlanPrinterVisitor.cpp 1164-1185).  `g` is the generated
field with the same number.  The alternative expression of a field whose name was seen before
is `schema.name`, which is what is printed anyway, so that branch is left out. -/
def printItem (d : RelData) (g : Option Field) (it : Item) : Option TItem :=
  let named := g.bind fun f => if f.alias.isEmpty then none else some f.alias
  match it with
  | .ref i => (printRef d i).map fun n => .col n named
  | .other is => (printRefs d is).map fun ns => .other ns named

def printItems (d : RelData) : Nat → List Item → Option (List TItem)
  | _, [] => some []
  | k, it :: is =>
    (printItem d d.generated[k]? it).bind fun t => (printItems d (k + 1) is).map (t :: ·)

/-- A grouping expression (PlanPrinterVisitor.cpp 1085-1090). -/
def printGroup (d : RelData) : Item → Option TItem
  | .ref i => (printRef d i).map fun n => .col n none
  | .other is => (printRefs d is).map fun ns => .other ns none

/-- A measure with its name (PlanPrinterVisitor.cpp 1091-1104). -/
def printMeasures (ν : Naming) (rel : Str) (d : RelData) :
    Nat → List (List Int) → Option (List (List Str × Str))
  | _, [] => some []
  | k, m :: ms =>
    (printRefs d m).bind fun ns =>
      (printMeasures ν rel d (k + 1) ms).map ((ns, ν (.measure rel k)) :: ·)

/-- The details of a relation (PlanPrinterVisitor.cpp 1007-1210).  The columns of a base schema
are printed with the schema, under its name. -/
def printOp (ν : Naming) (rel : Str) (d : RelData) : Op → Option TOp
  | .read s cols => some (.read s cols)
  | .pass is => (printRefs d is).map .pass
  | .join is => (printRefs d is).map .join
  | .project items => (printItems d 0 items).map .project
  | .aggregate gs ms =>
    (gs.mapM (printGroup d)).bind fun g => (printMeasures ν rel d 0 ms).map (.aggregate g)

/-- Only projects and aggregates print their output mapping
(calls of visitRelationCommon in PlanPrinterVisitor.cpp 1118, 1187). -/
def printEmits (d : RelData) (op : Op) (emit : List Int) : Option (List Str) :=
  match op with
  | .project _ | .aggregate _ _ => emit.mapM (printEmit d)
  | _ => some []

mutual
/-- The text of a tree: the schema computed by the converter gives the names. -/
def print (ν : Naming) : Tree → Option TTree
  | .node rel op emit ins =>
    match binary ν (.node rel op emit ins) with
    | .ok (d, []) =>
      (printOp ν rel d op).bind fun o =>
        (printEmits d op emit).bind fun e =>
          (printL ν ins).map (.node rel o e)
    | _ => none
def printL (ν : Naming) : List Tree → Option (List TTree)
  | [] => some []
  | t :: ts => (print ν t).bind fun x => (printL ν ts).map (x :: ·)
end

/-- visitExpressionColumn (SubstraitPlanSubqueryRelationVisitor.cpp 1219-1242) for a relation
that is in no subquery: an unknown name is an error (`none`). -/
def readRef (d : RelData) (n : Str) : Option Int :=
  (find false [d] n).map fun r => (r.2 : Int)

def readRefs (d : RelData) (ns : List Str) : Option (List Int) := ns.mapM (readRef d)

/-- An expression of the text. -/
def readItem (d : RelData) : TItem → Option Item
  | .col n _ => (readRef d n).map .ref
  | .other ns _ => (readRefs d ns).map .other

/-- addExpressionsToSchema (SubstraitPlanSubqueryRelationVisitor.cpp 2121-2151); the name after
`NAMED`, or a unique name, comes from the first pass (SubstraitPlanRelationVisitor.cpp 647-659).
A reference out of range is skipped without a report. -/
def projectText (ν : Naming) (rel : Str) (fs : List Field) (k : Nat) :
    List (Item × TItem) → List Field → Outcome (List Field)
  | [], g => .ok g
  | (.ref i, _) :: is, g =>
    if asSize i < fs.length then
      (vecAt fs (asSize i)).bind fun f => projectText ν rel fs (k + 1) is (g ++ [f])
    else projectText ν rel fs (k + 1) is g
  | (.other _, t) :: is, g =>
    let named := match t with
      | .col _ n => n
      | .other _ n => n
    let n := named.getD (ν (.computed rel k))
    projectText ν rel fs (k + 1) is (g ++ [⟨.computed rel k, n, [], none⟩])

/-- visitRelationGrouping (SubstraitPlanSubqueryRelationVisitor.cpp 720-758): the field is
added to the generated ones without a test of its number.  The second part collects the
grouping expressions; an unknown name ends in an error (`none` inside). -/
def groupText : RelData → List TItem → Outcome (Option (RelData × List Item))
  | d, [] => .ok (some (d, []))
  | d, t :: ts =>
    match readItem d t with
    | none => .ok none
    | some (.ref i) =>
      (vecAt d.fields (asSize i)).bind fun f =>
        (groupText { d with generated := d.generated ++ [f] } ts).map fun r =>
          r.map fun x => (x.1, .ref i :: x.2)
    | some (.other is) =>
      (groupText d ts).map fun r => r.map fun x => (x.1, .other is :: x.2)

/-- The measures with a name (SubstraitPlanSubqueryRelationVisitor.cpp 942-996). -/
def measureText (rel : Str) :
    Nat → RelData → List (List Str × Str) → Option (RelData × List (List Int))
  | _, d, [] => some (d, [])
  | k, d, m :: ms =>
    (readRefs d m.1).bind fun is =>
      (measureText rel (k + 1)
        { d with generated := d.generated ++ [⟨.measure rel k, m.2, [], none⟩] } ms).map
        fun r => (r.1, is :: r.2)

/-- The details of a relation other than `emit`, and addExpressionsToSchema: visitRelation
(SubstraitPlanSubqueryRelationVisitor.cpp 420-453).  A `read` puts its columns straight into
its output (visitRelationUsesSchema 645-684). -/
def localText (ν : Naming) (rel : Str) (op : TOp) (ins : List RelData) :
    Outcome (Option (RelData × Op)) :=
  match op with
  | .read s cols => .ok (some (⟨false, [], [], columnFields rel s cols⟩, .read s cols))
  | .pass ns =>
    let d : RelData := ⟨false, inputFields ins, [], []⟩
    .ok ((readRefs d ns).map fun is => (d, .pass is))
  | .join ns =>
    let d : RelData := ⟨false, inputFields ins, [], []⟩
    .ok ((readRefs d ns).map fun is => (d, .join is))
  | .project ts =>
    let d : RelData := ⟨false, inputFields ins, [], []⟩
    match ts.mapM (readItem d) with
    | none => .ok none
    | some is =>
      (projectText ν rel d.fields 0 (is.zip ts) []).map fun g =>
        some ({ d with generated := g }, .project is)
  | .aggregate gs ms =>
    (groupText ⟨true, inputFields ins, [], []⟩ gs).map fun r =>
      r.bind fun x => (measureText rel 0 x.1 ms).map fun y =>
        ({ y.1 with output := y.1.generated }, .aggregate x.2 y.2)

/-- visitRelationEmit (SubstraitPlanSubqueryRelationVisitor.cpp 873-900) in a relation that is
in no subquery. -/
def readEmit (d : RelData) (n : Str) : Option Int := (find true [d] n).map fun r => (r.2 : Int)

/-- visitRelation (SubstraitPlanSubqueryRelationVisitor.cpp 395-463).  An error anywhere makes
the whole parse fail (`none`). -/
def stepText (ν : Naming) (rel : Str) (op : TOp) (emit : List Str) (ins : List RelData) :
    Outcome (Option (RelData × Op × List Int)) :=
  (localText ν rel op ins).bind fun r =>
    match r with
    | none => .ok none
    | some (d, o) =>
      match emit.mapM (readEmit d) with
      | none => .ok none
      | some is =>
        (applyText d is).map fun e =>
          if e.2.isEmpty then some (e.1, o, is) else none

mutual
/-- The binary plan and the schemas read from the text. -/
def readTree (ν : Naming) : TTree → Outcome (Option (RelData × Tree))
  | .node rel op emit ins =>
    (readTreeL ν ins).bind fun r =>
      match r with
      | none => .ok none
      | some ds =>
        (stepText ν rel op emit (ds.map Prod.fst)).map fun e =>
          e.map fun x => (x.1, .node rel x.2.1 x.2.2 (ds.map Prod.snd))
def readTreeL (ν : Naming) : List TTree → Outcome (Option (List (RelData × Tree)))
  | [] => .ok (some [])
  | t :: ts =>
    (readTree ν t).bind fun x =>
      match x with
      | none => .ok none
      | some y => (readTreeL ν ts).map fun r => r.map (y :: ·)
end

end Verif.Schema
