import Verif.Model.Parser

/-!
Model of the relation graph of a plan: how the `pipelines` section of a text plan is read
(src/substrait/textplan/parser/SubstraitPlanPipelineVisitor.cpp), how the graph of a binary
plan is found (src/substrait/textplan/converter/PipelineVisitor.cpp), how it is printed, and
how the binary plan is put together again
(src/substrait/textplan/SymbolTablePrinter.cpp).
-/

namespace Verif.Pipe

open Verif Lex Parse

/-! ## The graph -/

/-- SymbolTable.h:36-61 `RelationType`. -/
inductive RelKind where
  | unknown | read | project | join | cross | fetch | aggregate | sort | filter | set
  | hashJoin | mergeJoin | exchange | ddl | write
  | extensionLeaf | extensionSingle | extensionMulti
  deriving DecidableEq, Repr

/-- StructuredSymbolData.h `RelationData`: `pipelineStart`, `continuingPipeline`,
`newPipelines` and `subQueryPipelines`.  Simplification: a pointer to a symbol is the name of
the symbol; the other fields play no part here. -/
structure Data where
  start : Option Str
  cont : Option Str
  news : List Str
  subs : List Str
  deriving DecidableEq, Repr

def Data.empty : Data := ⟨none, none, [], []⟩

/-- A symbol: of type `kRelation`, with the `RelationType` in its subtype if it has one (the
symbol `root` has the subtype `SymbolType::kRoot`), or of another type. -/
inductive Entry where
  | rel (kind : Option RelKind) (data : Data)
  | other
  deriving DecidableEq, Repr

/-- The symbol table: the names of the relations in order, and what a name stands for.
Simplification: symbols are told apart by their names, as `lookupSymbolByName` does. -/
structure Table where
  order : List Str
  get : Str → Option Entry

/-- A table without symbols. -/
def Table.empty : Table := ⟨[], fun _ => none⟩

/-- A new relation behind the others.  An earlier symbol of the same name keeps the name. -/
def Table.define (t : Table) (n : Str) (e : Entry) : Table :=
  ⟨t.order ++ [n], fun m => if m = n then some ((t.get n).getD e) else t.get m⟩

/-- An assignment to the data of a relation. -/
def Table.set (t : Table) (n : Str) (k : Option RelKind) (d : Data) : Table :=
  { t with get := fun m => if m = n then some (.rel k d) else t.get m }

/-- The symbol of this name is a relation. -/
def Table.isRel (t : Table) (n : Str) : Bool :=
  match t.get n with
  | some (.rel _ _) => true
  | _ => false

/-- The data of a relation; empty for other names. -/
def Table.data (t : Table) (n : Str) : Data :=
  match t.get n with
  | some (.rel _ d) => d
  | _ => Data.empty

/-- The subtype of a relation. -/
def Table.kind (t : Table) (n : Str) : Option RelKind :=
  match t.get n with
  | some (.rel k _) => k
  | _ => none

/-! ## Reading the section -/

/-- SubstraitPlanParser.g4 `relation_ref`: the text of the first `id` and the text of the
whole. -/
structure Ref where
  name : Str
  text : Str
  deriving DecidableEq, Repr

inductive Err where
  /-- "Relation ... is already a non-terminating participant in a pipeline." -/
  | used (name : Str)
  /-- "Relation ... is already in this pipeline." -/
  | loop (name : Str)
  deriving DecidableEq, Repr

structure State where
  table : Table
  errors : List Err

/-- SubstraitPlanPipelineVisitor.cpp:35-53 `updateRelationSymbol`.  Simplification: the
location of the symbol is not kept: the location of a `pipeline` node only ever leads to the
symbol named in it. -/
def touch (t : Table) (n : Str) : Table :=
  match t.get n with
  | none => t.define n (.rel (some .unknown) Data.empty)
  | some _ => t

/-- SubstraitPlanPipelineVisitor.cpp:18-31 `continuingPipelineContains`: the given node and
the nodes around it are compared by their whole text. -/
def containsText (parents : List Ref) (n : Str) : Bool :=
  parents.any fun p => p.text == n

/-- SubstraitPlanPipelineVisitor.cpp:101-117: the symbol to the right and the start of its
pipeline.  A null pointer is dereferenced if there is a node to the right that names no
relation.  Simplification: symbols of type `kRoot` cannot be named in a pipeline, as the only
one is called `root.names`. -/
def rightmost (t : Table) : List Ref → Outcome (Option Str)
  | [] => .ok none
  | p :: _ =>
    if t.isRel p.name then .ok (some ((t.data p.name).start.getD p.name)) else .ub

/-- SubstraitPlanPipelineVisitor.cpp:131-146. -/
def link (d : Data) (right left : Option Str) : Data :=
  let d := match right with
    | some r => { d with start := some r }
    | none => d
  match left, right with
  | some l, none => { d with news := d.news ++ [l] }
  | some l, some _ => { d with cont := some l }
  | none, _ => d

/-- SubstraitPlanPipelineVisitor.cpp:94-99 and 138: the node to the left, whose symbol is
dereferenced. -/
def leftOf (t : Table) : Option Ref → Outcome (Option Str)
  | none => .ok none
  | some l => if t.isRel l.name then .ok (some l.name) else .ub

/-- SubstraitPlanPipelineVisitor.cpp:79-149: what is done after the nodes to the left. -/
def connect (parents : List Ref) (r : Ref) (left : Option Ref) (s : State) : Outcome State :=
  match s.table.get r.name with
  | none => .ub
  | some .other => .ok s
  | some (.rel k d) =>
    if d.cont.isSome then .ok { s with errors := s.errors ++ [.used r.name] }
    else (rightmost s.table parents).bind fun right =>
      if containsText parents r.name then .ok { s with errors := s.errors ++ [.loop r.name] }
      else (leftOf s.table left).bind fun left =>
        .ok { s with table := s.table.set r.name k (link d right left) }

/-- SubstraitPlanPipelineVisitor.cpp:66-149 `visitPipeline`.  The nodes of the pipeline are
given from right to left, as they are nested; `parents` are those to the right, nearest
first. -/
def visit (parents : List Ref) : List Ref → State → Outcome State
  | [], s => .ok s
  | r :: rest, s =>
    (visit (r :: parents) rest { s with table := touch s.table r.name }).bind fun s =>
      connect parents r rest.head? s

/-- SubstraitPlanPipelineVisitor.cpp:55-58 `visitPipelines`. -/
def visitAll : List (List Ref) → State → Outcome State
  | [], s => .ok s
  | p :: ps, s => (visit [] p s).bind fun s => visitAll ps s

/-! ## The section as text -/

/-- SubstraitPlanParser.g4 `relation_ref`. -/
def parseRef (ts : List Token) : Option (Ref × List Token) :=
  (parseId ts).bind fun i =>
    match i.2 with
    | a :: b :: r =>
      if a.kind = .leftParen ∧ b.kind = .schema then
        (parseId r).bind fun j =>
          match j.2 with
          | c :: r =>
            if c.kind = .rightParen then
              some (⟨i.1, i.1 ++ a.text ++ b.text ++ j.1 ++ c.text⟩, r)
            else none
          | [] => none
      else some (⟨i.1, i.1⟩, i.2)
    | r => some (⟨i.1, i.1⟩, r)

/-- `(ARROW relation_ref)* SEMICOLON`; `acc` are the nodes to the left, nearest first. -/
def parsePipeline : Nat → List Ref → List Token → Option (List Ref × List Token)
  | 0, _, _ => none
  | f + 1, acc, ts =>
    if nextIs .arrow ts then
      (parseRef ts.tail).bind fun r => parsePipeline f (r.1 :: acc) r.2
    else (expect .semicolon ts).map fun r => (acc, r)

/-- `(pipeline SEMICOLON)* RIGHTBRACE`. -/
def parsePipelines : Nat → List Token → Option (List (List Ref) × List Token)
  | 0, _ => none
  | f + 1, ts =>
    if nextIs .rightBrace ts then some ([], ts.tail)
    else (parseRef ts).bind fun r => (parsePipeline f [r.1] r.2).bind fun p =>
      (parsePipelines f p.2).map fun ps => (p.1 :: ps.1, ps.2)

/-- SubstraitPlanParser.g4 `pipelines`: the pipelines of a section, each from right to left. -/
def parseSection (ts : List Token) : Option (List (List Ref) × List Token) :=
  (expect .pipelines ts).bind fun r => (expect .leftBrace r).bind fun r =>
    parsePipelines (r.length + 1) r

/-- The pipelines of a text that is one section. -/
def pipelinesOf (text : Str) : Option (List (List Ref)) :=
  (lex text).bind fun ts => (parseSection ts).bind fun r => if r.2 = [] then some r.1 else none

/-! ## Printing -/

/-- SymbolTablePrinter.cpp:107-122 `pipelineToPath`.  The recursion along
`continuingPipeline` has no end if there is a cycle: it gets so much fuel, and running out of
it is undefined behaviour, as running out of stack is. -/
def path (t : Table) : Nat → Str → Outcome (List Str)
  | 0, _ => .ub
  | f + 1, n =>
    match (t.data n).cont with
    | none => .ok [n]
    | some m => (path t f m).map (n :: ·)

/-- SymbolTablePrinter.cpp:132-163: the lists of names printed for one relation, from left to
right. -/
def linesOf (t : Table) (fuel : Nat) (n : Str) : Outcome (List (List Str)) :=
  (Outcome.mapM (fun m => (path t fuel m).map fun p => (n :: p).reverse) (t.data n).news).bind
    fun a => (Outcome.mapM (fun m => (path t fuel m).map List.reverse) (t.data n).subs).map
      fun b => a ++ b

def lines (t : Table) (fuel : Nat) : Outcome (List (List Str)) :=
  (Outcome.mapM (linesOf t fuel) t.order).map List.flatten

/-- SymbolTablePrinter.cpp:137-146. -/
def lineText (p : List Str) : Str :=
  match p with
  | [] => ";\n".toList
  | n :: ns => "  ".toList ++ n ++ (ns.map fun m => " -> ".toList ++ m).flatten ++ ";\n".toList

/-- SymbolTablePrinter.cpp:165-168. -/
def sectionText (ps : List (List Str)) : Str :=
  if ps = [] then []
  else "pipelines {\n".toList ++ (ps.map lineText).flatten ++ "}\n".toList

/-! ## The binary plan -/

/-- A relation of a binary plan: its kind, its contents other than inputs and subqueries
(represented by a name), its inputs, and the relations of the subqueries in its expressions
in order. -/
inductive Rel where
  | node (kind : RelKind) (own : Str) (inputs subs : List Rel)

/-- What `addInputsToRelation` does with the graph, by relation type. -/
inductive Shape where
  /-- Nothing is added. -/
  | none
  /-- One input, which must be there. -/
  | single
  /-- Two inputs if there are two, otherwise none. -/
  | binary
  /-- All inputs. -/
  | many
  deriving DecidableEq, Repr

/-- SymbolTablePrinter.cpp:566-857. -/
def shape : RelKind → Shape
  | .read | .exchange | .ddl | .write | .extensionLeaf | .unknown => .none
  | .project | .fetch | .aggregate | .sort | .filter | .extensionSingle => .single
  | .join | .cross | .hashJoin | .mergeJoin => .binary
  | .set | .extensionMulti => .many

/-- SymbolTablePrinter.cpp:566-857: the relation types whose expressions get the relations of
their subqueries.  (A `join` without two inputs falls into the case of `cross`.) -/
def takesSubs (k : RelKind) (inputs : Nat) : Bool :=
  match k with
  | .project | .aggregate | .sort | .filter | .hashJoin | .mergeJoin => true
  | .join => inputs == 2
  | _ => false

/-- SymbolTablePrinter.cpp:97-105 `getNextSinglePipeline`. -/
def nextSingle (d : Data) : Option Str :=
  match d.cont, d.news with
  | some c, _ => some c
  | none, [n] => some n
  | none, _ => none

/-- SymbolTablePrinter.cpp:566-857: the symbols that become inputs. -/
def inputsOf (k : RelKind) (d : Data) : Outcome (List Str) :=
  match shape k with
  | .none => .ok []
  | .single => match nextSingle d with
    | some n => .ok [n]
    | none => .throw .fail
  | .binary => .ok (if d.news.length = 2 then d.news else [])
  | .many => .ok d.news

/-- SymbolTablePrinter.cpp:550-858 `addInputsToRelation`, with fuel as in `path`.
Simplifications: the contents of a relation are its name; its expressions have exactly as
many subqueries as `subQueryPipelines` has elements, in the same order. -/
def build (t : Table) : Nat → Str → Outcome Rel
  | 0, _ => .ub
  | f + 1, n =>
    match t.kind n with
    | none => .ok (.node .unknown n [] [])
    | some k =>
      (inputsOf k (t.data n)).bind fun ins =>
        (Outcome.mapM (build t f) ins).bind fun a =>
          if takesSubs k ins.length then
            (Outcome.mapM (build t f) (t.data n).subs).map fun b => .node k n a b
          else .ok (.node k n a [])

/-- The relation has a `parentQueryLocation`: it is the relation of a subquery. -/
def isSubquery (t : Table) (n : Str) : Bool :=
  t.order.any fun m => (t.data m).subs.contains n

/-- SymbolTablePrinter.cpp:1093-1131: the input of the plan relation made for a relation, if
one is made.  Simplifications: the names of the root are left out (see `hasNames`); a relation without new
pipelines is copied as it is, without inputs. -/
def planRel (t : Table) (fuel : Nat) (n : Str) : Option (Outcome Rel) :=
  if isSubquery t n then none
  else if (t.data n).start.isSome then none
  else match (t.data n).news with
    | [] => some (.ok (.node ((t.kind n).getD .unknown) n [] []))
    | m :: _ => some (build t fuel m)

/-- SymbolTablePrinter.cpp:1088-1135 `outputToBinaryPlan`. -/
def binaryPlan (t : Table) (fuel : Nat) : Outcome (List Rel) :=
  Outcome.mapM id (t.order.filterMap (planRel t fuel))

/-- SymbolTablePrinter.cpp:1105-1131: whether the names of the root are copied into the plan relation
made for a relation, if one is made: not if it has no new pipelines. -/
def hasNames (t : Table) (n : Str) : Option Bool :=
  if isSubquery t n then none
  else if (t.data n).start.isSome then none
  else some !(t.data n).news.isEmpty

/-- Whether there are names in each of the relations of `binaryPlan`. -/
def namedRels (t : Table) : List Bool := t.order.filterMap (hasNames t)

/-! ## The graph of a binary plan -/

def Rel.name : Rel → Str
  | .node _ n _ _ => n

/-- PipelineVisitor.cpp:75-211: where the inputs of a relation go, by the case of the
message.  Simplification: the cases without a `RelationType` (nested loop join, window,
expand, reference) are left out; they cannot be written in text plans. -/
def convShape : RelKind → Shape
  | .read | .ddl | .extensionLeaf | .unknown => .none
  | .filter | .fetch | .aggregate | .sort | .project | .extensionSingle | .exchange | .write => .single
  | .join | .cross | .hashJoin | .mergeJoin => .binary
  | .set | .extensionMulti => .many

/-- PipelineVisitor.cpp:12-212: the data of a relation.  Simplifications: every input is set;
`pipelineStart` is left out. -/
def dataOf (k : RelKind) (ins subs : List Rel) : Data :=
  match convShape k with
  | .none => ⟨none, none, [], subs.map Rel.name⟩
  | .single => ⟨none, ins.head?.map Rel.name, [], subs.map Rel.name⟩
  | .binary | .many => ⟨none, none, ins.map Rel.name, subs.map Rel.name⟩

/-- BasePlanProtoVisitor.cpp `visit...Relation`: the inputs are visited before the
expressions. -/
def inputsFirst : RelKind → Bool
  | .project | .join | .cross | .set | .hashJoin | .mergeJoin => true
  | _ => false

/-- What is found in the inputs and in the expressions, in order. -/
def arrange {α : Type} (k : RelKind) (a b : List α) : List α :=
  if inputsFirst k then a ++ b else b ++ a

mutual
/-- InitialPlanProtoVisitor.cpp:254-294: the symbols of the relations, each after those of its
inputs and subqueries.  Simplification: the names are part of the tree. -/
def entries : Rel → List (Str × Entry)
  | .node k n ins subs =>
    arrange k (entriesL ins) (entriesL subs) ++ [(n, .rel (some k) (dataOf k ins subs))]
def entriesL : List Rel → List (Str × Entry)
  | [] => []
  | r :: rs => entries r ++ entriesL rs
end

/-- A table with these symbols. -/
def tableOf (l : List (Str × Entry)) : Table :=
  ⟨l.map (·.1), fun n => (l.find? fun e => e.1 == n).map (·.2)⟩

/-- InitialPlanProtoVisitor.cpp:238-252, PipelineVisitor.cpp:214-237: the plan relation comes
last, with the relation as its input. -/
def convert (root : Str) (r : Rel) : Table :=
  tableOf (entries r ++ [(root, .rel none ⟨none, none, [r.name], []⟩)])

/-! ## The relations of the text -/

/-- ProtoUtils.cpp:21-45 `relTypeCaseName`. -/
def kindName : RelKind → Str
  | .read => "read".toList
  | .filter => "filter".toList
  | .fetch => "fetch".toList
  | .aggregate => "aggregate".toList
  | .sort => "sort".toList
  | .join => "join".toList
  | .project => "project".toList
  | .set => "set".toList
  | .extensionSingle => "extensionsingle".toList
  | .extensionMulti => "extensionmulti".toList
  | .extensionLeaf => "extensionleaf".toList
  | .cross => "cross".toList
  | .hashJoin => "hashjoin".toList
  | .mergeJoin => "mergejoin".toList
  | .exchange | .ddl | .write | .unknown => "unknown".toList

/-- SubstraitPlanVisitor.cpp:308-317. -/
def textKinds : List (Str × RelKind) :=
  [("read".toList, .read), ("project".toList, .project), ("join".toList, .join),
    ("cross".toList, .cross), ("fetch".toList, .fetch), ("aggregate".toList, .aggregate),
    ("sort".toList, .sort), ("filter".toList, .filter), ("set".toList, .set)]

/-- SubstraitPlanVisitor.cpp:302-325 `visitRelation_type`: `none` stands for the error
"Unrecognized relation type". -/
def readKind (s : Str) : Option RelKind :=
  (textKinds.find? fun e => e.1 == s.map toLower).map (·.2)

/-- SubstraitPlanVisitor.cpp:266-300 and SubstraitPlanPipelineVisitor.cpp:173-246: the symbol
of a relation read from its block, with the subqueries in its expressions. -/
def declaredEntry : Entry → Entry
  | .rel (some k) d => .rel (some ((readKind (kindName k)).getD .unknown)) ⟨none, none, [], d.subs⟩
  | e => e

/-- The table before the pipelines are read: the relations in the order they were printed,
and the root if the `root` section names its columns (SubstraitPlanVisitor.cpp:228-264). -/
def declared (root : Str) (named : Bool) (r : Rel) : Table :=
  tableOf ((entries r).map (fun e => (e.1, declaredEntry e.2)) ++
    if named then [(root, .rel none Data.empty)] else [])

/-- The whole way: the graph of a binary plan is printed, read again and made into a binary
plan.  A text with errors is not converted (Tool `plantool`, TextPlanConverter). -/
def roundTrip (root : Str) (named : Bool) (r : Rel) (fuel : Nat) : Outcome (List Rel) :=
  (lines (convert root r) fuel).bind fun ps =>
    match pipelinesOf (sectionText ps) with
    | none => .throw .other
    | some rs => (visitAll rs ⟨declared root named r, []⟩).bind fun s =>
        if s.errors.isEmpty then binaryPlan s.table fuel else .throw .other

end Verif.Pipe
