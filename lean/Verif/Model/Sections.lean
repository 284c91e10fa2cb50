import Verif.Model.Relation
import Verif.Model.Extension
import Verif.Model.Pipeline

/-!
# The sections of a text plan: root names, schemas, sources

Model of `outputRootSection`, `outputSchemaSection`, `outputSourcesSection` and `outputToText`
of `src/substrait/textplan/SymbolTablePrinter.cpp`, of the rules `plan`, `plan_detail`,
`root_relation`, `schema_definition` and `source_definition` of
`src/substrait/textplan/parser/grammar/SubstraitPlanParser.g4`, of
`src/substrait/textplan/parser/SubstraitPlanVisitor.cpp` (the first of the three visitors of a
text plan, which fills the symbol table), and of the places where a read relation looks up its
schema and its source (`SubstraitPlanRelationVisitor.cpp:585-624, 968-1029`,
`SubstraitPlanSubqueryRelationVisitor.cpp:645-684, 1018-1079`).

Simplification: the location of a symbol is the number of the plan detail it comes from; the
program uses the address of a node of the parse tree.  Functions and relations get the location
of the detail they are in; there are no columns and no parts of sources at these places, and
nothing else is looked up by location here.
-/

namespace Verif.Sec

open Verif Verif.TyPb Verif.Tree Verif.Literal Verif.Lex Verif.Parse Verif.Expr

/-! ## The binary plan -/

/-- The message `NamedStruct`: `none` is a struct that is not set. -/
structure NamedStruct where
  names : List Str
  struct : Option (List PbType × Nullability)

/-- `struct_().types()`. -/
def NamedStruct.types (s : NamedStruct) : List PbType :=
  match s.struct with
  | some p => p.1
  | none => []

/-- The field `path_type` of `ReadRel.LocalFiles.FileOrFiles`. -/
inductive Path where
  | uriPath (s : Str)
  | uriPathGlob (s : Str)
  | uriFile (s : Str)
  | uriFolder (s : Str)
  | notSet
  deriving DecidableEq, Repr

/-- The field `file_format` of `ReadRel.LocalFiles.FileOrFiles`.  The messages of the formats
other than extensions have no fields. -/
inductive Format where
  | parquet | arrow | orc | dwrf | extension | notSet
  deriving DecidableEq, Repr

/-- The message `ReadRel.LocalFiles.FileOrFiles`; the numbers are 64-bit and unsigned. -/
structure File where
  path : Path
  partition : Nat
  start : Nat
  length : Nat
  format : Format
  deriving DecidableEq, Repr

/-- A message in which nothing is set. -/
def File.empty : File := ⟨.notSet, 0, 0, 0, .notSet⟩

/-- The field `read_type` of `ReadRel`, as the symbol table keeps it.  The contents of virtual
tables and extension tables do not matter here. -/
inductive Source where
  | named (names : List Str)
  | files (items : List File)
  | virtual
  | extension
  deriving DecidableEq, Repr

/-! ## Printing -/

/-- Texts with an empty line between them. -/
def separated : List Str → Str
  | [] => []
  | [t] => t
  | t :: ts => t ++ '\n' :: separated ts

/-- SymbolTablePrinter.cpp:209-218: the names; `had` is `hadName`. -/
def namesText (had : Bool) : List Str → Str
  | [] => []
  | n :: ns =>
    (if had then ",\n".toList else "\n".toList) ++ "    ".toList ++ n ++ namesText true ns

/-- SymbolTablePrinter.cpp:206-223. -/
def rootText (names : List Str) : Str :=
  "root {\n".toList ++ "  names = [".toList ++ namesText false names ++
    (if names.isEmpty then [] else "\n".toList) ++ "  ]\n".toList ++ "}\n".toList

/-- SymbolTablePrinter.cpp:191-227 `outputRootSection`: the names of the roots of a plan. -/
def rootSection (roots : List (List Str)) : Str :=
  separated ((roots.filter fun r => !r.isEmpty).map rootText)

/-- SymbolTablePrinter.cpp:250-252. -/
def columnText (name : Str) (t : PbType) : Str :=
  "  ".toList ++ name ++ " ".toList ++ (printType t).1 ++ ";\n".toList

/-- SymbolTablePrinter.cpp:247-254: columns as long as there are names and types. -/
def columnsText : List Str → List PbType → Str
  | n :: ns, t :: ts => columnText n t ++ columnsText ns ts
  | _, _ => []

/-- SymbolTablePrinter.cpp:244-255. -/
def schemaText (name : Str) (s : NamedStruct) : Str :=
  "schema ".toList ++ name ++ " {\n".toList ++ columnsText s.names s.types ++ "}\n".toList

/-- SymbolTablePrinter.cpp:229-259 `outputSchemaSection`. -/
def schemaSection (l : List (Str × NamedStruct)) : Str :=
  separated (l.map fun e => schemaText e.1 e.2)

/-- SymbolTablePrinter.cpp:24-43. -/
def pathText : Path → Outcome Str
  | .uriPath s => .ok ("uri_path: \"".toList ++ s ++ "\"".toList)
  | .uriPathGlob s => .ok ("uri_path_glob: \"".toList ++ s ++ "\"".toList)
  | .uriFile s => .ok ("uri_file: \"".toList ++ s ++ "\"".toList)
  | .uriFolder s => .ok ("uri_folder: \"".toList ++ s ++ "\"".toList)
  | .notSet => .throw .unsupported

/-- SymbolTablePrinter.cpp:51-72. -/
def formatText : Format → Outcome Str
  | .parquet => .ok " parquet: {}".toList
  | .arrow => .ok " arrow: {}".toList
  | .orc => .ok " orc: {}".toList
  | .dwrf => .ok " dwrf: {}".toList
  | .extension => .throw .unsupported
  | .notSet => .throw .unsupported

/-- SymbolTablePrinter.cpp:44-46. -/
def partitionText (n : Nat) : Str :=
  if n ≠ 0 then " partition_index: ".toList ++ natText n else []

/-- SymbolTablePrinter.cpp:47-50. -/
def rangeText (start length : Nat) : Str :=
  if start ≠ 0 ∨ length ≠ 0 then
    " start: ".toList ++ natText start ++ (" length: ".toList ++ natText length)
  else []

/-- SymbolTablePrinter.cpp:21-73 `localFileToText`. -/
def fileText (f : File) : Outcome Str :=
  (pathText f.path).bind fun p => (formatText f.format).map fun x =>
    p ++ partitionText f.partition ++ rangeText f.start f.length ++ x

/-- SymbolTablePrinter.cpp:310-314. -/
def itemText (f : File) : Outcome Str :=
  (fileText f).map fun t => "    {".toList ++ t ++ "}\n".toList

/-- SymbolTablePrinter.cpp:281-283. -/
def tableText : List Str → Str
  | [] => []
  | n :: ns => "    \"".toList ++ n ++ "\",\n".toList ++ tableText ns

/-- SymbolTablePrinter.cpp:272-327. -/
def sourceText (name : Str) : Source → Outcome Str
  | .named names =>
    .ok ("source named_table ".toList ++ name ++ " {\n".toList ++ "  names = [\n".toList ++
      tableText names ++ "  ]\n".toList ++ "}\n".toList)
  | .files items =>
    (Outcome.mapM itemText items).map fun ts =>
      "source local_files ".toList ++ name ++ " {\n".toList ++ "  items = [\n".toList ++
        ts.flatten ++ "  ]\n".toList ++ "}\n".toList
  | .virtual => .throw .fail
  | .extension => .throw .fail

/-- SymbolTablePrinter.cpp:261-330 `outputSourcesSection`. -/
def sourceSection (l : List (Str × Source)) : Outcome Str :=
  (Outcome.mapM (fun e => sourceText e.1 e.2) l).map separated

/-- SymbolTablePrinter.cpp:492-548 `outputToText`: the sections, without those that are
empty. -/
def planText (sections : List Str) : Str := separated (sections.filter fun s => !s.isEmpty)

/-- What a symbol table is printed from: the paths of the pipelines, the texts of the relations,
the names of the roots, the schemas, the sources, and the blocks of functions. -/
structure Parts where
  pipelines : List (List Str)
  relations : List Str
  roots : List (List Str)
  schemas : List (Str × NamedStruct)
  sources : List (Str × Source)
  blocks : List Ext.Block

/-- SymbolTablePrinter.cpp:492-548 `outputToText`. -/
def Parts.text (p : Parts) : Outcome Str :=
  (sourceSection p.sources).map fun sources =>
    planText [Pipe.sectionText p.pipelines, separated p.relations, rootSection p.roots,
      schemaSection p.schemas, sources, Ext.sectionText p.blocks]

/-! ## Grammar -/

/-- `x (COMMA x)* COMMA? RIGHTBRACKET`. -/
def parseListed {α : Type} (p : List Token → Option (α × List Token)) :
    Nat → List Token → Option (List α × List Token)
  | 0, _ => none
  | n + 1, ts =>
    (p ts).bind fun x =>
      if nextIs .comma x.2 then
        if nextIs .rightBracket x.2.tail then some ([x.1], x.2.tail.tail)
        else (parseListed p n x.2.tail).map fun r => (x.1 :: r.1, r.2)
      else (expect .rightBracket x.2).map fun u => ([x.1], u)

/-- `<keyword> EQUAL LEFTBRACKET` and a list. -/
def parseAssigned {α : Type} (k : Tk) (p : List Token → Option (α × List Token))
    (ts : List Token) : Option (List α × List Token) :=
  (expect k ts).bind fun a => (expect .equal a).bind fun b => (expect .leftBracket b).bind fun c =>
    parseListed p c.length c

/-- SubstraitPlanParser.g4:46-48 `root_relation`. -/
def parseRoot (ts : List Token) : Option (List Str × List Token) :=
  (expect .root ts).bind fun a => (expect .leftBrace a).bind fun b =>
    (parseAssigned .names parseId b).bind fun r =>
      (expect .rightBrace r.2).map fun u => (r.1, u)

/-- SubstraitPlanParser.g4:184-186 `schema_item`.  What follows `NAMED` is not looked at by the
visitors. -/
def parseColumn (ts : List Token) : Option ((Str × TypeTree) × List Token) :=
  Rel.semi ((parseId ts).bind fun i => (typeOf i.2).bind fun t =>
    (Rel.parseOptId .named t.2).map fun n => ((i.1, t.1), n.2))

/-- SubstraitPlanParser.g4:180-182 `schema_definition`. -/
def parseSchema (ts : List Token) : Option ((Str × List (Str × TypeTree)) × List Token) :=
  (expect .schema ts).bind fun a => (parseId a).bind fun i => (expect .leftBrace i.2).bind fun b =>
    (Rel.parseUntilBrace parseColumn b.length b).map fun r => ((i.1, r.1), r.2)

/-- A token of type `STRING`. -/
def parseString : List Token → Option (Str × List Token)
  | t :: ts => if t.kind = .string then some (t.text, ts) else none
  | [] => none

/-- A token of type `NUMBER`. -/
def parseNumber : List Token → Option (Str × List Token)
  | t :: ts => if t.kind = .number then some (t.text, ts) else none
  | [] => none

/-- SubstraitPlanParser.g4:150-164 `file_location` and `file_detail`; `location` is a place
other than `URI_FILE`. -/
inductive FileDetail where
  | partition (n : Str)
  | start (n : Str)
  | length (n : Str)
  | orc
  | parquet
  | file (s : Str)
  | location
  deriving DecidableEq, Repr

/-- `COLON LEFTBRACE RIGHTBRACE`. -/
def parseBraces (ts : List Token) : Option (List Token) :=
  (expect .colon ts).bind fun a => (expect .leftBrace a).bind fun b => expect .rightBrace b

/-- SubstraitPlanParser.g4:150-164 `file_location` and `file_detail`. -/
def parseFileDetail : List Token → Option (FileDetail × List Token)
  | [] => none
  | t :: ts =>
    match t.kind with
    | .partitionIndex =>
      ((expect .colon ts).bind parseNumber).map fun r => (.partition r.1, r.2)
    | .start => ((expect .colon ts).bind parseNumber).map fun r => (.start r.1, r.2)
    | .length => ((expect .colon ts).bind parseNumber).map fun r => (.length r.1, r.2)
    | .orc => (parseBraces ts).map fun r => (.orc, r)
    | .parquet => (parseBraces ts).map fun r => (.parquet, r)
    | .uriFile => ((expect .colon ts).bind parseString).map fun r => (.file r.1, r.2)
    | .uriPath | .uriPathGlob | .uriFolder =>
      ((expect .colon ts).bind parseString).map fun r => (.location, r.2)
    | _ => none

/-- SubstraitPlanParser.g4:166-168 `file`, with `getText()`: the texts of the tokens without
the blanks between them. -/
structure FileTree where
  text : Str
  details : List FileDetail
  deriving DecidableEq, Repr

/-- The texts of the tokens up to a place. -/
def textUpTo (ts rest : List Token) : Str :=
  (ts.take (ts.length - rest.length)).flatMap (·.text)

/-- SubstraitPlanParser.g4:166-168 `file`. -/
def parseFile (ts : List Token) : Option (FileTree × List Token) :=
  (expect .leftBrace ts).bind fun a =>
    (Rel.parseUntilBrace parseFileDetail a.length a).map fun r => (⟨textUpTo ts r.2, r.1⟩, r.2)

/-- `ADVANCED_EXTENSION id`, which the visitors do not look at, or a list of so many. -/
def parseSourceDetail {α : Type} (k : Tk) (p : List Token → Option (α × List Token))
    (ts : List Token) : Option (List α × List Token) :=
  if nextIs .advancedExtension ts then (parseId ts.tail).map fun i => ([], i.2)
  else parseAssigned k p ts

/-- SubstraitPlanParser.g4:170-197 `source_definition`. -/
inductive SourceTree where
  | localFiles (id : Str) (files : List FileTree)
  | virtualTable (id : Str)
  | namedTable (id : Str) (strings : List Str)
  | extensionTable (id : Str)
  deriving DecidableEq, Repr

/-- SubstraitPlanParser.g4:192-197 `read_type`.  The parts of several details are put
together. -/
def parseReadType : List Token → Option (SourceTree × List Token)
  | [] => none
  | t :: ts =>
    match t.kind with
    | .localFiles =>
      (parseId ts).bind fun i => (expect .leftBrace i.2).bind fun b =>
        (Rel.parseUntilBrace (parseSourceDetail .items parseFile) b.length b).map fun r =>
          (.localFiles i.1 r.1.flatten, r.2)
    | .namedTable =>
      (parseId ts).bind fun i => (expect .leftBrace i.2).bind fun b =>
        (Rel.parseUntilBrace (parseSourceDetail .names parseString) b.length b).map fun r =>
          (.namedTable i.1 r.1.flatten, r.2)
    | .virtualTable =>
      (parseId ts).bind fun i => (expect .leftBrace i.2).bind fun b =>
        (expect .rightBrace b).map fun c => (.virtualTable i.1, c)
    | .extensionTable =>
      (parseId ts).bind fun i => (expect .leftBrace i.2).bind fun b =>
        (expect .rightBrace b).map fun c => (.extensionTable i.1, c)
    | _ => none

/-- SubstraitPlanParser.g4:188-190 `source_definition`. -/
def parseSource (ts : List Token) : Option (SourceTree × List Token) :=
  (expect .source ts).bind parseReadType

/-- SubstraitPlanParser.g4:199-201 `extensionspace`. -/
def parseSpace (ts : List Token) : Option (Ext.SpaceTree × List Token) :=
  (expect .extensionSpace ts).bind fun a =>
    (expect .leftBrace (Ext.parseUri a).2).bind fun b =>
      (Ext.parseFunctions (b.length + 1) b).map fun m => (⟨(Ext.parseUri a).1, m.1⟩, m.2)

/-- SubstraitPlanParser.g4:23-30 `plan_detail`. -/
inductive PlanDetail where
  | pipelines (ps : List (List Pipe.Ref))
  | relation (t : Rel.RelTree)
  | root (names : List Str)
  | schema (id : Str) (columns : List (Str × TypeTree))
  | source (t : SourceTree)
  | space (t : Ext.SpaceTree)

/-- An identifier and `RELATION`: the start of a relation, and of nothing else. -/
def startsRelation (ts : List Token) : Bool :=
  match parseId ts with
  | some i => nextIs .relation i.2
  | none => false

/-- SubstraitPlanParser.g4:23-30 `plan_detail`. -/
def parsePlanDetail (ts : List Token) : Option (PlanDetail × List Token) :=
  if startsRelation ts then (Rel.parseRelation ts).map fun r => (.relation r.1, r.2)
  else if nextIs .pipelines ts then (Pipe.parseSection ts).map fun r => (.pipelines r.1, r.2)
  else if nextIs .root ts then (parseRoot ts).map fun r => (.root r.1, r.2)
  else if nextIs .schema ts then (parseSchema ts).map fun r => (.schema r.1.1 r.1.2, r.2)
  else if nextIs .source ts then (parseSource ts).map fun r => (.source r.1, r.2)
  else (parseSpace ts).map fun r => (.space r.1, r.2)

/-- SubstraitPlanParser.g4:19-21 `plan`, with at most so many details. -/
def parsePlan : Nat → List Token → Option (List PlanDetail)
  | _, [] => some []
  | 0, _ :: _ => none
  | n + 1, t :: ts =>
    (parsePlanDetail (t :: ts)).bind fun d => (parsePlan n d.2).map fun r => d.1 :: r

/-- The details of a text plan; `none` is a syntax error. -/
def detailsOf (text : Str) : Option (List PlanDetail) :=
  (lex text).bind fun ts => parsePlan ts.length ts

/-! ## The symbol table -/

/-- SymbolTable.h `SourceType`. -/
inductive SourceKind where
  | files | named | virtual | extension
  deriving DecidableEq, Repr

/-- Type, subtype and blob of a symbol.  `relation` has a relation type as its subtype (`none`
is `kUnknown`), `rootRelation` the symbol type `kRoot`, `rootNames` a `SourceType`. -/
inductive Info where
  | schema
  | column (t : PbType)
  | source (k : SourceKind)
  | table
  | file (f : File)
  | space
  | function
  | relation (k : Option Enum.RelType)
  | rootRelation
  | rootNames (names : List Str)

/-- A symbol; `loc` is its `sourceLocation`. -/
structure Symbol where
  name : Str
  loc : Nat
  info : Info

/-- SymbolTable.cpp `lookupSymbolByName`: the first symbol with the name. -/
def lookup (l : List Symbol) (n : Str) : Option Symbol := l.find? fun s => s.name = n

/-- What `SubstraitPlanVisitor` reports. -/
inductive Err where
  | type (e : RErr)
  /-- "Functions should have an associated type." -/
  | untyped
  /-- "Unrecognized relation type: ..." -/
  | relationType
  /-- "Relation named ... already defined." -/
  | relationTwice
  /-- "A root relation was already defined." -/
  | rootTwice
  /-- "A relation named root was already defined." -/
  | rootTaken
  deriving DecidableEq, Repr

/-- The state of `SubstraitPlanVisitor`.  The contents of spaces and functions are in `ext`. -/
structure State where
  symbols : List Symbol := []
  ext : Ext.State := {}
  errs : List Err := []

/-! ## Reading -/

/-- SubstraitPlanVisitor.cpp:22-34 `extractFromString`. -/
def extractFromString (s : Str) : Str :=
  if s.length < 2 then s
  else
    let a := if s.getLast? = some '"' then s.dropLast else s
    match a with
    | '"' :: r => r
    | r => r

/-- `text.substr(k, text.length() - 2 * k)`: the difference is unsigned. -/
def inner (k : Nat) (s : Str) : Str :=
  if 2 * k ≤ s.length then (s.drop k).take (s.length - 2 * k) else s.drop k

/-- SubstraitPlanVisitor.cpp:40-64 `parseString`. -/
def stringValue (s : Str) : Str :=
  if StringManipulation.startsWith s "```".toList then inner 3 s
  else if StringManipulation.startsWith s "``".toList then inner 2 s
  else match s with
    | '"' :: _ => inner 1 s
    | '`' :: _ => inner 1 s
    | _ => s

/-- `std::stoul`: blanks, an optional sign, digits; what follows is ignored.  `unsigned long`
has 64 bits, and a minus negates in it. -/
def stoul (s : Str) : Outcome Nat :=
  let r := signDigits (s.dropWhile StringUtils.isSpace)
  if r.2.isEmpty then .throw .invalidArgument
  else if 18446744073709551615 < digitsVal r.2 then .throw .outOfRange
  else if r.1 then .ok ((18446744073709551616 - digitsVal r.2) % 18446744073709551616)
  else .ok (digitsVal r.2)

/-- The item a detail makes of an item, SubstraitPlanVisitor.cpp:484-486 and 497-507. -/
def applyDetail (d : FileDetail) (f : File) : Outcome File :=
  match d with
  | .partition n => (stoul n).map fun v => { f with partition := v }
  | .start n => (stoul n).map fun v => { f with start := v }
  | .length n => (stoul n).map fun v => { f with length := v }
  | .orc => .ok { f with format := .orc }
  | .parquet => .ok { f with format := .parquet }
  | .file s => .ok { f with path := .uriFile (stringValue s) }
  | .location => .ok f

/-- SubstraitPlanVisitor.cpp:477-511: the details of a file go to the item of the first symbol
with the text of the file; the cast of another symbol throws.  Looking up nothing and going
through the null pointer is undefined. -/
def applyDetails (name : Str) (ds : List FileDetail) : List Symbol → Outcome (List Symbol)
  | [] => if ds.isEmpty then .ok [] else .ub
  | s :: ss =>
    if s.name = name then
      match s.info, ds with
      | _, [] => .ok (s :: ss)
      | .file f, _ =>
        (ds.foldl (fun (o : Outcome File) d => o.bind (applyDetail d)) (.ok f)).map fun g =>
          { s with info := .file g } :: ss
      | _, _ => .throw .invalidArgument
    else (applyDetails name ds ss).map fun r => s :: r

/-- SubstraitPlanVisitor.cpp:518-532 `visitLocal_files_detail`. -/
def addFiles (loc : Nat) : List FileTree → List Symbol → Outcome (List Symbol)
  | [], l => .ok l
  | f :: fs, l =>
    (applyDetails f.text f.details (l ++ [⟨f.text, loc, .file File.empty⟩])).bind fun l' =>
      addFiles loc fs l'

/-- SubstraitPlanVisitor.cpp:344-353 `visitSource_definition`, 518-532
`visitLocal_files_detail` and 554-566 `visitNamed_table_detail`. -/
def addSource (loc : Nat) (l : List Symbol) : SourceTree → Outcome (List Symbol)
  | .localFiles id fs => addFiles loc fs (l ++ [⟨id, loc, .source .files⟩])
  | .namedTable id ss =>
    .ok (l ++ ⟨id, loc, .source .named⟩ ::
      ss.map fun s => ⟨extractFromString s, loc, .table⟩)
  | .virtualTable id => .ok (l ++ [⟨id, loc, .source .virtual⟩])
  | .extensionTable id => .ok (l ++ [⟨id, loc, .source .extension⟩])

/-- SubstraitPlanVisitor.cpp:205-226: the columns of a schema. -/
def readColumns (loc : Nat) : List (Str × TypeTree) → Got (List Symbol)
  | [] => .ok ([], [])
  | c :: cs =>
    (readType c.2).bind fun t => (readColumns loc cs).map fun r =>
      (⟨c.1, loc, .column t.1⟩ :: r.1, t.2 ++ r.2)

/-- SubstraitPlanVisitor.cpp:117-182: the symbols of an extension space. -/
def spaceSymbols (loc : Nat) (t : Ext.SpaceTree) : List Symbol :=
  (t.uri.toList.map fun u => ⟨u, loc, .space⟩) ++
    t.functions.map fun f => ⟨f.alias.getD (Ext.shortName f.name), loc, .function⟩

/-- One of the definitions that are visited first. -/
def visitDefinition (loc : Nat) (st : State) : PlanDetail → Outcome State
  | .schema id cs =>
    (readColumns loc cs).map fun r =>
      { st with
        symbols := st.symbols ++ ⟨id, loc, .schema⟩ :: r.1
        errs := st.errs ++ r.2.map .type }
  | .source t => (addSource loc st.symbols t).map fun l => { st with symbols := l }
  | .space t =>
    .ok { st with
      symbols := st.symbols ++ spaceSymbols loc t
      ext := Ext.visitSpace st.ext t
      errs := st.errs ++
        (t.functions.filter fun f => Ext.lacksType f.name).map fun _ => .untyped }
  | _ => .ok st

/-- SubstraitPlanVisitor.cpp:265-325 `visitRelation`.  Simplification: this visitor also looks
at the types in the details of the relation; the later visitors do that again. -/
def visitRelation (loc : Nat) (st : State) : PlanDetail → State
  | .relation t =>
    { st with
      symbols := match lookup st.symbols t.ref.id with
        | some _ => st.symbols
        | none => st.symbols ++ [⟨t.ref.id, loc, .relation (Enum.readRelationType t.type)⟩]
      errs := st.errs ++ (match Enum.readRelationType t.type with
        | some _ => []
        | none => [.relationType]) ++ match lookup st.symbols t.ref.id with
        | some _ => [.relationTwice]
        | none => [] }
  | _ => st

def rootNamesName : Str := "root.names".toList
def rootName : Str := "root".toList

/-- SubstraitPlanVisitor.cpp:228-263 `visitRoot_relation`. -/
def visitRoot (loc : Nat) (st : State) : PlanDetail → State
  | .root names =>
    match lookup st.symbols rootNamesName with
    | some _ => { st with errs := st.errs ++ [.rootTwice] }
    | none =>
      match lookup st.symbols rootName with
      | some _ => { st with errs := st.errs ++ [.rootTaken] }
      | none =>
        { st with symbols := st.symbols ++
          [⟨rootName, loc, .rootRelation⟩, ⟨rootNamesName, loc, .rootNames names⟩] }
  | _ => st

/-- The definitions of a plan in order; `loc` is the number of the first. -/
def visitDefinitions : Nat → List PlanDetail → State → Outcome State
  | _, [], st => .ok st
  | loc, d :: ds, st => (visitDefinition loc st d).bind fun st => visitDefinitions (loc + 1) ds st

def visitRelations : Nat → List PlanDetail → State → State
  | _, [], st => st
  | loc, d :: ds, st => visitRelations (loc + 1) ds (visitRelation loc st d)

def visitRoots : Nat → List PlanDetail → State → State
  | _, [], st => st
  | loc, d :: ds, st => visitRoots (loc + 1) ds (visitRoot loc st d)

/-- SubstraitPlanVisitor.cpp:71-100 `visitPlan`: definitions, relations, roots.  The pipelines
define nothing. -/
def visitPlan (ds : List PlanDetail) : Outcome State :=
  (visitDefinitions 0 ds {}).map fun st => visitRoots 0 ds (visitRelations 0 ds st)

/-! ## Looking up -/

/-- SubstraitPlanSubqueryRelationVisitor.cpp:660-666: the columns with the location of the
symbol. -/
def columnsAt (l : List Symbol) (loc : Nat) : List (Str × PbType) :=
  l.filterMap fun s => match s.info with
    | .column t => if s.loc = loc then some (s.name, t) else none
    | _ => none

def isSet : PbType → Bool
  | .notSet => false
  | _ => true

/-- The types that are set. -/
def setTypes (l : List PbType) : List PbType := l.filter isSet

/-- SubstraitPlanSubqueryRelationVisitor.cpp:659-676: the struct is there as soon as one type
is. -/
def structOf (cols : List (Str × PbType)) : NamedStruct where
  names := cols.map (·.1)
  struct := match setTypes (cols.map (·.2)) with
    | [] => none
    | ts => some (ts, .required)

/-- SubstraitPlanSubqueryRelationVisitor.cpp:645-684 `visitRelationUsesSchema`: the base schema
of a read relation; a name that is not known is ignored. -/
def schemaOf (l : List Symbol) (n : Str) : Option NamedStruct :=
  (lookup l n).map fun s => structOf (columnsAt l s.loc)

/-- SubstraitPlanSubqueryRelationVisitor.cpp:1043-1053: the items with the location of the
source. -/
def filesAt (l : List Symbol) (loc : Nat) : List File :=
  l.filterMap fun s => match s.info with
    | .file f => if s.loc = loc then some f else none
    | _ => none

/-- SubstraitPlanSubqueryRelationVisitor.cpp:1059-1065: the names with the location of the
source. -/
def tablesAt (l : List Symbol) (loc : Nat) : List Str :=
  l.filterMap fun s => match s.info with
    | .table => if s.loc = loc then some s.name else none
    | _ => none

/-- SubstraitPlanSubqueryRelationVisitor.cpp:1034-1078 `visitRelationSourceReference`: the
source of a read relation.  A name that is not known, virtual tables and extension tables are
ignored; the cast of the subtype of a symbol that is no source throws. -/
def sourceOf (l : List Symbol) (n : Str) : Outcome (Option Source) :=
  match lookup l n with
  | none => .ok none
  | some s =>
    match s.info with
    | .source .files => .ok (some (.files (filesAt l s.loc)))
    | .source .named => .ok (some (.named (tablesAt l s.loc)))
    | .source _ => .ok none
    | .rootNames _ => .ok none
    | _ => .throw .invalidArgument

/-- What the reader of a relation finds for the name of a source (1034-1042). -/
def sourceSymbol (l : List Symbol) (n : Str) : Option Rel.SourceSymbol :=
  (lookup l n).map fun s => match s.info with
    | .source .files => .files
    | .source .named => .named
    | .source .virtual => .virtual
    | .source .extension => .extension
    | .rootNames _ => .unknown
    | _ => .notSource

/-- SubstraitPlanSubqueryRelationVisitor.cpp:2153-2165 `fullyQualifiedReference`: the first
schema with the location of a field. -/
def schemaAt (l : List Symbol) (loc : Nat) : Option Str :=
  l.findSome? fun s => match s.info with
    | .schema => if s.loc = loc then some s.name else none
    | _ => none

/-- SubstraitPlanSubqueryRelationVisitor.cpp:657-667: the fields a relation gets from a schema.
The symbols of columns have no alias. -/
def columnFields (l : List Symbol) (n : Str) : Option (List Schema.Field) :=
  (lookup l n).map fun s => (columnsAt l s.loc).mapIdx fun k c =>
    ⟨.column n k, c.1, [], schemaAt l s.loc⟩

def rootOf (s : Symbol) : Option (List Str) :=
  match s.info with
  | .rootNames ns => some ns
  | _ => none

/-- SymbolTablePrinter.cpp:1126-1134: the names of the first root. -/
def rootNamesOf (l : List Symbol) : Option (List Str) := l.findSome? rootOf

/-- The symbol table of a text; `none` is a syntax error. -/
def readPlan (text : Str) : Option (Outcome State) := (detailsOf text).map visitPlan

end Verif.Sec
