import Verif.Model.Parser
import Verif.Model.SymbolTable

/-!
Model of extension spaces and functions in text plans and in symbol tables:
reading (src/substrait/textplan/parser/SubstraitPlanVisitor.cpp:117-192), reading from a binary
plan (src/substrait/textplan/converter/InitialPlanProtoVisitor.cpp:25-31, 203-236) and writing
(src/substrait/textplan/SymbolTablePrinter.cpp:332-487).

Only the symbols of the types `kExtensionSpace` and `kFunction` are kept, each in the order of
the symbol table.  `Sorter` is `std::sort` on pairs of strings.
-/

namespace Verif.Ext

open Verif Lex Parse

/-! ## Parse trees -/

/-- SubstraitPlanParser.g4 `function`: the text of the `name`, and the `id` after `AS`. -/
structure FunctionTree where
  name : Str
  alias : Option Str
  deriving DecidableEq, Repr

/-- SubstraitPlanParser.g4 `extensionspace`. -/
structure SpaceTree where
  uri : Option Str
  functions : List FunctionTree
  deriving DecidableEq, Repr

/-- `name: id COLON signature?`. -/
def parseName (ts : List Token) : Option (Str × List Token) :=
  (parseId ts).bind fun i => (expect .colon i.2).bind fun r =>
    match r with
    | t :: _ =>
      if isSimpleId t.kind then (parseId r).map fun s => (i.1 ++ ':' :: s.1, s.2)
      else some (i.1 ++ [':'], r)
    | [] => some (i.1 ++ [':'], r)

/-- `(AS id)?`. -/
def parseAlias (ts : List Token) : Option (Option Str × List Token) :=
  if nextIs .as ts then (parseId ts.tail).map fun i => (some i.1, i.2) else some (none, ts)

/-- `function* RIGHTBRACE`, at most so many. -/
def parseFunctions : Nat → List Token → Option (List FunctionTree × List Token)
  | 0, _ => none
  | f + 1, ts =>
    if nextIs .function ts then
      (parseName ts.tail).bind fun n => (parseAlias n.2).bind fun a =>
        (expect .semicolon a.2).bind fun r =>
          (parseFunctions f r).map fun m => (⟨n.1, a.1⟩ :: m.1, m.2)
    else (expect .rightBrace ts).map fun r => ([], r)

/-- `URI?`. -/
def parseUri (ts : List Token) : Option Str × List Token :=
  match ts with
  | t :: r => if t.kind = .uri then (some t.text, r) else (none, ts)
  | [] => (none, [])

/-- A plan that consists of extension spaces, at most so many.  Simplification: the other
sections of a plan are not part of this model. -/
def parseSpaces : Nat → List Token → Option (List SpaceTree)
  | 0, _ => none
  | _ + 1, [] => some []
  | f + 1, t :: ts =>
    if t.kind = .extensionSpace then
      let u := parseUri ts
      (expect .leftBrace u.2).bind fun r => (parseFunctions (r.length + 1) r).bind fun m =>
        (parseSpaces f m.2).map fun rest => ⟨u.1, m.1⟩ :: rest
    else none

/-- The extension spaces of a text. -/
def spacesOf (text : Str) : Option (List SpaceTree) :=
  (lex text).bind fun ts => parseSpaces (ts.length + 1) ts

/-! ## The symbol table -/

/-- A symbol of type `kExtensionSpace` with its `ExtensionSpaceData`. -/
structure SpaceSym where
  uri : Str
  anchor : Nat
  deriving DecidableEq, Repr

/-- A symbol of type `kFunction` with its `FunctionData`. -/
structure FunSym where
  symbol : Str
  name : Str
  space : Option Nat
  anchor : Nat
  deriving DecidableEq, Repr

structure Table where
  spaces : List SpaceSym := []
  funs : List FunSym := []
  deriving DecidableEq, Repr

/-- The part of a name before the colon: SubstraitPlanVisitor.cpp:155-159 and
InitialPlanProtoVisitor.cpp:25-31 `shortName`. -/
def shortName (name : Str) : Str :=
  match findFirst ':' name with
  | some i => name.take i
  | none => name

/-- SubstraitPlanVisitor.cpp:166-173: whether "Functions should have an associated type." is
reported. -/
def lacksType (name : Str) : Bool :=
  match findFirst ':' name with
  | some i => (name.drop (i + 1)).isEmpty
  | none => true

/-! ## Reading text -/

/-- The state of the visitor: its two counters (SubstraitPlanVisitor.h:123-124), the symbols,
and the names of the functions for which an error was reported.  Simplification: the counters
are unbounded. -/
structure State where
  numSpaces : Nat := 0
  numFuns : Nat := 0
  table : Table := {}
  untyped : List Str := []
  deriving DecidableEq, Repr

/-- SubstraitPlanVisitor.cpp:147-182 `visitFunction`.  `space` is what line 140 writes into the
function afterwards. -/
def visitFunction (space : Option Nat) (s : State) (t : FunctionTree) : State where
  numSpaces := s.numSpaces
  numFuns := s.numFuns + 1
  table := { s.table with funs := s.table.funs ++
    [⟨t.alias.getD (shortName t.name), t.name, space, s.numFuns⟩] }
  untyped := s.untyped ++ if lacksType t.name then [t.name] else []

/-- SubstraitPlanVisitor.cpp:117-145 `visitExtensionspace`. -/
def visitSpace (s : State) (t : SpaceTree) : State :=
  match t.uri with
  | none => t.functions.foldl (visitFunction none) s
  | some uri =>
    let this := s.numSpaces + 1
    t.functions.foldl (visitFunction (some this))
      { s with
        numSpaces := this
        table := { s.table with spaces := s.table.spaces ++ [⟨uri, this⟩] } }

/-- SubstraitPlanVisitor.cpp:70-79: the extension spaces of a plan in order. -/
def readSpaces (ts : List SpaceTree) : State := ts.foldl visitSpace {}

/-! ## Writing text -/

/-- The map `spaceNames`, SymbolTablePrinter.cpp:347-357: `insert` keeps the first name. -/
def nameOf (spaces : List SpaceSym) (a : Nat) : Option Str :=
  (spaces.find? fun s => s.anchor = a).map (·.uri)

/-- `operator<` of `std::string`. -/
def strLess : Str → Str → Bool
  | [], [] => false
  | [], _ :: _ => true
  | _ :: _, [] => false
  | a :: as, b :: bs => if a.toNat < b.toNat then true else if b.toNat < a.toNat then false
    else strLess as bs

/-- SymbolTablePrinter.cpp:336-343: the order of the set of spaces. -/
def spaceLess (spaces : List SpaceSym) (a b : Nat) : Bool :=
  match nameOf spaces a, nameOf spaces b with
  | none, n => n.isSome
  | some _, none => false
  | some x, some y => strLess x y

/-- `std::set::insert`: an element that is equivalent to one in the set is not inserted. -/
def setInsert (less : Nat → Nat → Bool) (x : Nat) : List Nat → List Nat
  | [] => [x]
  | y :: ys =>
    if less x y then x :: y :: ys
    else if less y x then y :: setInsert less x ys
    else y :: ys

/-- SymbolTablePrinter.cpp:365-366: `value()` throws `std::bad_optional_access`. -/
def useSpace (spaces : List SpaceSym) (acc : Outcome (List Nat)) (f : FunSym) : Outcome (List Nat) :=
  acc.bind fun set =>
    match f.space with
    | some a => .ok (setInsert (spaceLess spaces) a set)
    | none => .throw .other

/-- SymbolTablePrinter.cpp:359-367. -/
def usedSpaces (t : Table) : Outcome (List Nat) := t.funs.foldl (useSpace t.spaces) (.ok [])

/-- A block of the section: the URI, and the functions as (short name, name). -/
structure Block where
  uri : Option Str
  functions : List (Str × Str)
  deriving DecidableEq, Repr

/-- `std::sort` on the pairs of names. -/
abbrev Sorter := List (Str × Str) → List (Str × Str)

/-- SymbolTablePrinter.cpp:383-399. -/
def blockOf (sort : Sorter) (t : Table) (space : Nat) : Block where
  uri := nameOf t.spaces space
  functions := sort ((t.funs.filter fun f => f.space = none ∨ f.space = some space).map
    fun f => (f.symbol, f.name))

/-- SymbolTablePrinter.cpp:369-402: the blocks. -/
def blocks (sort : Sorter) (t : Table) : Outcome (List Block) :=
  (usedSpaces t).map fun l => l.map (blockOf sort t)

/-- SymbolTablePrinter.cpp:400-402: one function. -/
def functionText (f : Str × Str) : Str :=
  "  function ".toList ++ f.2 ++ " as ".toList ++ f.1 ++ ";\n".toList

/-- SymbolTablePrinter.cpp:376-404: one block. -/
def blockText (b : Block) : Str :=
  (match b.uri with
    | none => "extension_space {\n".toList
    | some uri => "extension_space ".toList ++ uri ++ " {\n".toList) ++
  (b.functions.map functionText).flatten ++ "}\n".toList

/-- SymbolTablePrinter.cpp:371-375: the blocks with empty lines between them. -/
def sectionText : List Block → Str
  | [] => []
  | [b] => blockText b
  | b :: c :: rest => blockText b ++ '\n' :: sectionText (c :: rest)

/-- SymbolTablePrinter.cpp:332-407 `outputFunctionsSection`. -/
def printFunctions (sort : Sorter) (t : Table) : Outcome Str :=
  (blocks sort t).map sectionText

/-! ## Reading and writing binary plans -/

/-- `SimpleExtensionURI`. -/
structure PbUri where
  uri : Str
  anchor : Nat
  deriving DecidableEq, Repr

/-- `SimpleExtensionDeclaration.ExtensionFunction`; the reference 0 is the default. -/
structure PbFunction where
  anchor : Nat
  name : Str
  uriRef : Nat
  deriving DecidableEq, Repr

/-- SymbolTablePrinter.cpp:409-424 `outputExtensionSpacesToBinaryPlan`. -/
def binaryUris (t : Table) : List PbUri := t.spaces.map fun s => ⟨s.uri, s.anchor⟩

/-- `std::set<uint32_t>::insert`. -/
def insertNat (x : Nat) : List Nat → List Nat := setInsert (fun a b => decide (a < b)) x

/-- SymbolTablePrinter.cpp:451-453. -/
def useNumber (set : List Nat) (f : FunSym) : List Nat :=
  match f.space with
  | some a => insertNat a set
  | none => set

/-- SymbolTablePrinter.cpp:444-454. -/
def usedNumbers (funs : List FunSym) : List Nat := funs.foldl useNumber []

/-- SymbolTablePrinter.cpp:426-485 `outputFunctionsToBinaryPlan`. -/
def binaryFunctions (t : Table) : List PbFunction :=
  ((usedNumbers t.funs).map fun space =>
    (t.funs.filter fun f => f.space = some space).map fun f =>
      (⟨f.anchor, f.name, if (nameOf t.spaces space).isSome then space else 0⟩ : PbFunction)).flatten
  ++ (t.funs.filter fun f => f.space = none).map fun f => ⟨f.anchor, f.name, 0⟩

/-- InitialPlanProtoVisitor.cpp:203-225 `visitExtension`, on a declaration of a function.  The
table gives the unique names. -/
def addFunction (s : Sym.Table Unit × List FunSym) (f : PbFunction) :
    Sym.Table Unit × List FunSym :=
  let u := s.1.getUniqueName (shortName f.name)
  (u.1, s.2 ++ [⟨u.2, f.name, some f.uriRef, f.anchor⟩])

/-- BasePlanProtoVisitor.cpp:1230-1236: the URIs and functions of a binary plan, in the first
lines of the visit. -/
def readBinary (uris : List PbUri) (funs : List PbFunction) : Table where
  spaces := uris.map fun u => ⟨u.uri, u.anchor⟩
  funs := (funs.foldl addFunction (Sym.Table.empty, [])).2

end Verif.Ext
