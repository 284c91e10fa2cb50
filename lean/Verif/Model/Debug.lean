import Verif.Model.Schema

/-!
# The debug text of a symbol table

Model of `SymbolTable::toDebugString` (`src/substrait/textplan/SymbolTable.cpp` 225-292).
-/

namespace Verif.Debug

open Verif Schema

/-- What `toDebugString` looks at in a symbol of the type `kRelation` and its `RelationData`
(StructuredSymbolData.h 20-79): the name, the number of `subQueryPipelines`, the fields, and
`generatedFieldReferenceAlternativeExpression`.  Simplification: a symbol of that type always has a
`RelationData`. -/
structure Entry where
  name : Str
  queries : Nat
  data : RelData
  alternative : Nat → Option Str

/-- `std::left << std::setw(n) << s`.  `std::left` stays in force for the whole stream. -/
def fit (n : Nat) (s : Str) : Str := s ++ List.replicate (n - s.length) ' '

/-- SymbolTable.cpp:242-245, 256-259, 275-278: a field with its schema. -/
def fieldText (f : Field) : Str :=
  (match f.schema with
    | some s => s ++ ['.']
    | none => []) ++ f.name

/-- SymbolTable.cpp:246-248, 266-268, 279-281. -/
def aliasText (alias : Str) : Str := if alias.isEmpty then [] else ' ' :: alias

/-- The start of the line of a field: the mark and the number. -/
def rowStart (mark : Char) (n : Nat) : Str := [' ', ' ', ' ', mark] ++ fit 4 (natText n) ++ [' ', ' ']

/-- SymbolTable.cpp:239-250, 272-283: the line of a field of an input or of the output. -/
def row (mark : Char) (n : Nat) (f : Field) : Str :=
  rowStart mark n ++ fieldText f ++ aliasText f.alias

/-- SymbolTable.cpp:252-270: the line of a generated field.  The number has been increased when it is
the key of the alternative expression. -/
def generatedRow (alternative : Nat → Option Str) (n : Nat) (f : Field) : Str :=
  rowStart 'g' n ++ fieldText f ++
    match alternative (n + 1) with
    | some s => ' ' :: s
    | none => aliasText f.alias

/-- A line for each field, numbered from here on. -/
def rows (line : Nat → Field → Str) : Nat → List Field → List Str
  | _, [] => []
  | n, f :: fs => line n f :: rows line (n + 1) fs

/-- SymbolTable.cpp:232-236: the line of a relation. -/
def header (n : Nat) (e : Entry) : Str :=
  fit 4 (natText n) ++ fit 20 e.name ++
    if e.queries = 0 then [] else " SQC=".toList ++ natText e.queries

/-- SymbolTable.cpp:238-283: the lines of the fields of a relation. -/
def entryRows (e : Entry) : List Str :=
  rows (row ' ') 0 e.data.fields ++
    (rows (generatedRow e.alternative) e.data.fields.length e.data.generated ++
      rows (row 'o') 0 e.data.output)

/-- The lines of all relations, numbered from here on. -/
def linesFrom : Nat → List Entry → List Str
  | _, [] => []
  | n, e :: es => header n e :: (entryRows e ++ linesFrom (n + 1) es)

/-- Lines with their ends. -/
def ended (ls : List Str) : Str := ls.flatMap (· ++ ['\n'])

/-- SymbolTable.cpp:225-292 `toDebugString`. -/
def debugText (es : List Entry) : Str :=
  ended (linesFrom 0 es ++ if es.isEmpty then [] else [[]])

end Verif.Debug
