import Verif.Model.Location

/-! Model of `src/substrait/textplan/SymbolTable.h` and `SymbolTable.cpp`. -/

namespace Verif.Sym

open Verif

/-- SymbolTable.h:18-34: the values of `SymbolType`. -/
inductive SymbolType where
  | extensionSpace | function | planRelation | relation | schema | schemaColumn | source
  | sourceDetail | field | root | table | measure | unknown
  deriving DecidableEq, Repr

/-- SymbolTable.h:18-34: the numbers of the enumerators. -/
def SymbolType.number : SymbolType → Int
  | .extensionSpace => 0
  | .function => 1
  | .planRelation => 2
  | .relation => 3
  | .schema => 5
  | .schemaColumn => 6
  | .source => 7
  | .sourceDetail => 8
  | .field => 9
  | .root => 10
  | .table => 11
  | .measure => 12
  | .unknown => -1

/-- SymbolTable.cpp:18-29. -/
def typeNames : List Str :=
  ["kExtensionSpace", "kFunction", "kPlanRelation", "kRelation", "kRelationDetail", "kSchema",
    "kSchemaColumn", "kSource", "kSourceDetail", "kField"].map String.toList

/-- SymbolTable.cpp:17-41.  `names[n]` with `n` out of range is undefined. -/
def symbolTypeName (t : SymbolType) : Outcome Str :=
  let n := t.number
  if n = -1 then .ok "kUnknown".toList
  else if n.toNat > typeNames.length then .throw .fail
  else match typeNames[n.toNat]? with
    | some s => .ok s
    | none => .ub

/-- SymbolTable.h:79-107.  Simplification: `schema`, `subtype` and `blob` are one opaque
payload, which the table itself never looks at. -/
structure Symbol (β : Type) where
  name : Str
  alias : Str
  sourceLocation : Location
  permanentLocation : Location
  parentQueryLocation : Location
  parentQueryIndex : Int
  type : SymbolType
  payload : β

/-- The part of a symbol `operator==` looks at, SymbolTable.cpp:65-69. -/
structure Key where
  name : Str
  location : Location
  type : SymbolType
  deriving DecidableEq, Repr

def Symbol.key {β : Type} (s : Symbol β) : Key := ⟨s.name, s.sourceLocation, s.type⟩

/-- SymbolTable.cpp:65-69. -/
def Symbol.equals {β : Type} (s : Symbol β) (k : Key) : Bool :=
  s.name == k.name && s.sourceLocation.eq k.location && s.type == k.type

/-- SymbolTable.h:234-239.  `names_` and `symbolsByName_` are hash maps: lists with one entry
per key.  `symbolsByLocation_` is a `std::multimap`: a list sorted by `std::less<Location>`. -/
structure Table (β : Type) where
  names : List (Str × Nat)
  symbols : List (Symbol β)
  byName : List (Str × Nat)
  byLocation : List (Location × Nat)

def Table.empty {β : Type} : Table β := ⟨[], [], [], []⟩

/-- `find` in a map. -/
def mapFind {α : Type} (m : List (Str × α)) (k : Str) : Option α :=
  (m.find? fun e => e.1 == k).map (·.2)

/-- `insert` in a map: nothing happens if the key is present. -/
def mapInsert {α : Type} (m : List (Str × α)) (k : Str) (v : α) : List (Str × α) :=
  if (mapFind m k).isSome then m else m ++ [(k, v)]

/-- Assignment through an iterator. -/
def mapSet {α : Type} (m : List (Str × α)) (k : Str) (v : α) : List (Str × α) :=
  m.map fun e => if e.1 == k then (k, v) else e

/-- `std::multimap::insert`: behind the elements that are not greater. -/
def multiInsert : List (Location × Nat) → Location → Nat → List (Location × Nat)
  | [], k, v => [(k, v)]
  | e :: es, k, v => if Location.less k e.1 then (k, v) :: e :: es else e :: multiInsert es k v

/-- `std::multimap::equal_range`: the elements neither less nor greater. -/
def multiRange (m : List (Location × Nat)) (k : Location) : List Nat :=
  (m.filter fun e => !Location.less e.1 k && !Location.less k e.1).map (·.2)

variable {β : Type}

/-- SymbolTable.cpp:75-84.  Simplification: the `int32_t` counter does not overflow. -/
def Table.getUniqueName (t : Table β) (base : Str) : Table β × Str :=
  match mapFind t.names base with
  | none => ({ t with names := mapInsert t.names base 1 }, base)
  | some n => ({ t with names := mapSet t.names base (n + 1) }, base ++ natText (n + 1))

/-- SymbolTable.cpp:86-101. -/
def Table.defineSymbol (t : Table β) (name : Str) (loc : Location) (type : SymbolType)
    (payload : β) : Table β :=
  let info : Symbol β :=
    ⟨name, [], loc, Location.unknown, Location.unknown, -1, type, payload⟩
  let symbols := t.symbols ++ [info]
  { t with
    symbols := symbols
    byName := mapInsert t.byName name (symbols.length - 1)
    byLocation := multiInsert t.byLocation loc (symbols.length - 1) }

/-- SymbolTable.cpp:103-111. -/
def Table.defineUniqueSymbol (t : Table β) (name : Str) (loc : Location) (type : SymbolType)
    (payload : β) : Table β :=
  let r := t.getUniqueName name
  r.1.defineSymbol r.2 loc type payload

/-- SymbolTable.cpp:113-123: the first equal symbol, or the number of symbols. -/
def Table.findSymbolIndex (t : Table β) (k : Key) : Nat :=
  t.symbols.findIdx (·.equals k)

/-- `symbols_[index]->...= `: undefined behind the end. -/
def Table.update (t : Table β) (i : Nat) (f : Symbol β → Symbol β) : Outcome (Table β) :=
  if i < t.symbols.length then .ok { t with symbols := t.symbols.modify i f } else .ub

/-- SymbolTable.cpp:125-131. -/
def Table.addPermanentLocation (t : Table β) (k : Key) (loc : Location) : Outcome (Table β) :=
  let i := t.findSymbolIndex k
  (t.update i fun s => { s with permanentLocation := loc }).map fun t =>
    { t with byLocation := multiInsert t.byLocation loc i }

/-- SymbolTable.cpp:139-146: the highest index among the symbols at the location. -/
def highestIndex (symbols : List (Symbol β)) (loc : Location) : Int :=
  symbols.foldl (fun high s =>
    if s.parentQueryLocation.eq loc then
      if s.parentQueryIndex > high then s.parentQueryIndex else high
    else high) (-1)

/-- SymbolTable.cpp:133-148. -/
def Table.setParentQueryLocation (t : Table β) (k : Key) (loc : Location) : Outcome (Table β) :=
  let i := t.findSymbolIndex k
  (t.update i fun s => { s with parentQueryLocation := loc }).bind fun t =>
    t.update i fun s => { s with parentQueryIndex := highestIndex t.symbols loc + 1 }

/-- SymbolTable.cpp:150-154. -/
def Table.addAlias (t : Table β) (alias : Str) (k : Key) : Outcome (Table β) :=
  let i := t.findSymbolIndex k
  (t.update i fun s => { s with alias := alias }).map fun t =>
    { t with byName := mapInsert t.byName alias i }

/-- `symbols_[i].get()` for an index kept in one of the maps. -/
def Table.at? (t : Table β) (i : Nat) : Option (Symbol β) := t.symbols[i]?

/-- SymbolTable.cpp:156-163: the index of the symbol found. -/
def Table.lookupIndexByName (t : Table β) (name : Str) : Option Nat := mapFind t.byName name

/-- SymbolTable.cpp:165-173: the indices of the symbols found. -/
def Table.lookupIndicesByLocation (t : Table β) (loc : Location) : List Nat :=
  multiRange t.byLocation loc

/-- SymbolTable.cpp:156-163. -/
def Table.lookupSymbolByName (t : Table β) (name : Str) : Option (Symbol β) :=
  (t.lookupIndexByName name).bind t.at?

/-- SymbolTable.cpp:165-173. -/
def Table.lookupSymbolsByLocation (t : Table β) (loc : Location) : List (Symbol β) :=
  (t.lookupIndicesByLocation loc).filterMap t.at?

/-- SymbolTable.cpp:181-192. -/
def Table.lookupSymbolByLocationAndTypes (t : Table β) (loc : Location)
    (types : List SymbolType) : Option (Symbol β) :=
  (t.lookupSymbolsByLocation loc).find? fun s => types.contains s.type

/-- SymbolTable.cpp:175-179. -/
def Table.lookupSymbolByLocationAndType (t : Table β) (loc : Location) (type : SymbolType) :
    Option (Symbol β) :=
  t.lookupSymbolByLocationAndTypes loc [type]

/-- SymbolTable.cpp:194-205. -/
def Table.lookupSymbolByParentQueryAndType (t : Table β) (loc : Location) (index : Int)
    (type : SymbolType) : Option (Symbol β) :=
  t.symbols.find? fun s =>
    s.parentQueryLocation.eq loc && s.parentQueryIndex == index && s.type == type

/-- SymbolTable.cpp:207-219: the loop; `none` is `SymbolInfo::kUnknown`. -/
def nthLoop (type : SymbolType) (n : Nat) : Nat → List (Symbol β) → Option (Symbol β)
  | _, [] => none
  | count, s :: rest =>
    if s.type = type then
      if n = count then some s else nthLoop type n (count + 1) rest
    else nthLoop type n count rest

/-- SymbolTable.cpp:207-219. -/
def Table.nthSymbolByType (t : Table β) (n : Nat) (type : SymbolType) : Option (Symbol β) :=
  nthLoop type n 0 t.symbols

end Verif.Sym
