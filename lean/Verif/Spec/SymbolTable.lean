import Verif.Model.SymbolTable

/-!
# Specification of the symbol table

A history is a list of calls.  The log records what each call meant, by plain appending.
-/

namespace Verif.Sym

open Verif

/-- One call on the table. -/
inductive Op (β : Type) where
  | uniqueName (base : Str)
  | define (name : Str) (loc : Location) (type : SymbolType) (payload : β)
  | defineUnique (base : Str) (loc : Location) (type : SymbolType) (payload : β)
  | permanent (symbol : Key) (loc : Location)
  | parent (symbol : Key) (loc : Location)
  | alias (text : Str) (symbol : Key)

/-- Running a call on the table. -/
def Table.run {β : Type} (t : Table β) : Op β → Outcome (Table β)
  | .uniqueName base => .ok (t.getUniqueName base).1
  | .define n l ty p => .ok (t.defineSymbol n l ty p)
  | .defineUnique n l ty p => .ok (t.defineUniqueSymbol n l ty p)
  | .permanent k l => t.addPermanentLocation k l
  | .parent k l => t.setParentQueryLocation k l
  | .alias a k => t.addAlias a k

/-- Running a history. -/
def Table.runAll {β : Type} (t : Table β) : List (Op β) → Outcome (Table β)
  | [] => .ok t
  | op :: ops => (t.run op).bind fun t => t.runAll ops

/-- What happened so far.  Symbols are named by the position of their definition. -/
structure Log (β : Type) where
  /-- the definitions -/
  defs : List (Key × β)
  /-- the bases unique names were asked for -/
  requests : List Str
  /-- names given to symbols, by definition or alias -/
  names : List (Str × Nat)
  /-- locations given to symbols, by definition or later -/
  places : List (Location × Nat)
  aliases : List (Nat × Str)
  permanents : List (Nat × Location)
  parents : List (Nat × Location)

def Log.empty {β : Type} : Log β := ⟨[], [], [], [], [], [], []⟩

/-- The name handed out for the `n+1`-st request of a base. -/
def uniqueText (base : Str) (n : Nat) : Str := if n = 0 then base else base ++ natText (n + 1)

/-- The first definition with the key. -/
def Log.index? {β : Type} (g : Log β) (k : Key) : Option Nat :=
  g.defs.findIdx? fun d => d.1 == k

def Log.addDef {β : Type} (g : Log β) (name : Str) (loc : Location) (type : SymbolType)
    (payload : β) : Log β :=
  { g with
    defs := g.defs ++ [(⟨name, loc, type⟩, payload)]
    names := g.names ++ [(name, g.defs.length)]
    places := g.places ++ [(loc, g.defs.length)] }

/-- The meaning of a call; `none` if it names a symbol that was never defined. -/
def Log.step {β : Type} (g : Log β) : Op β → Option (Log β)
  | .uniqueName base => some { g with requests := g.requests ++ [base] }
  | .define n l ty p => some (g.addDef n l ty p)
  | .defineUnique base l ty p =>
    some ({ g with requests := g.requests ++ [base] }.addDef
      (uniqueText base (g.requests.count base)) l ty p)
  | .permanent k l => (g.index? k).map fun i =>
    { g with permanents := g.permanents ++ [(i, l)], places := g.places ++ [(l, i)] }
  | .parent k l => (g.index? k).map fun i => { g with parents := g.parents ++ [(i, l)] }
  | .alias a k => (g.index? k).map fun i =>
    { g with aliases := g.aliases ++ [(i, a)], names := g.names ++ [(a, i)] }

def Log.steps {β : Type} (g : Log β) : List (Op β) → Option (Log β)
  | [] => some g
  | op :: ops => (g.step op).bind fun g => g.steps ops

/-- The first value recorded for a key. -/
def first {κ α : Type} [DecidableEq κ] (l : List (κ × α)) (k : κ) : Option α :=
  (l.find? fun e => e.1 == k).map (·.2)

/-- The last value recorded for a key. -/
def last {κ α : Type} [DecidableEq κ] (l : List (κ × α)) (k : κ) : Option α := first l.reverse k

/-- All values recorded for a key, in order. -/
def every {κ α : Type} [DecidableEq κ] (l : List (κ × α)) (k : κ) : List α :=
  (l.filter fun e => e.1 == k).map (·.2)

/-- The table shows exactly what the log says. -/
structure Shows {β : Type} (t : Table β) (g : Log β) : Prop where
  /-- the symbols are the definitions, in order -/
  symbols : t.symbols.map (fun s => (s.key, s.payload)) = g.defs
  /-- a name finds the first symbol it was given to -/
  byName : ∀ n, t.lookupIndexByName n = first g.names n
  /-- a location finds all symbols it was given to, in order -/
  byLocation : ∀ l, t.lookupIndicesByLocation l = every g.places l
  /-- the next unique name depends on the number of earlier requests for the base -/
  unique : ∀ base, (t.getUniqueName base).2 = uniqueText base (g.requests.count base)
  /-- each symbol has the last alias and locations given to it, and no others -/
  alias : ∀ i s, t.symbols[i]? = some s → s.alias = (last g.aliases i).getD []
  permanent : ∀ i s, t.symbols[i]? = some s →
    s.permanentLocation = (last g.permanents i).getD Location.unknown
  parent : ∀ i s, t.symbols[i]? = some s →
    s.parentQueryLocation = (last g.parents i).getD Location.unknown

/-- The names handed out for a list of requests, oldest first. -/
def issued : List Str → List Str → List Str
  | _, [] => []
  | earlier, b :: bs => uniqueText b (earlier.count b) :: issued (earlier ++ [b]) bs

end Verif.Sym
