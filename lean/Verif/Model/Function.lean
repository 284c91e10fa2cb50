import Verif.Model.Type

/-!
Model of `include/substrait/function/*.h`, `src/substrait/function/Function.cpp`,
`FunctionLookup.cpp` and `Extension.cpp`.
-/

namespace Verif.Fn

open Verif Ty

/-- Function.h:12-86: the three argument classes. -/
inductive Arg where
  | enum (required : Bool)
  | type
  | value (type : PType)
  deriving Repr

/-- Function.h:88-91. -/
structure Variadic where
  min : Int
  max : Option Int
  deriving Repr, DecidableEq

/-- Function.h:109-116: the dynamic class of an implementation.  The `deterministic` member
of the aggregate class is never read. -/
inductive Class where
  | scalar
  | aggregate (intermediate : PType)
  deriving Repr

/-- Function.h:93-105.  A missing return type is the null pointer. -/
structure Impl where
  name : Str
  uri : Str
  args : List Arg
  returnType : PType
  variadic : Option Variadic
  cls : Class
  deriving Repr

/-- FunctionSignature.h:9-13: a call.  The types are pointers. -/
structure Call where
  name : Str
  args : List PType
  returnType : PType
  deriving Repr

/-- Conversion of an `int` to `size_t` (64 bits), as in the comparisons at Function.cpp:13-14. -/
def toSizeT (i : Int) : Nat := (i % 18446744073709551616).toNat

/-- Function.cpp:22-26 and 42-47: the matching loops; `false` ends the loop. -/
def matchAll : List (PType × PType) → Outcome Bool
  | [] => .ok true
  | (d, a) :: rest => (isMatch d a).andThen (matchAll rest)

/-- Function.cpp:29-35: the value arguments. -/
def valueTypes (args : List Arg) : List PType :=
  args.filterMap fun a => match a with | .value t => some t | _ => none

/-- Function.cpp:13-14. -/
def outOfBounds (v : Variadic) (n : Nat) : Bool :=
  n < toSizeT v.min || (match v.max with | some m => toSizeT m < n | none => false)

/-- Function.cpp:49-54. -/
def matchReturn (declared actual : PType) : Outcome Bool :=
  if declared.isNull || actual.isNull then .ok true else isMatch declared actual

/-- Function.cpp:10-48: the arguments. -/
def matchArgs (f : Impl) (args : List PType) : Outcome Bool :=
  match f.variadic with
  | some v =>
    if outOfBounds v args.length then .ok false
    else
      match f.args with
      | [] => .ub
      | .value t :: _ => matchAll (args.map fun a => (t, a))
      | _ :: _ => .ok true
  | none =>
    if (valueTypes f.args).length ≠ args.length then .ok false
    else matchAll ((valueTypes f.args).zip args)

/-- Function.cpp:8-55 `FunctionImplementation::tryMatch`. -/
def tryMatchBase (f : Impl) (call : Call) : Outcome Bool :=
  (matchArgs f call.args).andThen (matchReturn f.returnType call.returnType)

/-- Function.cpp:75-85 and the virtual dispatch of `tryMatch`. -/
def tryMatch (f : Impl) (call : Call) : Outcome Bool :=
  match f.cls with
  | .scalar => tryMatchBase f call
  | .aggregate inter =>
    (tryMatchBase f call).bind fun matched =>
      if !matched && !inter.isNull then
        match call.args with
        | [a] => isMatch inter a
        | _ => .ok matched
      else .ok matched

/-- Function.h: `toTypeString` of the argument classes. -/
def Arg.typeString : Arg → Outcome Str
  | .enum r => .ok (if r then "req".toList else "opt".toList)
  | .type => .ok "type".toList
  | .value t => signature t

/-- Items separated by `_` (Function.cpp:62-69). -/
def joinUnderscore : List Str → Str
  | [] => []
  | [s] => s
  | s :: rest => s ++ '_' :: joinUnderscore rest

/-- Function.cpp:57-73 `FunctionImplementation::signature`. -/
def Impl.signature (f : Impl) : Outcome Str :=
  if f.args.isEmpty then .ok f.name
  else (Outcome.mapM Arg.typeString f.args).bind fun ss => .ok (f.name ++ ':' :: joinUnderscore ss)

/-! ## The registry -/

/-- The three function maps of an extension (Extension.h:71-78). -/
inductive FnKind where
  | scalar | aggregate | window
  deriving DecidableEq, Repr

/-- Extension.h:23-24: `unordered_map<string, vector<Impl>>` as an association list with at
most one entry per name. -/
abbrev ImplMap := List (Str × List Impl)

/-- Extension.h:16-19. -/
structure TypeVariant where
  name : Str
  uri : Str
  deriving DecidableEq, Repr

/-- Extension.h:71-78. -/
structure Extension where
  scalar : ImplMap
  aggregate : ImplMap
  window : ImplMap
  types : List (Str × TypeVariant)
  deriving Repr

def Extension.empty : Extension := ⟨[], [], [], []⟩

/-- `unordered_map::find`. -/
def ImplMap.find (m : ImplMap) (name : Str) : Option (List Impl) :=
  (m.find? fun e => e.1 = name).map (·.2)

/-- Extension.cpp:222-233, 247-258, 260-272: append to the entry of the name, or insert a new
entry. -/
def ImplMap.add (m : ImplMap) (f : Impl) : ImplMap :=
  match m with
  | [] => [(f.name, [f])]
  | (n, fs) :: rest => if n = f.name then (n, fs ++ [f]) :: rest else (n, fs) :: ImplMap.add rest f

def Extension.implMap (x : Extension) : FnKind → ImplMap
  | .scalar => x.scalar
  | .aggregate => x.aggregate
  | .window => x.window

/-- `addScalarFunctionImpl`, `addAggregateFunctionImpl`, `addWindowFunctionImpl`
(Extension.cpp:222-233, 247-258, 260-272). -/
def Extension.addImpl (x : Extension) (k : FnKind) (f : Impl) : Extension :=
  match k with
  | .scalar => { x with scalar := x.scalar.add f }
  | .aggregate => { x with aggregate := x.aggregate.add f }
  | .window => { x with window := x.window.add f }

/-- Extension.cpp:235-237: `unordered_map::insert` keeps an existing entry. -/
def Extension.addType (x : Extension) (t : TypeVariant) : Extension :=
  if x.types.any (fun e => e.1 = t.name) then x
  else { x with types := x.types ++ [(t.name, t)] }

/-- Extension.cpp:239-245. -/
def Extension.lookupType (x : Extension) (name : Str) : Option TypeVariant :=
  (x.types.find? fun e => e.1 = name).map (·.2)

/-- FunctionLookup.cpp:12-17: the candidate loop. -/
def firstMatch : List Impl → Call → Outcome (Option Impl)
  | [], _ => .ok none
  | f :: fs, call => (tryMatch f call).bind fun m => if m then .ok (some f) else firstMatch fs call

/-- FunctionLookup.cpp:7-19 with the `getFunctionImpls` of the three lookup classes
(FunctionLookup.h:28-59). -/
def Extension.lookup (x : Extension) (k : FnKind) (call : Call) : Outcome (Option Impl) :=
  match (x.implMap k).find call.name with
  | some fs => firstMatch fs call
  | none => .ok none

/-! ## Loading YAML files -/

/-- A `YAML::Node` as the loader sees it.  `undef` is the node returned for a missing key.
Keys are strings; other keys are never asked for. -/
inductive Node where
  | undef
  | null
  | scalar (text : Str)
  | seq (items : List Node)
  | map (entries : List (Str × Node))
  deriving Repr

/-- The scalar conversions of yaml-cpp used by the loader. -/
structure Yaml where
  /-- `YAML::LoadFile`: the document, or an exception. -/
  file : Str → Outcome Node
  /-- `as<int>` on scalar text. -/
  int : Str → Option Int
  /-- `as<bool>` on scalar text. -/
  bool : Str → Option Bool

/-- `node[key]` on a const node: undefined nodes and scalars throw, null nodes, sequences
and missing keys give an undefined node. -/
def Node.get : Node → Str → Outcome Node
  | .undef, _ => .throw .other
  | .scalar _, _ => .throw .other
  | .null, _ => .ok .undef
  | .seq _, _ => .ok .undef
  | .map es, k => .ok (((es.find? fun e => e.1 = k).map (·.2)).getD .undef)

/-- `static_cast<bool>(node)`. -/
def Node.defined : Node → Bool
  | .undef => false
  | _ => true

/-- `node.as<std::string>()`.  Simplification: a null node throws. -/
def Node.str : Node → Outcome Str
  | .scalar s => .ok s
  | _ => .throw .other

/-- `node.as<int>()`. -/
def Node.int (y : Yaml) : Node → Outcome Int
  | .scalar s => match y.int s with | some i => .ok i | none => .throw .other
  | _ => .throw .other

/-- `node.as<bool>()`. -/
def Node.bool (y : Yaml) : Node → Outcome Bool
  | .scalar s => match y.bool s with | some i => .ok i | none => .throw .other
  | _ => .throw .other

/-- The items a range-for visits.  Simplification: a map is not iterated. -/
def Node.items : Node → List Node
  | .seq l => l
  | _ => []

/-- Extension.cpp:14-20: what `lastReturnType` holds after the `getline` loop.  `cur` is the
line being read.  When the text ends in a newline the last, failing, `getline` clears the
variable; on the empty text it does too. -/
def lastLine : Str → Str → Str
  | [], cur => cur
  | c :: cs, cur => if c = '\n' then lastLine cs [] else lastLine cs (cur ++ [c])

/-- Extension.cpp:10-23: the return type; null when absent. -/
def decodeReturn (node : Node) : Outcome PType :=
  (node.get "return".toList).bind fun r =>
    match r with
    | .scalar s => decode true (lastLine s [])
    | _ => .ok .null

/-- Extension.cpp:27-39 with the conversions at 61-98: one argument. -/
def decodeArg (y : Yaml) (arg : Node) : Outcome Arg :=
  (arg.get "options".toList).bind fun options =>
  if options.defined then
    match options with
    | .seq _ =>
      (arg.get "required".toList).bind fun required =>
        if required.defined then (required.bool y).bind fun b => .ok (.enum b)
        else .ok (.enum false)
    | _ => .throw .other
  else
    (arg.get "value".toList).bind fun value =>
    if value.defined then
      match value with
      | .scalar s => (decode true s).bind fun t => .ok (.value t)
      | _ => .throw .other
    else
      (arg.get "type".toList).bind fun t => if t.defined then .ok .type else .throw .other

/-- Extension.cpp:24-41. -/
def decodeArgs (y : Yaml) (node : Node) : Outcome (List Arg) :=
  (node.get "args".toList).bind fun args =>
    match args with
    | .seq items => Outcome.mapM (decodeArg y) items
    | _ => .ok []

/-- Extension.cpp:43-56. -/
def decodeVariadic (y : Yaml) (node : Node) : Outcome (Option Variadic) :=
  (node.get "variadic".toList).bind fun v =>
  if v.defined then
    (v.get "min".toList).bind fun min =>
    (v.get "max".toList).bind fun max =>
      if min.defined then
        (min.int y).bind fun lo =>
          if max.defined then (max.int y).bind fun hi => .ok (some ⟨lo, some hi⟩)
          else .ok (some ⟨lo, none⟩)
      else .ok none
  else .ok none

/-- Extension.cpp:7-59 `decodeFunctionImpl` with the name and URI set at 183-184 and
201-202. -/
def decodeImplBase (y : Yaml) (name uri : Str) (node : Node) : Outcome Impl :=
  (decodeReturn node).bind fun ret =>
  (decodeArgs y node).bind fun args =>
  (decodeVariadic y node).bind fun variadic =>
    .ok ⟨name, uri, args, ret, variadic, .scalar⟩

/-- Extension.cpp:109-124 for aggregates, 100-107 otherwise. -/
def decodeImpl (y : Yaml) (k : FnKind) (name uri : Str) (node : Node) : Outcome Impl :=
  (decodeImplBase y name uri node).bind fun f =>
    match k with
    | .aggregate =>
      (node.get "intermediate".toList).bind fun i =>
        if i.defined then
          i.str.bind fun s => (decode true s).bind fun t => .ok { f with cls := .aggregate t }
        else .ok { f with cls := .aggregate .null }
    | _ => .ok f

/-- Run the steps in order, stopping at the first exception. -/
def foldOutcome {α σ : Type} (step : σ → α → Outcome σ) : σ → List α → Outcome σ
  | s, [] => .ok s
  | s, a :: as => (step s a).bind fun s' => foldOutcome step s' as

/-- Extension.cpp:180-188 and 197-206: the implementations of one function. -/
def loadImpls (y : Yaml) (k : FnKind) (name uri : Str) (x : Extension) (impls : List Node) :
    Outcome Extension :=
  foldOutcome (fun x n => (decodeImpl y k name uri n).bind fun f => .ok (x.addImpl k f)) x impls

/-- Extension.cpp:178-189 and 194-207: one function. -/
def loadFunction (y : Yaml) (k : FnKind) (uri : Str) (x : Extension) (fn : Node) :
    Outcome Extension :=
  (fn.get "name".toList).bind fun n => n.str.bind fun name =>
  (fn.get "impls".toList).bind fun impls => loadImpls y k name uri x impls.items

/-- Extension.cpp:176-190 and 192-208: one section. -/
def loadSection (y : Yaml) (k : FnKind) (key : Str) (uri : Str) (node : Node) (x : Extension) :
    Outcome Extension :=
  (node.get key).bind fun fns => foldOutcome (loadFunction y k uri) x fns.items

/-- Extension.cpp:210-217 with the conversion at 126-136. -/
def loadType (uri : Str) (x : Extension) (t : Node) : Outcome Extension :=
  (t.get "name".toList).bind fun n =>
    match n with
    | .scalar s => .ok (x.addType ⟨s, uri⟩)
    | _ => .throw .other

/-- Extension.cpp:173-218: one file. -/
def loadFile (y : Yaml) (x : Extension) (uri : Str) : Outcome Extension :=
  (y.file uri).bind fun node =>
  (loadSection y .scalar "scalar_functions".toList uri node x).bind fun x =>
  (loadSection y .aggregate "aggregate_functions".toList uri node x).bind fun x =>
  (node.get "types".toList).bind fun types => foldOutcome (loadType uri) x types.items

/-- Extension.cpp:170-220. -/
def loadFiles (y : Yaml) (files : List Str) : Outcome Extension :=
  foldOutcome (loadFile y) Extension.empty files

/-- Extension.cpp:163-164: the path of one file.  `substr(0, npos)` is the whole string. -/
def extensionPath (base file : Str) : Str :=
  (match findLast '/' base with
    | some p => base.take p
    | none => base) ++ '/' :: file

/-- Extension.cpp:157-168. -/
def load (y : Yaml) (base : Str) (files : List Str) : Outcome Extension :=
  loadFiles y (files.map (extensionPath base))

end Verif.Fn
