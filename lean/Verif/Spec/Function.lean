import Verif.Model.Function
import Verif.Spec.TypeMatch

/-!
# Specification of function declaration and lookup
-/

namespace Verif.Fn

open Verif Ty

/-- A history of function declarations: which kind, which implementation, in order. -/
abbrev History := List (FnKind × Impl)

/-- The extension after a history of declarations. -/
def build (h : History) : Extension := h.foldl (fun x e => x.addImpl e.1 e.2) Extension.empty

/-- The implementations of one kind and name, in declaration order. -/
def declared (h : History) (k : FnKind) (name : Str) : List Impl :=
  (h.filter fun e => e.1 = k ∧ e.2.name = name).map (·.2)

/-- An optional type as a pointer. -/
def optObj : Option CType → PType
  | some t => t.obj
  | none => .null

/-- A call with concrete argument types and an optional concrete return type. -/
def concreteCall (name : Str) (args : List CType) (ret : Option CType) : Call :=
  ⟨name, CType.objs args, optObj ret⟩

/-- A declared type that can be used: a declaration, or absent. -/
def optDecl (t : PType) : Prop := t = .null ∨ t.isDecl = true

/-- An implementation whose types are declarations and whose variadic form, if any, has an
argument to repeat. -/
structure Impl.WellFormed (f : Impl) : Prop where
  args : ∀ t, .value t ∈ f.args → t.isDecl = true
  ret : optDecl f.returnType
  variadic : f.variadic ≠ none → f.args ≠ []
  inter : ∀ t, f.cls = .aggregate t → optDecl t

/-- The declared return type does not reject the requested one. -/
def ReturnOk (declared : PType) (ret : Option CType) : Prop :=
  declared = .null ∨ match ret with
    | none => True
    | some t => isMatch declared t.obj = .ok true

/-- Position by position: every declared type accepts the actual type. -/
inductive AcceptAll : List PType → List CType → Prop
  | nil : AcceptAll [] []
  | cons {d a ds as} : isMatch d (CType.obj a) = .ok true → AcceptAll ds as →
      AcceptAll (d :: ds) (a :: as)

/-- The ordinary rules for accepting a call. -/
def Accepts (f : Impl) (args : List CType) (ret : Option CType) : Prop :=
  ReturnOk f.returnType ret ∧
  match f.variadic with
  | none => AcceptAll (valueTypes f.args) args
  | some v =>
    v.min ≤ args.length ∧ (∀ m, v.max = some m → args.length ≤ m) ∧
      ∀ t rest, f.args = .value t :: rest → ∀ a ∈ args, isMatch t a.obj = .ok true

/-- One declaration of an extension file. -/
inductive Decl where
  | fn (k : FnKind) (f : Impl)
  | type (t : TypeVariant)

/-- Adding one declaration. -/
def Decl.apply (x : Extension) : Decl → Extension
  | .fn k f => x.addImpl k f
  | .type t => x.addType t

/-- The function declarations in one section of a document, in order. -/
def sectionDecls (y : Yaml) (k : FnKind) (key uri : Str) (node : Node) : Outcome (List Decl) :=
  (node.get key).bind fun fns =>
    (Outcome.mapM (fun fn : Node =>
      (fn.get "name".toList).bind fun n => n.str.bind fun name =>
      (fn.get "impls".toList).bind fun impls =>
        Outcome.mapM (fun i => (decodeImpl y k name uri i).map (Decl.fn k)) impls.items)
      fns.items).map List.flatten

/-- The type declarations of a document, in order. -/
def typeDecls (uri : Str) (node : Node) : Outcome (List Decl) :=
  (node.get "types".toList).bind fun types =>
    Outcome.mapM (fun t : Node => (t.get "name".toList).bind fun n =>
      match n with
      | .scalar s => .ok (.type ⟨s, uri⟩)
      | _ => .throw .other) types.items

/-- The declarations of one file: scalar functions, aggregate functions, types. -/
def fileDecls (y : Yaml) (uri : Str) : Outcome (List Decl) :=
  (y.file uri).bind fun node =>
  (sectionDecls y .scalar "scalar_functions".toList uri node).bind fun a =>
  (sectionDecls y .aggregate "aggregate_functions".toList uri node).bind fun b =>
  (typeDecls uri node).bind fun c => .ok (a ++ b ++ c)

/-- The value of a key in a YAML map. -/
def field (es : List (Str × Node)) (key : String) : Option Node :=
  (es.find? fun e => e.1 = key.toList).map (·.2)

/-- A well-formed argument declaration and what it declares. -/
inductive ArgNode (y : Yaml) : Node → Arg → Prop
  | enum {es items} : field es "options" = some (.seq items) → field es "required" = none →
      ArgNode y (.map es) (.enum false)
  | enumRequired {es items s b} : field es "options" = some (.seq items) →
      field es "required" = some (.scalar s) → y.bool s = some b → ArgNode y (.map es) (.enum b)
  | value {es s t} : field es "options" = none → field es "value" = some (.scalar s) →
      decode true s = .ok t → ArgNode y (.map es) (.value t)
  | type {es s} : field es "options" = none → field es "value" = none →
      field es "type" = some (.scalar s) → ArgNode y (.map es) .type

/-- The same for a list. -/
inductive ArgNodes (y : Yaml) : List Node → List Arg → Prop
  | nil : ArgNodes y [] []
  | cons {n a ns as} : ArgNode y n a → ArgNodes y ns as → ArgNodes y (n :: ns) (a :: as)

/-- The declared arguments: no `args` entry or a sequence. -/
inductive ArgsField (y : Yaml) : Option Node → List Arg → Prop
  | absent : ArgsField y none []
  | present {ns as} : ArgNodes y ns as → ArgsField y (some (.seq ns)) as

/-- The declared return type: none, or the type on the last line of the expression. -/
inductive ReturnField : Option Node → PType → Prop
  | absent : ReturnField none .null
  | present {pre line t} : pre = [] ∨ pre.getLast? = some '\n' → '\n' ∉ line →
      decode true line = .ok t → ReturnField (some (.scalar (pre ++ line))) t

/-- The declared variadic behaviour. -/
inductive VariadicField (y : Yaml) : Option Node → Option Variadic → Prop
  | absent : VariadicField y none none
  | noMin {es} : field es "min" = none → VariadicField y (some (.map es)) none
  | atLeast {es s lo} : field es "min" = some (.scalar s) → y.int s = some lo →
      field es "max" = none → VariadicField y (some (.map es)) (some ⟨lo, none⟩)
  | between {es s lo s' hi} : field es "min" = some (.scalar s) → y.int s = some lo →
      field es "max" = some (.scalar s') → y.int s' = some hi →
      VariadicField y (some (.map es)) (some ⟨lo, some hi⟩)

/-- The class of the implementation: only aggregates have an intermediate type. -/
inductive ClassField : FnKind → Option Node → Class → Prop
  | other {k n} : k ≠ .aggregate → ClassField k n .scalar
  | noIntermediate : ClassField .aggregate none (.aggregate .null)
  | intermediate {s t} : decode true s = .ok t →
      ClassField .aggregate (some (.scalar s)) (.aggregate t)

/-- `dirname` of a path that has a slash: everything before the last slash. -/
def IsDirname (dir base : Str) : Prop := ∃ name, base = dir ++ '/' :: name ∧ '/' ∉ name

end Verif.Fn
