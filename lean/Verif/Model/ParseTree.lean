import Verif.Model.Lexer

/-!
Parse trees of src/substrait/textplan/parser/grammar/SubstraitPlanParser.g4.  `text` is
ANTLR's `getText()`: the texts of the tokens of a tree, without what was between them.
-/

namespace Verif.Tree

open Verif

/-- Texts separated by commas. -/
def commaText : List Str → Str
  | [] => []
  | [s] => s
  | s :: t :: rest => s ++ ',' :: commaText (t :: rest)

/-- SubstraitPlanParser.g4:113-126: `literal_basic_type` and `literal_complex_type`.
`absent` is an optional type that is not there; `numbers = []` says that there is no
`literal_specifier`.  `kw` is the text of the keyword (any mixture of cases), `q` tells
whether there is a question mark. -/
inductive TypeTree where
  | absent
  | basic (id : Str) (q : Bool) (numbers : List Str)
  | list (kw : Str) (q : Bool) (element : TypeTree)
  | map (kw : Str) (q : Bool) (key : TypeTree) (comma : Bool) (value : TypeTree)
  | struct (kw : Str) (q : Bool) (items : List TypeTree)
  deriving Repr

/-- Text of the optional question mark. -/
def questionText (q : Bool) : Str := if q then ['?'] else []

/-- Text of an optional comma. -/
def optComma (c : Bool) : Str := if c then [','] else []

mutual
/-- `getText()` of a type. -/
def TypeTree.text : TypeTree → Str
  | .absent => []
  | .basic id q numbers =>
    id ++ questionText q ++
      (if numbers.isEmpty then [] else '<' :: commaText numbers ++ ['>'])
  | .list kw q e => kw ++ questionText q ++ '<' :: e.text ++ ['>']
  | .map kw q k c v => kw ++ questionText q ++ '<' :: (k.text ++ optComma c ++ v.text) ++ ['>']
  | .struct kw q items => kw ++ questionText q ++ '<' :: commaText (TypeTree.texts items) ++ ['>']
def TypeTree.texts : List TypeTree → List Str
  | [] => []
  | t :: ts => t.text :: TypeTree.texts ts
end

/-- Text of an optional part that is introduced by a fixed text. -/
def optText (lead : Str) (t : Option TypeTree) : Str :=
  match t with
  | some ty => lead ++ ty.text
  | none => []

/-- SubstraitPlanParser.g4:103-111 and 128-140: `constant`, `map_literal`, `struct_literal`.
`ty` is the type after the underscore; `text` is the text of the token.  The keys and the
values of a map literal are two lists of the same length.  `{}` is a map literal: it fits
both rules and ANTLR takes the first. -/
inductive ConstTree where
  | number (text : Str) (ty : Option TypeTree)
  | string (text : Str) (ty : Option TypeTree)
  | mapLit (keys values : List ConstTree) (ty : Option TypeTree)
  | structLit (items : List ConstTree) (ty : Option TypeTree)
  | null (text : Str) (ty : Option TypeTree)
  | bool (value : Bool) (text : Str) (ty : Option TypeTree)
  deriving Repr

/-- Texts of the pairs of a map literal. -/
def pairTexts : List Str → List Str → List Str
  | k :: ks, v :: vs => (k ++ ':' :: v) :: pairTexts ks vs
  | _, _ => []

mutual
/-- `getText()` of a constant. -/
def ConstTree.text : ConstTree → Str
  | .number t ty => t ++ optText ['_'] ty
  | .string t ty => t ++ optText ['_'] ty
  | .mapLit ks vs ty =>
    '{' :: commaText (pairTexts (ConstTree.texts ks) (ConstTree.texts vs)) ++ '}' :: optText ['_'] ty
  | .structLit cs ty => '{' :: commaText (ConstTree.texts cs) ++ '}' :: optText ['_'] ty
  | .null t ty => t ++ optText ['_'] ty
  | .bool _ t ty => t ++ optText ['_'] ty
def ConstTree.texts : List ConstTree → List Str
  | [] => []
  | c :: cs => c.text :: ConstTree.texts cs
end

/-- SubstraitPlanParser.g4:54-56: `relation_ref`; `kw` is the text of the keyword. -/
structure RelRef where
  id : Str
  schema : Option (Str × Str)
  deriving DecidableEq, Repr

/-- `getText()` of a relation reference. -/
def RelRef.text (r : RelRef) : Str :=
  r.id ++ match r.schema with
    | some (kw, id) => '(' :: kw ++ id ++ [')']
    | none => []

/-- SubstraitPlanParser.g4:88-101: `expression`.  `commas` tells for each argument whether a
comma follows it. -/
inductive ExprTree where
  | call (id : Str) (args : List ExprTree) (commas : List Bool) (ty : Option TypeTree)
  | const (c : ConstTree)
  | column (schema : Option Str) (id : Str)
  | cast (e : ExprTree) (kw : Str) (ty : TypeTree)
  | scalarSubquery (kw : Str) (ref : RelRef)
  | inSubquery (es : List ExprTree) (kw : Str) (ref : RelRef)
  | setPredicate (exist : Bool) (kw : Str) (ref : RelRef)
  | setComparison (e : ExprTree) (op : Str) (all : Bool) (kw : Str) (ref : RelRef)
  deriving Repr

/-- Texts, each followed by an optional comma. -/
def argTexts : List Str → List Bool → Str
  | s :: ss, c :: cs => s ++ optComma c ++ argTexts ss cs
  | _, _ => []

mutual
/-- `getText()` of an expression. -/
def ExprTree.text : ExprTree → Str
  | .call id args commas ty =>
    id ++ '(' :: argTexts (ExprTree.texts args) commas ++ ')' :: optText "->".toList ty
  | .const c => c.text
  | .column schema id =>
    (match schema with
      | some s => s ++ ['.']
      | none => []) ++ id
  | .cast e kw ty => e.text ++ kw ++ ty.text
  | .scalarSubquery kw ref => kw ++ ref.text
  | .inSubquery es kw ref => '(' :: commaText (ExprTree.texts es) ++ ')' :: kw ++ ref.text
  | .setPredicate _ kw ref => kw ++ ref.text
  | .setComparison e op _ kw ref => e.text ++ op ++ kw ++ ref.text
def ExprTree.texts : List ExprTree → List Str
  | [] => []
  | e :: es => e.text :: ExprTree.texts es
end

end Verif.Tree
