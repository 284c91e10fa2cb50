import Verif.Model.Whole

/-!
# The texts of a plan in which the case of letters counts

Names, strings, numbers and URIs count as they are spelled.  Keywords, types, kinds of relations, words
before `filter`, enumerators such as a join type or the direction of a sort, and the name of `ifthen` do
not: they are not in these lists.
-/

namespace Verif.Case

open Verif Tree

/-- Two texts are the same but for the case of letters. -/
def Same (s s' : Str) : Prop := s.map toLower = s'.map toLower

mutual
/-- All the texts in a type. -/
def wordsT : TypeTree → List Str
  | .absent => []
  | .basic id _ ns => id :: ns
  | .list kw _ e => kw :: wordsT e
  | .map kw _ k _ v => kw :: (wordsT k ++ wordsT v)
  | .struct kw _ items => kw :: wordsTs items
def wordsTs : List TypeTree → List Str
  | [] => []
  | t :: ts => wordsT t ++ wordsTs ts
end

/-- All the texts in a type that may be absent. -/
def wordsOpt : Option TypeTree → List Str
  | none => []
  | some t => wordsT t

mutual
/-- All the texts in a constant. -/
def wordsC : ConstTree → List Str
  | .number t ty => t :: wordsOpt ty
  | .string t ty => t :: wordsOpt ty
  | .mapLit ks vs ty => wordsCs ks ++ wordsCs vs ++ wordsOpt ty
  | .structLit cs ty => wordsCs cs ++ wordsOpt ty
  | .null t ty => t :: wordsOpt ty
  | .bool _ t ty => t :: wordsOpt ty
def wordsCs : List ConstTree → List Str
  | [] => []
  | c :: cs => wordsC c ++ wordsCs cs
end

/-- All the texts in a reference to a relation. -/
def wordsR (r : RelRef) : List Str :=
  match r.schema with
  | none => [r.id]
  | some p => [r.id, p.1, p.2]

mutual
/-- All the texts in an expression. -/
def wordsE : ExprTree → List Str
  | .call id args _ ty => id :: (wordsEs args ++ wordsOpt ty)
  | .const c => wordsC c
  | .column s id => s.toList ++ [id]
  | .cast e kw ty => wordsE e ++ kw :: wordsT ty
  | .scalarSubquery kw r => kw :: wordsR r
  | .inSubquery es kw r => wordsEs es ++ kw :: wordsR r
  | .setPredicate _ kw r => kw :: wordsR r
  | .setComparison e op _ kw r => wordsE e ++ op :: kw :: wordsR r
def wordsEs : List ExprTree → List Str
  | [] => []
  | e :: es => wordsE e ++ wordsEs es
end

mutual
/-- The numbers and the strings of a constant. -/
def spelledC : ConstTree → List Str
  | .number t _ => [t]
  | .string t _ => [t]
  | .mapLit ks vs _ => spelledCs ks ++ spelledCs vs
  | .structLit cs _ => spelledCs cs
  | .null _ _ => []
  | .bool _ _ _ => []
def spelledCs : List ConstTree → List Str
  | [] => []
  | c :: cs => spelledC c ++ spelledCs cs
end

/-- An argument that ends in `_enum`, in whatever case. -/
def looksEnum (e : ExprTree) : Bool := StringManipulation.endsWith (e.text.map toLower) "_enum".toList

mutual
/-- What is spelled in an expression: numbers, strings, and names of functions, columns and relations. -/
def spelledE : ExprTree → List Str
  | .call id args _ _ => if Expr.isIfThen id then spelledEs args else id :: spelledArgs args
  | .const c => spelledC c
  | .column s id => s.toList ++ [id]
  | .cast e _ _ => spelledE e
  | .scalarSubquery _ r => wordsR r
  | .inSubquery es _ r => spelledEs es ++ wordsR r
  | .setPredicate _ _ r => wordsR r
  | .setComparison e _ _ _ r => spelledE e ++ wordsR r
/-- An argument that ends in `_enum` may be taken as an enumerator, which is its whole text. -/
def spelledArgs : List ExprTree → List Str
  | [] => []
  | e :: es => (if looksEnum e then wordsE e else spelledE e) ++ spelledArgs es
def spelledEs : List ExprTree → List Str
  | [] => []
  | e :: es => spelledE e ++ spelledEs es
end

/-- What is spelled in a part of a measure; the first identifier is the phase. -/
def spelledM : Rel.MeasureDetail → List Str
  | .measure e _ ids => spelledE e ++ ids.tail
  | .filter e => spelledE e
  | .invocation _ => []
  | .sort e _ => spelledE e

/-- What is spelled in a detail of a relation. -/
def spelledD : Rel.Detail → List Str
  | .common => []
  | .schema id => [id]
  | .filter _ e => spelledE e
  | .expression e named => spelledE e ++ named.toList
  | .extension => []
  | .source id => [id]
  | .grouping e => spelledE e
  | .measure ds => ds.flatMap spelledM
  | .sort e _ => spelledE e
  | .count text => [text]
  | .type _ => []
  | .emit s id => s.toList ++ [id]

/-- What is spelled in a relation; the schema behind its name is not looked at. -/
def spelledRel (t : Rel.RelTree) : List Str := t.ref.id :: t.details.flatMap spelledD

/-- What is spelled in a detail of a file. -/
def spelledF : Sec.FileDetail → List Str
  | .partition n => [n]
  | .start n => [n]
  | .length n => [n]
  | .file s => [s]
  | .orc => []
  | .parquet => []
  | .location => []

/-- What is spelled in a file: its text is the name of a symbol. -/
def spelledFile (t : Sec.FileTree) : List Str := t.text :: t.details.flatMap spelledF

/-- What is spelled in a source. -/
def spelledSource : Sec.SourceTree → List Str
  | .localFiles id files => id :: files.flatMap spelledFile
  | .virtualTable id => [id]
  | .namedTable id strings => id :: strings
  | .extensionTable id => [id]

/-- What is spelled in a function of an extension space. -/
def spelledFun (t : Ext.FunctionTree) : List Str := t.name :: t.alias.toList

/-- What is spelled in a detail of a plan. -/
def spelledP : Sec.PlanDetail → List Str
  | .pipelines ps => ps.flatten.flatMap fun r => [r.name, r.text]
  | .relation t => spelledRel t
  | .root names => names
  | .schema id columns => id :: columns.map (·.1)
  | .source t => spelledSource t
  | .space t => t.uri.toList ++ t.functions.flatMap spelledFun

/-- What is spelled in a text: nothing if it is not a plan. -/
def spelled (text : Str) : List Str := ((Sec.detailsOf text).getD []).flatMap spelledP

end Verif.Case
