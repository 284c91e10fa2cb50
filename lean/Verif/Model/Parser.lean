import Verif.Model.ParseTree

/-!
Model of the parser generated from
src/substrait/textplan/parser/grammar/SubstraitPlanParser.g4 for identifiers, types,
constants and expressions.

ANTLR tries the alternatives of a rule with unlimited lookahead and takes the first that
fits; loops and optional parts take as much as they can.  The functions here look at the
next tokens.  A result of `none` is a syntax error.

Simplifications: error recovery is not modelled; in an argument list an identifier before
an opening parenthesis always is a function use (it could also be a column before a
parenthesised list of an `IN SUBQUERY` without a comma between them).
-/

namespace Verif.Parse

open Verif Lex Tree

/-- SubstraitPlanParser.g4:223-241 `simple_id`. -/
def isSimpleId : Tk → Bool
  | .identifier | .filter | .root | .source | .schema | .null | .sort | .measure | .grouping
  | .count | .type | .emit | .named | .all | .any | .comparison => true
  | _ => false

/-- SubstraitPlanParser.g4:219-221: the rest of an `id`.  `acc` is the text so far, `pend`
the underscores read after it, `back` the tokens after `acc`. -/
def idTail (acc pend : Str) (back : List Token) : List Token → Str × List Token
  | [] => (acc, back)
  | t :: ts =>
    if t.kind = .underscore then idTail acc (pend ++ t.text) back ts
    else if isSimpleId t.kind && !pend.isEmpty then idTail (acc ++ pend ++ t.text) [] ts ts
    else (acc, back)

/-- SubstraitPlanParser.g4:219-221 `id`. -/
def parseId : List Token → Option (Str × List Token)
  | [] => none
  | t :: ts => if isSimpleId t.kind then some (idTail t.text [] ts ts) else none

/-- The next token is of this kind. -/
def nextIs (k : Tk) : List Token → Bool
  | t :: _ => t.kind = k
  | [] => false

/-- One token of the kind. -/
def expect (k : Tk) : List Token → Option (List Token)
  | t :: ts => if t.kind = k then some ts else none
  | [] => none

/-- An optional question mark. -/
def parseQuestion (ts : List Token) : Bool × List Token :=
  if nextIs .question ts then (true, ts.tail) else (false, ts)

/-- SubstraitPlanParser.g4:124-126: `NUMBER (COMMA NUMBER)* RIGHTANGLEBRACKET`. -/
def parseNumbers : List Token → Option (List Str × List Token)
  | a :: b :: ts =>
    if a.kind = .number then
      if b.kind = .comma then (parseNumbers ts).map fun r => (a.text :: r.1, r.2)
      else if b.kind = .rightAngle then some ([a.text], ts)
      else none
    else none
  | _ => none

/-- SubstraitPlanParser.g4:113-115 `literal_basic_type`. -/
def parseBasic (ts : List Token) : Option (TypeTree × List Token) :=
  (parseId ts).bind fun i =>
    let q := parseQuestion i.2
    if nextIs .leftAngle q.2 then
      (parseNumbers q.2.tail).map fun r => (.basic i.1 q.1 r.1, r.2)
    else some (.basic i.1 q.1 [], q.2)

/-- A token a type can start with. -/
def startsType (ts : List Token) : Bool :=
  match ts with
  | t :: _ => isSimpleId t.kind || t.kind = .list || t.kind = .map || t.kind = .struct
  | [] => false

/-- An optional comma. -/
def parseComma (ts : List Token) : Bool × List Token :=
  if nextIs .comma ts then (true, ts.tail) else (false, ts)

mutual
/-- SubstraitPlanParser.g4:117-122 `literal_complex_type`. -/
def parseType : Nat → List Token → Option (TypeTree × List Token)
  | 0, _ => none
  | _ + 1, [] => none
  | f + 1, t :: ts =>
    if t.kind = .list then
      let q := parseQuestion ts
      (expect .leftAngle q.2).bind fun r => (parseOptType f r).bind fun e =>
        (expect .rightAngle e.2).map fun r => (.list t.text q.1 e.1, r)
    else if t.kind = .map then
      let q := parseQuestion ts
      (expect .leftAngle q.2).bind fun r => (parseOptBasic r).bind fun k =>
        let c := parseComma k.2
        (parseOptType f c.2).bind fun v =>
          (expect .rightAngle v.2).map fun r => (.map t.text q.1 k.1 c.1 v.1, r)
    else if t.kind = .struct then
      let q := parseQuestion ts
      (expect .leftAngle q.2).bind fun r => (parseOptType f r).bind fun e =>
        (parseMoreTypes f e.2).bind fun es =>
          (expect .rightAngle es.2).map fun r => (.struct t.text q.1 (e.1 :: es.1), r)
    else parseBasic (t :: ts)
/-- `literal_complex_type?`. -/
def parseOptType : Nat → List Token → Option (TypeTree × List Token)
  | 0, _ => none
  | f + 1, ts => if startsType ts then parseType f ts else some (.absent, ts)
/-- `(COMMA literal_complex_type)*`. -/
def parseMoreTypes : Nat → List Token → Option (List TypeTree × List Token)
  | 0, _ => none
  | f + 1, ts =>
    if nextIs .comma ts then
      (parseType f ts.tail).bind fun e => (parseMoreTypes f e.2).map fun es => (e.1 :: es.1, es.2)
    else some ([], ts)
/-- `literal_basic_type?`. -/
def parseOptBasic (ts : List Token) : Option (TypeTree × List Token) :=
  match ts with
  | t :: ts => if isSimpleId t.kind then parseBasic (t :: ts) else some (.absent, t :: ts)
  | [] => some (.absent, [])
end

/-- `(UNDERSCORE literal_basic_type)?`. -/
def parseSuffixBasic (ts : List Token) : Option (Option TypeTree × List Token) :=
  if nextIs .underscore ts then (parseBasic ts.tail).map fun r => (some r.1, r.2)
  else some (none, ts)

/-- `(UNDERSCORE literal_complex_type)?`. -/
def parseSuffixType (f : Nat) (ts : List Token) : Option (Option TypeTree × List Token) :=
  if nextIs .underscore ts then (parseType f ts.tail).map fun r => (some r.1, r.2)
  else some (none, ts)

mutual
/-- SubstraitPlanParser.g4:103-111 `constant`. -/
def parseConst : Nat → List Token → Option (ConstTree × List Token)
  | 0, _ => none
  | _ + 1, [] => none
  | f + 1, t :: ts =>
    match t.kind with
    | .number => (parseSuffixBasic ts).map fun r => (.number t.text r.1, r.2)
    | .string => (parseSuffixBasic ts).map fun r => (.string t.text r.1, r.2)
    | .true => (parseSuffixBasic ts).map fun r => (.bool true t.text r.1, r.2)
    | .false => (parseSuffixBasic ts).map fun r => (.bool false t.text r.1, r.2)
    | .null => (parseSuffixType f ts).map fun r => (.null t.text r.1, r.2)
    | .leftBrace =>
      if nextIs .rightBrace ts then
        (parseSuffixType f ts.tail).map fun r => (.mapLit [] [] r.1, r.2)
      else
        (parseConst f ts).bind fun a =>
          if nextIs .colon a.2 then
            (parseConst f a.2.tail).bind fun b => (parseMorePairs f b.2).bind fun m =>
              (expect .rightBrace m.2).bind fun u => (parseSuffixType f u).map fun r =>
                (.mapLit (a.1 :: m.1.1) (b.1 :: m.1.2) r.1, r.2)
          else
            (parseMoreConsts f a.2).bind fun m => (expect .rightBrace m.2).bind fun u =>
              (parseSuffixType f u).map fun r => (.structLit (a.1 :: m.1) r.1, r.2)
    | _ => none
/-- `(COMMA constant)*`. -/
def parseMoreConsts : Nat → List Token → Option (List ConstTree × List Token)
  | 0, _ => none
  | f + 1, ts =>
    if nextIs .comma ts then
      (parseConst f ts.tail).bind fun a => (parseMoreConsts f a.2).map fun m => (a.1 :: m.1, m.2)
    else some ([], ts)
/-- `(COMMA map_literal_value)*`. -/
def parseMorePairs : Nat → List Token → Option ((List ConstTree × List ConstTree) × List Token)
  | 0, _ => none
  | f + 1, ts =>
    if nextIs .comma ts then
      (parseConst f ts.tail).bind fun a => (expect .colon a.2).bind fun u =>
        (parseConst f u).bind fun b => (parseMorePairs f b.2).map fun m =>
          ((a.1 :: m.1.1, b.1 :: m.1.2), m.2)
    else some (([], []), ts)
end

/-- SubstraitPlanParser.g4:54-56 `relation_ref`. -/
def parseRef (ts : List Token) : Option (RelRef × List Token) :=
  (parseId ts).bind fun i =>
    match i.2 with
    | a :: b :: r =>
      if a.kind = .leftParen ∧ b.kind = .schema then
        (parseId r).bind fun j => (expect .rightParen j.2).map fun u =>
          (⟨i.1, some (b.text, j.1)⟩, u)
      else some (⟨i.1, none⟩, i.2)
    | _ => some (⟨i.1, none⟩, i.2)

/-- `SUBQUERY relation_ref`, with the text of the keyword. -/
def parseSubquery : List Token → Option (Str × RelRef × List Token)
  | t :: ts =>
    if t.kind = .subquery then (parseRef ts).map fun r => (t.text, r.1, r.2) else none
  | [] => none

/-- `IN SUBQUERY relation_ref`, with the text of the keywords. -/
def parseInSubquery : List Token → Option (Str × RelRef × List Token)
  | t :: ts =>
    if t.kind = .in then (parseSubquery ts).map fun r => (t.text ++ r.1, r.2) else none
  | [] => none

/-- SubstraitPlanParser.g4:142-144 `column_name`, after the first `id`. -/
def parseColumn (id : Str) (ts : List Token) : Option (ExprTree × List Token) :=
  if nextIs .period ts then (parseId ts.tail).map fun j => (.column (some id) j.1, j.2)
  else some (.column none id, ts)

/-- `(ARROW literal_complex_type)?`. -/
def parseArrow (f : Nat) (ts : List Token) : Option (Option TypeTree × List Token) :=
  if nextIs .arrow ts then (parseType f ts.tail).map fun r => (some r.1, r.2)
  else some (none, ts)

mutual
/-- SubstraitPlanParser.g4:88-97 `expression`. -/
def parseExpr : Nat → List Token → Option (ExprTree × List Token)
  | 0, _ => none
  | f + 1, ts => (parsePrimary f ts).bind fun e => parsePostfix f e.1 e.2
/-- The alternatives of `expression` that do not start with an expression. -/
def parsePrimary : Nat → List Token → Option (ExprTree × List Token)
  | 0, _ => none
  | _ + 1, [] => none
  | f + 1, t :: ts =>
    match t.kind with
    | .subquery => (parseSubquery (t :: ts)).map fun r => (.scalarSubquery r.1 r.2.1, r.2.2)
    | .unique =>
      (parseInSubquery ts).map fun r => (.setPredicate false (t.text ++ r.1) r.2.1, r.2.2)
    | .exists =>
      (parseInSubquery ts).map fun r => (.setPredicate true (t.text ++ r.1) r.2.1, r.2.2)
    | .leftParen =>
      (parseExpr f ts).bind fun e => (parseMoreExprs f e.2).bind fun m =>
        (expect .rightParen m.2).bind fun u => (parseInSubquery u).map fun r =>
          (.inSubquery (e.1 :: m.1) r.1 r.2.1, r.2.2)
    | .number | .string | .true | .false | .leftBrace =>
      (parseConst f (t :: ts)).map fun c => (.const c.1, c.2)
    | _ =>
      (parseId (t :: ts)).bind fun i =>
        if nextIs .leftParen i.2 then
          (parseArgs f i.2.tail).bind fun a => (parseArrow f a.2).map fun r =>
            (.call i.1 a.1.1 a.1.2 r.1, r.2)
        else if nextIs .period i.2 then parseColumn i.1 i.2
        else if t.kind = .null then (parseConst f (t :: ts)).map fun c => (.const c.1, c.2)
        else parseColumn i.1 i.2
/-- The alternatives of `expression` that start with an expression. -/
def parsePostfix : Nat → ExprTree → List Token → Option (ExprTree × List Token)
  | 0, _, _ => none
  | f + 1, e, ts =>
    match ts with
    | a :: rest =>
      if a.kind = .as then
        (parseType f rest).bind fun r => parsePostfix f (.cast e a.text r.1) r.2
      else if a.kind = .comparison then
        match rest with
        | b :: rest' =>
          if b.kind = .all ∨ b.kind = .any then
            (parseSubquery rest').bind fun r =>
              parsePostfix f (.setComparison e a.text (b.kind = .all) (b.text ++ r.1) r.2.1) r.2.2
          else some (e, ts)
        | [] => some (e, ts)
      else some (e, ts)
    | [] => some (e, [])
/-- `(expression COMMA?)* RIGHTPAREN`. -/
def parseArgs : Nat → List Token → Option ((List ExprTree × List Bool) × List Token)
  | 0, _ => none
  | f + 1, ts =>
    if nextIs .rightParen ts then some (([], []), ts.tail)
    else
      (parseExpr f ts).bind fun e =>
        let c := parseComma e.2
        (parseArgs f c.2).map fun m => ((e.1 :: m.1.1, c.1 :: m.1.2), m.2)
/-- `(COMMA expression)*`. -/
def parseMoreExprs : Nat → List Token → Option (List ExprTree × List Token)
  | 0, _ => none
  | f + 1, ts =>
    if nextIs .comma ts then
      (parseExpr f ts.tail).bind fun e => (parseMoreExprs f e.2).map fun m => (e.1 :: m.1, m.2)
    else some ([], ts)
end

/-- Rounds that are enough for a token stream. -/
def rounds (ts : List Token) : Nat := 4 * ts.length + 4

/-- A type, and the tokens after it. -/
def typeOf (ts : List Token) : Option (TypeTree × List Token) := parseType (rounds ts) ts

/-- A constant, and the tokens after it. -/
def constOf (ts : List Token) : Option (ConstTree × List Token) := parseConst (rounds ts) ts

/-- An expression, and the tokens after it. -/
def exprOf (ts : List Token) : Option (ExprTree × List Token) := parseExpr (rounds ts) ts

end Verif.Parse
