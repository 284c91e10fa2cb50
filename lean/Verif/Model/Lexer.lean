import Verif.Model.Basic

/-!
Model of the lexer generated from
src/substrait/textplan/parser/grammar/SubstraitPlanLexer.g4.

An ANTLR lexer takes the rule with the longest match, and the first such rule in the
grammar if there are several.  A loop written `+?` takes the shortest text that lets its
rule match.  The lexer is case-insensitive (`caseInsensitive = true`).

Simplification: text on which no rule matches ends the run (`none`); the real lexer reports
an error, skips a character and goes on.
-/

namespace Verif.Lex

open Verif

/-- The token types. -/
inductive Tk where
  | extensionSpace | function | as | named | schema | relation | pipelines
  | common | baseSchema | filter | projection | expression | advancedExtension | grouping
  | measure | invocation | sort | by | count | type | emit
  | subquery | «exists» | unique | «in» | all | any | comparison
  | virtualTable | localFiles | namedTable | extensionTable
  | source | root | items | names | uriFile | uriPath | uriPathGlob | uriFolder
  | partitionIndex | start | length | orc | parquet | null | «true» | «false»
  | list | map | struct
  | arrow | colon | semicolon | leftBrace | rightBrace | leftParen | rightParen | comma
  | period | equal | leftBracket | rightBracket | underscore | minus | leftAngle | rightAngle
  | question | atSign
  | identifier | number | string | comment | spaces | uri
  deriving DecidableEq, Repr

/-- A token: its type and its text. -/
structure Token where
  kind : Tk
  text : Str
  deriving DecidableEq, Repr

/-- SubstraitPlanLexer.g4:26-81: the words with a token of their own, in lower case. -/
def keywords : List (Str × Tk) :=
  [("extension_space".toList, .extensionSpace), ("function".toList, .function),
   ("as".toList, .as), ("named".toList, .named), ("schema".toList, .schema),
   ("relation".toList, .relation), ("pipelines".toList, .pipelines),
   ("common".toList, .common), ("base_schema".toList, .baseSchema),
   ("filter".toList, .filter), ("projection".toList, .projection),
   ("expression".toList, .expression), ("advanced_extension".toList, .advancedExtension),
   ("grouping".toList, .grouping), ("measure".toList, .measure),
   ("invocation".toList, .invocation), ("sort".toList, .sort), ("by".toList, .by),
   ("count".toList, .count), ("type".toList, .type), ("emit".toList, .emit),
   ("subquery".toList, .subquery), ("exists".toList, .exists), ("unique".toList, .unique),
   ("in".toList, .in), ("all".toList, .all), ("any".toList, .any),
   ("eq".toList, .comparison), ("ne".toList, .comparison), ("lt".toList, .comparison),
   ("gt".toList, .comparison), ("le".toList, .comparison), ("ge".toList, .comparison),
   ("virtual_table".toList, .virtualTable), ("local_files".toList, .localFiles),
   ("named_table".toList, .namedTable), ("extension_table".toList, .extensionTable),
   ("source".toList, .source), ("root".toList, .root), ("items".toList, .items),
   ("names".toList, .names), ("uri_file".toList, .uriFile), ("uri_path".toList, .uriPath),
   ("uri_path_glob".toList, .uriPathGlob), ("uri_folder".toList, .uriFolder),
   ("partition_index".toList, .partitionIndex), ("start".toList, .start),
   ("length".toList, .length), ("orc".toList, .orc), ("parquet".toList, .parquet),
   ("null".toList, .null), ("true".toList, .true), ("false".toList, .false),
   ("list".toList, .list), ("map".toList, .map), ("struct".toList, .struct)]

/-- A match: token type and number of characters. -/
abbrev Match := Tk × Nat

/-- The first of the longest matches. -/
def longest : List (Option Match) → Option Match
  | [] => none
  | m :: ms =>
    match m, longest ms with
    | none, r => r
    | some a, none => some a
    | some a, some b => if a.2 < b.2 then some b else some a

/-- A rule that is a fixed text, given in lower case. -/
def fixedRule (s : Str) (w : Str) (k : Tk) : Option Match :=
  if (s.take w.length).map toLower = w then some (k, w.length) else none

/-- SubstraitPlanLexer.g4:26-81: the best match among the words. -/
def keywordRule (s : Str) : Option Match :=
  longest (keywords.map fun e => fixedRule s e.1 e.2)

/-- SubstraitPlanLexer.g4:83-101: the signs. -/
def symbolRule (s : Str) : Option Match :=
  match s with
  | '-' :: '>' :: _ => some (.arrow, 2)
  | ':' :: _ => some (.colon, 1)
  | ';' :: _ => some (.semicolon, 1)
  | '{' :: _ => some (.leftBrace, 1)
  | '}' :: _ => some (.rightBrace, 1)
  | '(' :: _ => some (.leftParen, 1)
  | ')' :: _ => some (.rightParen, 1)
  | ',' :: _ => some (.comma, 1)
  | '.' :: _ => some (.period, 1)
  | '=' :: _ => some (.equal, 1)
  | '[' :: _ => some (.leftBracket, 1)
  | ']' :: _ => some (.rightBracket, 1)
  | '_' :: _ => some (.underscore, 1)
  | '-' :: _ => some (.minus, 1)
  | '<' :: _ => some (.leftAngle, 1)
  | '>' :: _ => some (.rightAngle, 1)
  | '?' :: _ => some (.question, 1)
  | '@' :: _ => some (.atSign, 1)
  | _ => none

/-- `[A-Z]`, without regard to case. -/
def isLetter (c : Char) : Bool :=
  (65 ≤ c.toNat && c.toNat ≤ 90) || (97 ≤ c.toNat && c.toNat ≤ 122)

/-- `[A-Z0-9$]`, without regard to case. -/
def isWordChar (c : Char) : Bool := isLetter c || isDigit c || c = '$'

/-- SubstraitPlanLexer.g4:103-105. -/
def identifierRule (s : Str) : Option Match :=
  match s with
  | c :: cs => if isLetter c then some (.identifier, (cs.takeWhile isWordChar).length + 1) else none
  | [] => none

/-- `[0-9]+`: length of the match, 0 if there is none. -/
def digitsLen (s : Str) : Nat := (s.takeWhile isDigit).length

/-- `( PERIOD [0-9]+ )?`. -/
def fractionLen (s : Str) : Nat :=
  match s with
  | '.' :: r => if digitsLen r = 0 then 0 else digitsLen r + 1
  | _ => 0

/-- `( 'E' ('+' | MINUS) [0-9]+ )?`. -/
def exponentLen (s : Str) : Nat :=
  match s with
  | e :: sign :: r =>
    if (e = 'e' ∨ e = 'E') ∧ (sign = '+' ∨ sign = '-') ∧ digitsLen r ≠ 0 then digitsLen r + 2
    else 0
  | _ => 0

/-- SubstraitPlanLexer.g4:107-110, without the sign. -/
def unsignedLen (s : Str) : Nat :=
  let a := digitsLen s
  if a = 0 then 0
  else
    let b := fractionLen (s.drop a)
    a + b + exponentLen (s.drop (a + b))

/-- SubstraitPlanLexer.g4:107-110. -/
def numberRule (s : Str) : Option Match :=
  match s with
  | '-' :: r => if unsignedLen r = 0 then none else some (.number, unsignedLen r + 1)
  | _ => if unsignedLen s = 0 then none else some (.number, unsignedLen s)

/-- SubstraitPlanLexer.g4:112-113: the longest match of `(ESCAPEDQUOTE | ~["])* '"'`, `n`
characters into it; `slash` tells whether the character before is a backslash.  A quote
after a backslash can close the string (the backslash then is a `~["]`) or be escaped. -/
def stringLen (slash : Bool) (n : Nat) : Str → Option Nat
  | [] => none
  | c :: cs =>
    if c = '"' then
      if slash then
        match stringLen false (n + 1) cs with
        | some m => some m
        | none => some (n + 1)
      else some (n + 1)
    else stringLen (c = '\\') (n + 1) cs

/-- SubstraitPlanLexer.g4:112. -/
def stringRule (s : Str) : Option Match :=
  match s with
  | '"' :: r => (stringLen false 1 r).map fun n => (.string, n)
  | _ => none

/-- Position after the first place where `q` occurs in the text, at least one character in;
`one` requires the characters before to differ from a backtick. -/
def rawLen (one : Bool) (q : Str) (n : Nat) : Str → Option Nat
  | [] => none
  | c :: cs =>
    if one ∧ c = '`' then none
    else if q.isPrefixOf cs then some (n + 1 + q.length)
    else rawLen one q (n + 1) cs

/-- SubstraitPlanLexer.g4:117-119. -/
def rawRule (ticks : Str) (one : Bool) (s : Str) : Option Match :=
  if ticks.isPrefixOf s then
    (rawLen one ticks ticks.length (s.drop ticks.length)).map fun n => (.string, n)
  else none

/-- SubstraitPlanLexer.g4:121. -/
def commentRule (s : Str) : Option Match :=
  match s with
  | '/' :: '/' :: r =>
    let n := (r.takeWhile fun c => c ≠ '\r' && c ≠ '\n').length
    match r.drop n with
    | [] => some (.comment, n + 2)
    | '\n' :: _ => some (.comment, n + 3)
    | '\r' :: '\n' :: _ => some (.comment, n + 4)
    | _ => none
  | _ => none

/-- SubstraitPlanLexer.g4:123 and 138. -/
def isBlank (c : Char) : Bool := c = ' ' || c = '\x0b' || c = '\t' || c = '\r' || c = '\n'

/-- SubstraitPlanLexer.g4:123. -/
def spaceRule (s : Str) : Option Match :=
  match s with
  | c :: _ => if isBlank c then some (.spaces, 1) else none
  | [] => none

/-- SubstraitPlanLexer.g4:26-123: one token in the default mode. -/
def lexDefault (s : Str) : Option Match :=
  longest [keywordRule s, symbolRule s, identifierRule s, numberRule s, stringRule s,
    rawRule "`".toList true s, rawRule "``".toList false s, rawRule "```".toList false s,
    commentRule s, spaceRule s]

/-- `[A-Z0-9-._]`. -/
def isFileChar (c : Char) : Bool :=
  isLetter c || isDigit c || c = '-' || c = '.' || c = '_'

/-- `[A-Z0-9-.]`. -/
def isHostChar (c : Char) : Bool := isLetter c || isDigit c || c = '-' || c = '.'

/-- SubstraitPlanLexer.g4:128-129 `FILENAME ( '/' FILENAME )*`: the longest match, from the
state inside a file name (`inName`) or after a slash. -/
def pathLen (inName : Bool) : Str → Nat
  | [] => 0
  | c :: cs =>
    if isFileChar c then pathLen true cs + 1
    else if inName ∧ c = '/' then
      match pathLen false cs with
      | 0 => 0
      | n + 1 => n + 2
    else 0

/-- SubstraitPlanLexer.g4:131-134: `SCHEME ':' ( '//' HOSTNAME '/' )? PATH`. -/
def schemeLen (s : Str) : Nat :=
  let a := (s.takeWhile isLetter).length
  if a = 0 then 0
  else
    match s.drop a with
    | ':' :: '/' :: '/' :: r =>
      let h := (r.takeWhile isHostChar).length
      match r.drop h with
      | '/' :: r' => if h = 0 ∨ pathLen false r' = 0 then 0 else a + h + 4 + pathLen false r'
      | _ => 0
    | ':' :: r => if pathLen false r = 0 then 0 else a + 1 + pathLen false r
    | _ => 0

/-- SubstraitPlanLexer.g4:131-134. -/
def uriRule (s : Str) : Option Match :=
  let plain := match s with
    | '/' :: r => if pathLen false r = 0 then 0 else pathLen false r + 1
    | _ => pathLen false s
  if max plain (schemeLen s) = 0 then none else some (.uri, max plain (schemeLen s))

/-- SubstraitPlanLexer.g4:125-138: one token in the mode EXTENSIONS. -/
def lexExtensions (s : Str) : Option Match :=
  longest [uriRule s, (match s with
    | '{' :: _ => some (.leftBrace, 1)
    | _ => none), spaceRule s]

/-- The two modes. -/
inductive Mode where
  | default
  | extensions
  deriving DecidableEq, Repr

/-- One token. -/
def lexOne : Mode → Str → Option Match
  | .default, s => lexDefault s
  | .extensions, s => lexExtensions s

/-- SubstraitPlanLexer.g4:26 and 136: the `mode` commands. -/
def nextMode : Mode → Tk → Mode
  | .default, .extensionSpace => .extensions
  | .extensions, .leftBrace => .default
  | m, _ => m

/-- The tokens on the hidden channel are not seen by the parser. -/
def hidden (k : Tk) : Bool := k = .comment || k = .spaces

/-- The token stream of a text.  Every token has at least one character, so `s.length`
rounds are enough. -/
def lexF : Nat → Mode → Str → Option (List Token)
  | _, _, [] => some []
  | 0, _, _ :: _ => none
  | fuel + 1, m, c :: cs =>
    match lexOne m (c :: cs) with
    | none => none
    | some (k, n) =>
      match lexF fuel (nextMode m k) ((c :: cs).drop n) with
      | none => none
      | some ts => some (if hidden k then ts else ⟨k, (c :: cs).take n⟩ :: ts)

/-- The token stream of a text, starting in the default mode. -/
def lex (s : Str) : Option (List Token) := lexF s.length .default s

end Verif.Lex
