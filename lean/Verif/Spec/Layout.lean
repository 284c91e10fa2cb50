import Verif.Model.Lexer

/-! # The layout of a text -/

namespace Verif.Lex

open Verif

/-- White space and comments.  Between `extension_space` and the brace there are no comments. -/
inductive Gap : Mode → Str → Prop
  | none (m) : Gap m []
  | blank {m c g} : c ∈ [' ', '\t', '\n', '\r', '\x0b'] → Gap m g → Gap m (c :: g)
  | comment {c end_ g} : '\r' ∉ c → '\n' ∉ c → end_ ∈ ["\n".toList, "\r\n".toList] →
    Gap .default g → Gap .default ("//".toList ++ c ++ end_ ++ g)

/-- What can be behind the last token: the last comment needs no end of line. -/
inductive LastGap : Mode → Str → Prop
  | gap {m g} : Gap m g → LastGap m g
  | comment {g c} : Gap .default g → '\r' ∉ c → '\n' ∉ c →
    LastGap .default (g ++ "//".toList ++ c)

/-- A string whose end does not depend on what is behind it: in double quotes, without a backslash
before the last one; in one or two backticks; in three backticks on both sides. -/
def FirmString (t : Str) : Prop :=
  (∃ b, t = '"' :: (b ++ ['"']) ∧ b.getLast? ≠ some '\\') ∨
  ("`".toList <+: t ∧ ¬ "```".toList <+: t) ∨
  ∃ b, b ≠ [] ∧ t = "```".toList ++ b ++ "```".toList

/-- Two texts with the same tokens and other white space and other comments between them.  There may
be more of it in the second text, but where there is some in the first text there is some in the
second. -/
inductive Relaid : Mode → Str → Str → List Token → Prop
  | done {m e e'} : LastGap m e → LastGap m e' → Relaid m e e' []
  | more {m g g' s s' t ts} : Gap m g → Gap m g' → (g ≠ [] → g' ≠ []) →
    (t.kind = .string → FirmString t.text) → Relaid (nextMode m t.kind) s s' ts →
    Relaid m (g ++ t.text ++ s) (g' ++ t.text ++ s') (t :: ts)

/-- The tokens with one blank before each. -/
def spaced (ts : List Token) : Str := ts.flatMap fun t => ' ' :: t.text

end Verif.Lex
