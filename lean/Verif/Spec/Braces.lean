import Verif.Model.Sections

/-! # Braces in the tokens of a text plan -/

namespace Verif.Braces

open Verif Lex

/-- A token that is no brace. -/
def Plain (t : Token) : Prop := t.kind ≠ .leftBrace ∧ t.kind ≠ .rightBrace

/-- Tokens in which each brace has its partner. -/
inductive Paired : List Token → Prop
  | nil : Paired []
  | plain {t : Token} {a : List Token} : Plain t → Paired a → Paired (t :: a)
  | pair {o c : Token} {a b : List Token} : o.kind = .leftBrace → c.kind = .rightBrace → Paired a →
      Paired b → Paired (o :: (a ++ c :: b))

/-- The tokens of one section: some words, and paired tokens in a pair of braces. -/
def Section (s : List Token) : Prop :=
  ∃ words o inner c, s = words ++ o :: (inner ++ [c]) ∧ (∀ t ∈ words, Plain t) ∧
    o.kind = .leftBrace ∧ c.kind = .rightBrace ∧ Paired inner

/-- So many sections, one after the other. -/
inductive Sections : Nat → List Token → Prop
  | none : Sections 0 []
  | more {n : Nat} {s ts : List Token} : Section s → Sections n ts → Sections (n + 1) (s ++ ts)

/-- How many tokens are of this kind. -/
def countOf (k : Tk) (ts : List Token) : Nat := ts.countP fun t => decide (t.kind = k)

/-- A text without backslashes and backticks: each string in it ends at its second quotation mark. -/
def Clean (s : Str) : Prop := '\\' ∉ s ∧ '`' ∉ s

end Verif.Braces
