import Verif.Model.Enum
import Verif.Lemmas.Parser

/-!
# Specification of enumerations in text plans
-/

namespace Verif.Enum

open Verif

/-- The letters of a text, in lower case. -/
def letters (text : Str) : Str := (text.filter Lex.isLetter).map toLower

/-- The text spells the name, with or without the prefix of the enumeration; case and
everything that is not a letter do not matter. -/
def Spells (pre name text : Str) : Prop := letters text = name ∨ letters text = pre ++ name

instance (pre name text : Str) : Decidable (Spells pre name text) :=
  inferInstanceAs (Decidable (_ ∨ _))

/-- The text is an `id` of the grammar and the reader takes it for this enumerator without an
error. -/
def IdReads (read : Str → ReadEnum) (t : Str) (num : Int) : Prop :=
  (∃ ts, Parse.Name t ts) ∧ read t = (num, false)

/-- The text is one token, which the reader takes for this enumerator. -/
def TokenReads (read : Lex.Token → Int) (t : Str) (num : Int) : Prop :=
  ∃ tok, Lex.lex t = some [tok] ∧ read tok = num

/-- The enumerator is printed as a text that is read as the same enumerator. -/
def Survives (print : Int → Printed) (reads : Str → Int → Prop) (num : Int) : Prop :=
  ∃ t, print num = .text t ∧ reads t num

/-- The numbers of the relation types. -/
def RelType.num : RelType → Int
  | .read => 1
  | .filter => 2
  | .fetch => 3
  | .aggregate => 4
  | .sort => 5
  | .join => 6
  | .project => 7
  | .set => 8
  | .cross => 12

end Verif.Enum
