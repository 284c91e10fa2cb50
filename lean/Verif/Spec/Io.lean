import Verif.Model.Basic

/-! # Specification of plan files -/

namespace Verif.Io

open Verif

/-- The text holds one of the quoted words that mark JSON. -/
def HasJsonWord (s : Str) : Prop :=
  ∃ w ∈ ["extensionUris", "extension_uris", "extensions", "relations"],
    ('"' :: w.toList ++ ['"']) <:+: s

/-- Some line of the text, together with what follows it, satisfies `P`. -/
def AtLine (P : Str → Prop) (s : Str) : Prop :=
  ∃ a b, s = a ++ b ∧ (a = [] ∨ a.getLast? = some '\n') ∧ P b

/-- A line that starts a top-level message of the protobuf text format. -/
def ProtoLine (b : Str) : Prop :=
  ∃ w ∈ ["relations", "extensions", "extension_uris", "expected_type_urls"],
    (w.toList ++ " {".toList) <+: b

/-- A line that starts a section of a text plan. -/
def TextLine (b : Str) : Prop :=
  ∃ n rest, b = List.replicate n ' ' ++ rest ∧
    ((∃ w ∈ ["pipelines", "schema", "source", "extension_space"], w.toList <+: rest) ∨
     ∃ word k, word ≠ [] ∧ (∀ c ∈ word, 'a' ≤ c ∧ c ≤ 'z') ∧
       (word ++ List.replicate k ' ' ++ "relation".toList) <+: rest)

/-! What protobuf's printers produce, as far as the outermost message goes. -/

/-- A JSON object. -/
def jsonObject (fields : List (Str × Str)) : Str :=
  '{' :: (List.intercalate [','] (fields.map fun f => '"' :: f.1 ++ "\":".toList ++ f.2)) ++ ['}']

/-- An entry of the protobuf text format: a message with its printed body, or a scalar. -/
inductive Entry where
  | message (name body : Str)
  | scalar (name value : Str)

def Entry.text : Entry → Str
  | .message name body => name ++ " {\n".toList ++ body ++ "}\n".toList
  | .scalar name value => name ++ ": ".toList ++ value ++ ['\n']

/-- The protobuf text format of a message. -/
def protoText (entries : List Entry) : Str := (entries.map Entry.text).flatten

/-- A length-delimited field of the protobuf wire format (short field numbers and
lengths). -/
def lenField (number : Nat) (payload : Str) : Str :=
  Char.ofNat (8 * number + 2) :: Char.ofNat payload.length :: payload

end Verif.Io
