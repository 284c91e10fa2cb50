import Verif.Spec.Io

/-! # Specification of plan files that hold text -/

namespace Verif.Tools

open Verif Verif.Io

/-- Nothing in the text of a plan looks like a file of another kind: there is none of the quoted
words that mark JSON, and no line starts like a message of the protobuf text format. -/
structure Unmistakable (text : Str) : Prop where
  json : ¬ HasJsonWord text
  proto : ¬ AtLine ProtoLine text

end Verif.Tools
