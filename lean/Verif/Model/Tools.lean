import Verif.Model.Io
import Verif.Model.Whole

/-!
# Plan files and the tool that converts them

Model of `src/substrait/common/PlanTransformerTool.cpp`, of `loadFromText`
(`src/substrait/textplan/parser/LoadText.cpp`) and of what `savePlanToText`
(`src/substrait/textplan/converter/SaveBinary.cpp`) writes.
-/

namespace Verif.Tools

open Verif Verif.Whole

/-- LoadText.cpp:14-23 `loadFromText`.  Simplification: an exception is an error status, too, and
the message is left out. -/
def loadFromText (lib : Literal.Lib) (fuel : Nat) (text : Str) : Io.Status Binary :=
  match fromText lib fuel text with
  | some (.ok b) => .ok b
  | _ => .error []

/-- SaveBinary.cpp:82-101: what `savePlanToText` has to write for a plan with one root.  `other`
stands for plans with several roots or none. -/
def textResult (lib : Literal.Lib) (sort : Ext.Sorter) (fuel : Nat) (other : Binary → Io.TextResult)
    (b : Binary) : Io.TextResult :=
  match b.rels with
  | [(names, rel)] =>
    match toText lib sort fuel ⟨b.uris, b.functions, names, rel⟩ with
    | .ok t => .printed t 0
    | _ => .throws
  | _ => other b

/-- The library's own decoder in the place of the one for text plans. -/
def withLoader (lib : Literal.Lib) (fuel : Nat) (d : Io.Decoders Binary) : Io.Decoders Binary :=
  { d with text := loadFromText lib fuel }

/-- The library's own encoder in the place of the one for text plans. -/
def withSaver (lib : Literal.Lib) (sort : Ext.Sorter) (fuel : Nat) (enc : Io.Encoders Binary)
    (other : Binary → Io.TextResult) : Io.Encoders Binary :=
  { enc with text := textResult lib sort fuel other }

/-- How the tool ends. -/
inductive Exit where
  | success | failure
  /-- An exception leaves `main`. -/
  | abort
  deriving DecidableEq, Repr

/-- The exit code for the result of a save. -/
def exitOf : Io.Result → Exit
  | .ok => .success
  | .error => .failure
  | .thrown => .abort

/-- PlanTransformerTool.cpp:33-56 `main` with three arguments: the contents of the two files
before, the word for the format, and what the operating system does with the save; the result is
how the tool ends and what is in the second file after that. -/
def transform {Plan : Type} (d : Io.Decoders Plan) (enc : Io.Encoders Plan) (e : Io.Env)
    (input output : Option Str) (word : Str) : Exit × Option Str :=
  match Io.loadPlan d input with
  | .error _ => (.failure, output)
  | .ok p =>
    let r := Io.savePlan enc e p (Io.planFileFormatFromText word) output
    (exitOf r.1, r.2)

end Verif.Tools
