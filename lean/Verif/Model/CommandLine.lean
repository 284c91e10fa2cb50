import Verif.Model.Tools

/-!
# The tools that print plans

Model of `src/substrait/textplan/converter/Tool.cpp` (planconverter) and
`src/substrait/textplan/parser/Tool.cpp` (planparser).  Simplifications: `glob` is external and gives
a list of files for each argument; options, of which there are none, are left out; printing works.
-/

namespace Verif.CommandLine

open Verif Tools

/-- What a tool has written and how it ended. -/
structure Run where
  out : Str
  err : Str
  exit : Exit
  deriving DecidableEq, Repr

/-- `printf("===== %s =====\n", name)`. -/
def heading (name : Str) : Str := "===== ".toList ++ name ++ " =====\n".toList

/-- Messages with `std::endl`. -/
def listed (messages : List Str) : Str := messages.flatMap (· ++ ['\n'])

/-- Written before what comes after. -/
def Run.after (r : Run) (out err : Str) : Run := ⟨out ++ r.out, err ++ r.err, r.exit⟩

/-- What becomes of a file of planconverter: it cannot be loaded, an exception leaves the library, or
there is a text and messages. -/
inductive Converted where
  | notLoaded (status : Str)
  | throws
  | done (text : Str) (errors : List Str)
  deriving DecidableEq, Repr

/-- converter/Tool.cpp:17-36 `convertPlanToText` and 47-61, the loops over arguments and files.
Nothing catches an exception. -/
def convertAll : List (Str × Converted) → Run
  | [] => ⟨[], [], .success⟩
  | (name, c) :: files =>
    match c with
    | .notLoaded status => (convertAll files).after (heading name) (listed [status])
    | .throws => ⟨heading name, [], .abort⟩
    | .done text errors => (convertAll files).after (heading name ++ text) (listed errors)

/-- converter/Tool.cpp:41-64 `main`; for each argument the files it stands for. -/
def planconverter (args : List (List (Str × Converted))) : Run :=
  if args.isEmpty then ⟨"Usage:  planconverter <file1> <file2> ...\n".toList, [], .failure⟩
  else convertAll args.flatten

/-- What becomes of a file of planparser. -/
inductive Parsed where
  | unreadable
  | throws
  | errors (messages : List Str)
  | printed (text : Str)
  deriving DecidableEq, Repr

/-- parser/Tool.cpp:12-37 `readText`, with ParseText.cpp:22-34 `loadTextFile`, and 58-62, the loop over
the arguments.  Errors of the parser and of the printer are written in the same way. -/
def parseAll : List (Str × Parsed) → Run
  | [] => ⟨[], [], .success⟩
  | (name, p) :: files =>
    match p with
    | .unreadable => (parseAll files).after (heading name ++ "Bad stream.\n".toList)
      ("An error occurred while reading: ".toList ++ name ++ ['\n'])
    | .throws => ⟨heading name, [], .abort⟩
    | .errors messages => (parseAll files).after (heading name ++ listed messages) []
    | .printed text => (parseAll files).after (heading name ++ text) []

/-- parser/Tool.cpp:42-65 `main`. -/
def planparser (args : List (Str × Parsed)) : Run :=
  if args.isEmpty then ⟨"Usage:  planparser <file1> <file2> ...\n".toList, [], .failure⟩
  else parseAll args

/-- converter/Tool.cpp:17-36 with the library: a file with a plan that has a text.  `other` stands for
what happens to other plans. -/
def convertedOf (lib : Literal.Lib) (sort : Ext.Sorter) (fuel : Nat) (d : Io.Decoders Whole.Binary)
    (other : Whole.Binary → Converted) (content : Option Str) : Converted :=
  match Io.loadPlan (withLoader lib fuel d) content with
  | .error s => .notLoaded s
  | .ok b =>
    match b.rels with
    | [(names, rel)] =>
      match Whole.toText lib sort fuel ⟨b.uris, b.functions, names, rel⟩ with
      | .ok t => .done t []
      | _ => other b
    | _ => other b

end Verif.CommandLine
