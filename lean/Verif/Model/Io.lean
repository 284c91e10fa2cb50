import Verif.Model.Regex

/-!
Model of `src/substrait/common/Io.cpp`, `src/substrait/common/PlanTransformerTool.cpp`,
`src/substrait/textplan/converter/LoadBinary.cpp`, `.../SaveBinary.cpp`,
`src/substrait/textplan/parser/LoadText.cpp` and `export/planloader/planloader.cpp`.

The four codecs (protobuf's and the text plan's) are parameters.
-/

namespace Verif.Io

open Verif Regex

/-- include/substrait/common/Io.h:15-20. -/
inductive Format where
  | binary | json | protoText | text
  deriving DecidableEq, Repr

/-- Io.cpp:17-18. -/
def kIsJson : Re :=
  alts [lit "\"extensionUris\"".toList, lit "\"extension_uris\"".toList,
    lit "\"extensions\"".toList, lit "\"relations\"".toList]

/-- Io.cpp:19-20, after `(^|\n)`. -/
def kIsProtoText : Re :=
  .seq (alts [lit "relations".toList, lit "extensions".toList, lit "extension_uris".toList,
    lit "expected_type_urls".toList]) (lit " {".toList)

def lower (c : Char) : Bool := 97 ≤ c.toNat && c.toNat ≤ 122

def spaces : Re := .star (.chr (· == ' '))

/-- Io.cpp:21-22, after `(^|\n)`. -/
def kIsText : Re :=
  .seq spaces (.seq (alts [lit "pipelines".toList,
    .seq (plus (.chr lower)) (.seq spaces (lit "relation".toList)),
    lit "schema".toList, lit "source".toList, lit "extension_space".toList]) spaces)

/-- Io.cpp:24-35. -/
def detectFormat (content : Str) : Format :=
  if search kIsJson content then .json
  else if searchLine kIsProtoText content then .protoText
  else if searchLine kIsText content then .text
  else .binary

/-- PlanTransformerTool.cpp:10-27. -/
def planFileFormatFromText (s : Str) : Format :=
  let foo := s.map toLower
  if foo = "binary".toList then .binary
  else if foo = "json".toList then .json
  else if foo = "prototext".toList then .protoText
  else if foo = "text".toList then .text
  else .text

/-- An error status; the message is kept. -/
abbrev Status (α : Type) := Except Str α

/-- The external decoders. -/
structure Decoders (Plan : Type) where
  binary : Str → Status Plan
  json : Str → Status Plan
  protoText : Str → Status Plan
  text : Str → Status Plan

/-- LoadBinary.cpp:58-79: an empty text is an error, a first line starting with `#` is left
out (the newline stays).  `parse` is `JsonStringToMessage`. -/
def loadFromJson {Plan : Type} (parse : Str → Status Plan) (json : Str) : Status Plan :=
  match json with
  | [] => .error "Provided JSON string was empty.".toList
  | '#' :: _ => parse (json.dropWhile (· != '\n'))
  | _ => parse json

/-- Io.cpp:39-61.  `file` is the content of the input file, `none` if it cannot be opened. -/
def loadPlan {Plan : Type} (d : Decoders Plan) (file : Option Str) : Status Plan :=
  match file with
  | none => .error "Failed to open file".toList
  | some content =>
    match detectFormat content with
    | .binary => d.binary content
    | .json => loadFromJson d.json content
    | .protoText => d.protoText content
    | .text => d.text content

/-- What the operating system does with one save: whether the file can be opened, how many
bytes it takes before writing fails (`none`: no limit), whether closing works. -/
structure Env where
  openOk : Bool
  capacity : Option Nat
  closeOk : Bool

/-- The bytes that reach the file. -/
def Env.written (e : Env) (out : Str) : Str :=
  match e.capacity with
  | none => out
  | some n => out.take n

/-- All bytes reached the file. -/
def Env.fits (e : Env) (out : Str) : Bool :=
  match e.capacity with
  | none => true
  | some n => decide (out.length ≤ n)

/-- The result of a save. -/
inductive Result where
  | ok
  | error
  /-- an exception left the function -/
  | thrown
  deriving DecidableEq, Repr

/-- SaveBinary.cpp:26-49 and 103-126 (`savePlanToBinary`, `savePlanToProtoText`): `creat`
empties the file; the serializer writes through a buffered stream.  Simplification: on a
failed write the model keeps the bytes the device took. -/
def saveStream (e : Env) (out : Str) (file : Option Str) : Result × Option Str :=
  if !e.openOk then (.error, file)
  else if !e.fits out then (.error, some (e.written out))
  else if !e.closeOk then (.error, some out)
  else (.ok, some out)

/-- SaveBinary.cpp:51-71 (`savePlanToJson`): the file is emptied before the plan is encoded.
`out` is the result of `MessageToJsonString`, `none` if it fails. -/
def saveJson (e : Env) (out : Option Str) (file : Option Str) : Result × Option Str :=
  if !e.openOk then (.error, file)
  else match out with
    | none => (.error, some [])
    | some out =>
      if !e.fits out || !e.closeOk then (.error, some (e.written out))
      else (.ok, some out)

/-- The outcome of converting a plan to text: an exception, errors found by
`parseBinaryPlan`, or a text with the number of errors met while printing. -/
inductive TextResult where
  | throws
  | parseErrors
  | printed (out : Str) (errors : Nat)

/-- SaveBinary.cpp:73-101 (`savePlanToText`). -/
def saveText (e : Env) (r : TextResult) (file : Option Str) : Result × Option Str :=
  if !e.openOk then (.error, file)
  else match r with
    | .throws => (.thrown, some [])
    | .parseErrors => (.error, some [])
    | .printed out errors =>
      if !e.fits out || !e.closeOk then (.error, some (e.written out))
      else if errors ≠ 0 then (.error, some out)
      else (.ok, some out)

/-- The external encoders. -/
structure Encoders (Plan : Type) where
  binary : Plan → Str
  json : Plan → Option Str
  protoText : Plan → Str
  text : Plan → TextResult

/-- Io.cpp:63-78. -/
def savePlan {Plan : Type} (enc : Encoders Plan) (e : Env) (p : Plan) (f : Format)
    (file : Option Str) : Result × Option Str :=
  match f with
  | .binary => saveStream e (enc.binary p) file
  | .json => saveJson e (enc.json p) file
  | .protoText => saveStream e (enc.protoText p) file
  | .text => saveText e (enc.text p) file

/-! ## The C interface -/

/-- planloader.h:10-18.  `buffer` is the allocated memory: the bytes and the terminator. -/
structure SerializedPlan where
  buffer : Option Str
  size : Int
  errorMessage : Option Str

/-- planloader.cpp:14-35.  `strncpy` copies up to the first NUL. -/
def loadSubstraitPlan {Plan : Type} (loaded : Status Plan) (serialize : Plan → Str) :
    SerializedPlan :=
  match loaded with
  | .error msg => ⟨none, 0, some (msg.takeWhile (· != '\x00'))⟩
  | .ok p => ⟨some (serialize p ++ ['\x00']), ((serialize p).length &&& (2 ^ 31 - 1) : Nat), none⟩

/-- A `const char*` result: null, or a pointer to memory that is already released. -/
inductive CStr where
  | null
  | dangling (text : Str)

/-- Reading the characters of the result. -/
def CStr.read : CStr → Outcome Str
  | .null => .ub
  | .dangling _ => .ub

/-- planloader.cpp:46-60.  `parse` is `ParseFromString`: it leaves a plan (possibly partly
filled) and a flag, which is not looked at.  `save` gives the error message of `savePlan`. -/
def saveSubstraitPlan {Plan : Type} (parse : Str → Bool × Plan) (save : Plan → Option Str)
    (data : Str) : CStr :=
  match save (parse data).2 with
  | some msg => .dangling msg
  | none => .null

end Verif.Io
