import Verif.Model.Basic

/-!
Model of `src/substrait/textplan/ParseResult.h`, `ParseResult.cpp`,
`SubstraitErrorListener.h`, `SubstraitErrorListener.cpp` and
`parser/SubstraitParserErrorListener.cpp`.
-/

namespace Verif.Err

open Verif

/-- `size_t(-1)`. -/
def npos : Nat := 2 ^ 64 - 1

/-- SubstraitErrorListener.h:9-17. -/
structure Instance where
  line : Nat
  column : Nat
  message : Str
  deriving DecidableEq, Repr

abbrev Listener := List Instance

/-- SubstraitErrorListener.cpp:10-15 and SubstraitParserErrorListener.cpp:10-27. -/
def addError (l : Listener) (line column : Nat) (msg : Str) : Listener := l ++ [⟨line, column, msg⟩]

/-- SubstraitErrorListener.h:29-31. -/
def addErrorNoLocation (l : Listener) (msg : Str) : Listener := addError l npos npos msg

/-- SubstraitErrorListener.h:33-35. -/
def addErrorInstances (l : Listener) (errors : List Instance) : Listener := l ++ errors

/-- SubstraitErrorListener.h:41-43. -/
def hasErrors (l : Listener) : Bool := !l.isEmpty

/-- SubstraitErrorListener.cpp:20-29. -/
def Instance.text (i : Instance) : Str :=
  if i.line = npos ∨ i.column = npos then i.message
  else natText i.line ++ ":".toList ++ natText i.column ++ " → ".toList ++ i.message

/-- SubstraitErrorListener.cpp:17-31. -/
def getErrorMessages (l : Listener) : List Str := l.map Instance.text

/-- ParseResult.h:15-66 without the symbol table. -/
structure ParseResult where
  syntaxErrors : List Str
  semanticErrors : List Str

/-- ParseResult.h:26-28. -/
def ParseResult.successful (r : ParseResult) : Bool :=
  r.syntaxErrors.isEmpty && r.semanticErrors.isEmpty

/-- ParseResult.h:42-47. -/
def ParseResult.getAllErrors (r : ParseResult) : List Str := r.syntaxErrors ++ r.semanticErrors

/-- ParseResult.h:49-51. -/
def ParseResult.addErrors (r : ParseResult) (errors : List Str) : ParseResult :=
  { r with syntaxErrors := r.syntaxErrors ++ errors }

/-- ParseText.cpp:36-147, ParseBinary.cpp:12-31: a parse records errors in two listeners; the
result takes the messages of both. -/
def ParseResult.ofListeners (syn sem : Listener) : ParseResult :=
  ⟨getErrorMessages syn, getErrorMessages sem⟩

end Verif.Err
