import Verif.Model.Basic

/-! Model of `src/substrait/textplan/StringManipulation.cpp`. -/

namespace Verif.StringManipulation

open Verif

/-- StringManipulation.cpp:12-15. -/
def startsWith (haystack needle : Str) : Bool :=
  decide (haystack.length > needle.length) && haystack.take needle.length == needle

/-- StringManipulation.cpp:17-20. -/
def endsWith (haystack needle : Str) : Bool :=
  decide (haystack.length > needle.length) &&
    (haystack.drop (haystack.length - needle.length)).take needle.length == needle

end Verif.StringManipulation
