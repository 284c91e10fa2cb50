import Verif.Model.Basic

/-!
Model of `src/substrait/common/StringUtils.h` and `src/substrait/common/NumberUtils.h`.
-/

namespace Verif.StringUtils

/-- StringUtils.h:29: `kWhitespace = " \n\r\t\f\v"`. -/
def isSpace (c : Char) : Bool :=
  c = ' ' || c = '\n' || c = '\r' || c = '\t' || c = '\x0c' || c = '\x0b'

/-- StringUtils.h:13-16.  `find_first_not_of` followed by `substr(start)`; an
all-blank string gives `""`. -/
def ltrim : Str → Str
  | [] => []
  | c :: cs => if isSpace c then ltrim cs else c :: cs

/-- StringUtils.h:18-21.  `find_last_not_of` followed by `substr(0, end + 1)`; an
all-blank string gives `""`. -/
def rtrim : Str → Str
  | [] => []
  | c :: cs =>
    match rtrim cs with
    | [] => if isSpace c then [] else [c]
    | d :: ds => c :: d :: ds

/-- StringUtils.h:23-25. -/
def trim (s : Str) : Str := rtrim (ltrim s)

end Verif.StringUtils

namespace Verif.NumberUtils

/-- NumberUtils.h:16-20. -/
def isNonNegativeInteger (s : Str) : Bool := !s.isEmpty && s.all isDigit

/-- NumberUtils.h:22-24. -/
def isNegativeInteger : Str → Bool
  | '-' :: rest => isNonNegativeInteger rest
  | _ => false

/-- NumberUtils.h:12-14. -/
def isInteger (s : Str) : Bool := isNonNegativeInteger s || isNegativeInteger s

end Verif.NumberUtils
