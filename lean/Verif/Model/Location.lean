import Verif.Model.Basic

/-! Model of `src/substrait/textplan/Location.h` and `Location.cpp`. -/

namespace Verif

/-- Location.h:40-41.  A pointer is its address; `<` on pointers is the order of addresses. -/
inductive Location where
  /-- `antlr4::ParserRuleContext*` -/
  | node (address : Nat)
  /-- `const google::protobuf::Message*` -/
  | message (address : Nat)
  deriving DecidableEq, Repr

namespace Location

/-- Location.cpp:9-10. -/
def unknown : Location := .message 0

/-- Location.cpp:12-33. -/
def eq : Location → Location → Bool
  | .node a, .node b => a == b
  | .node _, .message _ => false
  | .message a, .message b => a == b
  | .message _, .node _ => false

/-- Location.cpp:37-49, where `std::hash` of a pointer is the parameter. -/
def hash (h : Nat → Nat) : Location → Nat
  | .node a => h a
  | .message a => h a

/-- Location.cpp:51-71. -/
def less : Location → Location → Bool
  | .node a, .node b => decide (a < b)
  | .node _, .message _ => true
  | .message a, .message b => decide (a < b)
  | .message _, .node _ => false

end Location
end Verif
