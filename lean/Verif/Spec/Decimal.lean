import Verif.Model.Basic

/-! # Specification of decimal literals -/

namespace Verif.Decimal

/-- The unsigned number a little-endian byte string denotes. -/
def unsigned : List UInt8 → Nat
  | [] => 0
  | b :: bs => b.toNat + 256 * unsigned bs

/-- The two's complement number a little-endian byte string denotes. -/
def signed (bytes : List UInt8) : Int :=
  if 2 * unsigned bytes < 256 ^ bytes.length then unsigned bytes
  else unsigned bytes - (256 : Int) ^ bytes.length

end Verif.Decimal
