import Mathlib.Data.List.Basic
import Mathlib.Data.Nat.Digits.Defs

/-!
# Model of `gen_hex_name` (`omtools/utils/gen_hex_name.py`)

Simplification: `int(num / base)` goes through a floating point number; `num` is a multiple of `base`
there, so the result is exact as long as `num < 2^53`. The model uses exact division.
-/

namespace OM

/-- Line 17. -/
def charSet : List Char :=
  "0123456789abcdefghijklmnopqrstuvwxyzABCDEFGHIJKLMNOPQRSTUVWXYZ_".toList

/-- Lines 25-32: the `while` loop. -/
def hexLoop (num : Nat) (pre rep : List Char) : List Char :=
  if _h : (num - num % 63) / 63 = 0 then pre.dropLast ++ (charSet.getD (num % 63) '0' :: rep)
  else hexLoop ((num - num % 63) / 63) pre.dropLast (charSet.getD (num % 63) '0' :: rep)
termination_by num
decreasing_by omega

/-- `gen_hex_name(num)`, lines 2-35. -/
def genHexName (num : Nat) : String := String.ofList (hexLoop num "_0000".toList [])

end OM
