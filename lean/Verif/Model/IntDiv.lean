import Verif.Model.SInt
import Verif.Model.Float
import Mathlib.Data.ZMod.Basic
/-!
# Integers divided by a `double`

`poly` divides an element by `static_cast<double>(m)` and stores the quotient as an element. For integer elements the dividend is
converted to `double`, the quotient is rounded, and the result is converted back by dropping the fraction, which is undefined if
the result does not fit ([conv.fpint]).
-/
namespace Malg

/-- The `double` nearest to `x`. -/
def toDouble (x : ℚ) : ℚ := rnd 53 (-1074) x

/-- The quotient of the `double` values of `x` and `m` without its fraction. -/
def quotDouble (x : ℤ) (m : ℕ) : ℤ :=
  let q := toDouble (toDouble x / toDouble m)
  if q < 0 then ⌈q⌉ else ⌊q⌋

/-- `trace(B) / static_cast<double>(m)` stored in a signed integer, `control.hpp:279`. -/
def SInt.divDouble {w : ℕ} : SInt w → ℕ → Res (SInt w)
  | over, _ => .ok over
  | val x _, m => if h : InRange w (quotDouble x m) then .ok (val _ h) else .ub .badCast

/-- The same for an unsigned integer of `w` bits. -/
def divDoubleU (w : ℕ) (x : ZMod (2 ^ w)) (m : ℕ) : Res (ZMod (2 ^ w)) :=
  let q := quotDouble x.val m
  if 0 ≤ q ∧ q < 2 ^ w then .ok (q : ZMod (2 ^ w)) else .ub .badCast

end Malg
