import Verif.Model.Utility
import Mathlib.Algebra.Order.Ring.Int
/-!
# Signed integer types

Elsewhere integer elements are unbounded integers. Here the results of operations of a signed type of `w` bits (`int`, `long`,
`long long`: types that are not promoted) are represented as the standard has them: the exact result if it is in range, otherwise the
behaviour is undefined, [expr.pre]. The undefined result is a value `over` that stays in all later results, so that a
result which is not `over` comes from an execution without overflow.
-/
namespace Malg

/-- The values of a signed type of `w` bits. -/
def InRange (w : ℕ) (x : ℤ) : Prop := -2 ^ (w - 1) ≤ x ∧ x < 2 ^ (w - 1)

instance (w : ℕ) (x : ℤ) : Decidable (InRange w x) := inferInstanceAs (Decidable (_ ∧ _))

/-- The result of an operation. -/
inductive SInt (w : ℕ)
  | val (x : ℤ) (h : InRange w x)
  | over
  deriving DecidableEq

namespace SInt
variable {w : ℕ}

/-- An exact result. -/
def of (x : ℤ) : SInt w := if h : InRange w x then val x h else over

/-- The value, if there is one. -/
def get : SInt w → Option ℤ
  | val x _ => some x
  | over => none

/-- Undefined operands give an undefined result. -/
def lift (f : ℤ → ℤ → ℤ) : SInt w → SInt w → SInt w
  | val x _, val y _ => of (f x y)
  | _, _ => over

instance : Zero (SInt w) := ⟨of 0⟩
instance : One (SInt w) := ⟨of 1⟩
instance : NatCast (SInt w) := ⟨fun n => of n⟩
instance : Add (SInt w) := ⟨lift (· + ·)⟩
instance : Sub (SInt w) := ⟨lift (· - ·)⟩
instance : Mul (SInt w) := ⟨lift (· * ·)⟩
instance : Neg (SInt w) := ⟨fun a => 0 - a⟩
/-- Truncating division, [expr.mul]; the smallest value divided by minus one is out of range. -/
instance : CDiv (SInt w) := ⟨fun a b =>
  match b with
  | val 0 _ => .ub .divZero
  | b => .ok (lift Int.tdiv a b)⟩

end SInt

/-- `int`. -/
abbrev CInt := SInt 32

end Malg
