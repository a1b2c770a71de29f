import Verif.Model.Linalg
import Verif.Model.IntDiv
import Verif.Model.Mixed
/-!
# `inverse` and `div` of matrices with integer elements

`determinant` and `adjoint` return elements of the type of the matrix; only the division of the adjoint by the determinant is done in the
common type with `double`.
-/
namespace Malg

/-- Conversion of an integer to a floating point type, [conv.fpint]: the nearest number. An overflow has no value to convert. -/
def SInt.toFl {w : ℕ} (p : ℕ) (emin : ℤ) : SInt w → Res (Fl ℚ p emin)
  | .val x _ => .ok (Fl.of p emin x)
  | .over => .ub .overflow

/-- `approximately_equal_to_zero` of an integer, `feq.hpp:58-62`; the product with the tolerance is computed in `double`.
Simplified: the absolute value of the smallest integer is taken as exact. -/
def SInt.isZero {w : ℕ} {p : ℕ} {emin : ℤ} (tol : Fl ℚ p emin) : SInt w → Bool
  | .val x _ => Feq.approxZero Fl.abs tol (Fl.of p emin |(x : ℚ)|)
  | .over => false

/-- A signed type of `w` bits whose results wrap around. The standard leaves an overflow undefined, [expr.pre]; wrapping is what processors
do and what compilers promise under `-fwrapv`. -/
structure WInt (w : ℕ) where
  val : ℤ
  deriving DecidableEq

namespace WInt
variable {w : ℕ}

/-- The result that is congruent to `x` and in range. -/
def of (x : ℤ) : WInt w := ⟨Int.bmod x (2 ^ w)⟩

instance : Zero (WInt w) := ⟨of 0⟩
instance : One (WInt w) := ⟨of 1⟩
instance : Add (WInt w) := ⟨fun a b => of (a.val + b.val)⟩
instance : Sub (WInt w) := ⟨fun a b => of (a.val - b.val)⟩
instance : Mul (WInt w) := ⟨fun a b => of (a.val * b.val)⟩
instance : Neg (WInt w) := ⟨fun a => of (-a.val)⟩
instance : CDiv (WInt w) := ⟨fun a b => if b.val = 0 then .ub .divZero else .ok (of (Int.tdiv a.val b.val))⟩

end WInt

namespace Lin
variable {S T : Type}

/-- `inverse`, `linalg.hpp:231-257`, for elements of type `S` whose common type with `double` is `T`; `conv` converts. -/
def inverseC [Zero S] [One S] [Add S] [Sub S] [Mul S] [Neg S] [CDiv S] [Zero T] [CDiv T] (iszS : S → Bool) (isz : T → Bool)
    (conv : S → Res T) (M : MB S) : Res (Mat T) :=
  if !Util.isSquare M then .throw .invalidArgument
  else do
    let d ← determinant iszS M
    let det ← conv d
    if isz det then return Mat.empty0
    else do
      let adj ← adjoint iszS M
      let inv ← Mat.new M.rows M.cols (0 : T)
      forRange 0 M.rows inv fun r inv =>
        forRange 0 M.cols inv fun c inv => do
          let x ← adj.at_ r c
          let x ← conv x
          let y ← cdiv x det
          inv.setAt r c y

/-- `div`, `linalg.hpp:377-381`, for elements of type `S`: `A` is multiplied by the inverse, in the type `T`. -/
def divC [Zero S] [One S] [Add S] [Sub S] [Mul S] [Neg S] [CDiv S] [Zero T] [Add T] [Mul T] [CDiv T] (iszS : S → Bool) (isz : T → Bool)
    (conv : S → Res T) (c₁ : S → T) (A B : MB S) : Res (Mat T) := do
  let I ← inverseC iszS isz conv B
  Mixed.mul c₁ id A I.toMB

end Lin
end Malg
