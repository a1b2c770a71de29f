import Verif.Model.Core
/-!
# `feq.hpp`

`std::abs` is a parameter (the modulus for complex values); `tolerance()` is an argument.
-/
namespace Malg.Feq
variable {T : Type} {R : Type}

/-- `approximately_equal`, `feq.hpp:26-30`. -/
def approxEq [Sub T] [Mul R] [Max R] [LE R] [DecidableRel (α := R) (· ≤ ·)] (abs : T → R) (tol : R) (a b : T) :
    Bool :=
  decide (abs (a - b) ≤ tol * max (abs a) (abs b))

/-- `approximately_lesser_than_equal`, `feq.hpp:37-41`. -/
def approxLe [Sub T] [LT T] [DecidableRel (α := T) (· < ·)] [Mul R] [Max R] [LE R] [DecidableRel (α := R) (· ≤ ·)]
    (abs : T → R) (tol : R) (a b : T) : Bool :=
  decide (a < b) || approxEq abs tol a b

/-- `approximately_greater_than_equal`, `feq.hpp:48-52`. -/
def approxGe [Sub T] [LT T] [DecidableRel (α := T) (· < ·)] [Mul R] [Max R] [LE R] [DecidableRel (α := R) (· ≤ ·)]
    (abs : T → R) (tol : R) (a b : T) : Bool :=
  decide (b < a) || approxEq abs tol a b

/-- `approximately_equal_to_zero`, `feq.hpp:58-62`. -/
def approxZero [Mul R] [LE R] [DecidableRel (α := R) (· ≤ ·)] (abs : T → R) (tol : R) (a : T) : Bool :=
  decide (abs a ≤ tol * abs a)

end Malg.Feq
