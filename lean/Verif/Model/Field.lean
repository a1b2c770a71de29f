import Verif.Model.Utility
import Mathlib.Algebra.Field.Defs
/-!
# Division in a field

Floating point types are modelled by an arbitrary field (exact arithmetic, see DESIGN.md); a division
by zero has no value there and is kept apart as an outcome of its own.
-/
namespace Malg

/-- Division in a field. -/
instance (priority := low) fieldCDiv {K : Type} [Field K] [DecidableEq K] : CDiv K :=
  ⟨fun a b => if b = 0 then .ub .divZero else .ok (a / b)⟩

theorem cdiv_ok {K : Type} [Field K] [DecidableEq K] (a : K) {b : K} (h : b ≠ 0) : cdiv a b = .ok (a / b) :=
  if_neg h

theorem cdiv_zero {K : Type} [Field K] [DecidableEq K] (a : K) : cdiv a (0 : K) = .ub .divZero := if_pos rfl

end Malg
