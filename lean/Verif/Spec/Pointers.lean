import Verif.Spec.VecMem
/-!
# Which vector a pointer belongs to

A pointer to the elements of a vector keeps belonging to that vector until the vector is destroyed or gets another size,
and follows the elements when they are moved into another vector.
-/
namespace Malg
namespace VecMem
variable {T : Type}

/-- The vector that a pointer into `x` belongs to after an operation, `none` if the pointer must not be used any more. -/
def owner (e : Env T) (op : Op T) (x : Nat) : Option Nat :=
  match op with
  | .destroy z => if z = x then none else some x
  | .moveCtor z y => if y = x then some z else some x
  | .moveAssign z y => if z = y then some x else if z = x then none else if y = x then some z else some x
  | .copyAssign z y => if z = x ∧ e.len y ≠ e.len x then none else some x
  | .resize z n => if z = x ∧ n ≠ e.len x then none else some x
  | .resizeLike z y => if z = x ∧ e.len y ≠ e.len x then none else some x
  | _ => some x

/-- The same after a program. -/
def ownerRun [Zero T] (sz : Nat) (e : Env T) (x : Nat) : List (Op T) → Option Nat
  | [] => some x
  | op :: ops =>
    match specStep sz e op with
    | none => none
    | some (e', _) =>
      match owner e op x with
      | none => none
      | some y => ownerRun sz e' y ops

end VecMem
end Malg
