import Verif.Spec.MatHist
/-!
# Which matrix a pointer belongs to, and what operations ask of the allocator

A pointer to the elements of a matrix, from `data()`, `begin()` or `&matrix(r, c)`, for programs over matrix variables.
-/
namespace Malg
namespace MatHist
variable {T : Type}

/-- Rows and columns; a matrix that was moved from still reports those it had. -/
def Val.dims : Val T → Nat × Nat
  | .table n m _ => (n, m)
  | .moved n m => (n, m)

def Env.dims (s : Env T) (x : Nat) : Nat × Nat := ((s x).map Val.dims).getD (0, 0)

/-- What `size()` reports. -/
def Env.count (s : Env T) (x : Nat) : Nat := (s.dims x).1 * (s.dims x).2

/-- What becomes of a pointer: it points into the matrix `y`; its memory was given back; it depends on the allocator. -/
inductive Fate
  | into (y : Nat)
  | gone
  | depends
  deriving DecidableEq, Repr

/-- What an operation does to a pointer into the elements of `x`. -/
def fate (s : Env T) (op : Op T) (x : Nat) : Fate :=
  match op with
  | .destroy z => if z = x then .gone else .into x
  | .move z y => if y = x then .into z else .into x
  | .moveAssign z y => if z = y ∨ s.count y = 0 then .into x else if z = x then .gone else if y = x then .into z else .into x
  | .assign z y => if z = x ∧ y ≠ x ∧ s.count y ≠ 0 then .gone else .into x
  | .assignNested z l => if z = x ∧ l ≠ [] ∧ width l ≠ 0 then .gone else .into x
  | .resize z n m => if z = x ∧ s.dims x ≠ (n, m) then (if (s.dims x).2 = m ∧ n ≠ 0 then .depends else .gone) else .into x
  | .removeRow z p => if z = x ∧ p < (s.dims x).1 then (if (s.dims x).1 ≠ 1 then .depends else .gone) else .into x
  | .removeCol z p => if z = x ∧ p < (s.dims x).2 then .gone else .into x
  | _ => .into x

/-- What a program does to the pointer, up to the first operation that takes the memory away or may do so. -/
def fateRun [Zero T] (s : Env T) (x : Nat) : List (Op T) → Fate
  | [] => .into x
  | op :: ops =>
    match specStep s op with
    | none => .depends
    | some (s', _) =>
      match fate s op x with
      | .into y => fateRun s' y ops
      | f => f

/-- One request if there is anything to store. -/
def atMostOne (k : Nat) : Nat := if k = 0 then 0 else 1

/-- How often an operation asks the allocator for memory. -/
def cost (s : Env T) : Op T → Nat
  | .new _ n m _ | .flat _ n m _ => atMostOne (n * m)
  | .nested _ l | .assignNested _ l => atMostOne (l.length * width l)
  | .copy _ y => atMostOne (s.count y)
  | .assign x y => if x = y then 0 else atMostOne (s.count y)
  | .resize x n m => if s.dims x = (n, m) then 0 else atMostOne (n * m)
  | .removeRow x p => if p < (s.dims x).1 then atMostOne (((s.dims x).1 - 1) * (s.dims x).2) else 0
  | .removeCol x p => if p < (s.dims x).2 then atMostOne ((s.dims x).1 * ((s.dims x).2 - 1)) else 0
  | _ => 0

/-- How often a program asks the allocator for memory. -/
def totalCost [Zero T] (s : Env T) : List (Op T) → Nat
  | [] => 0
  | op :: ops =>
    match specStep s op with
    | none => 0
    | some (s', _) => cost s op + totalCost s' ops

end MatHist
end Malg
