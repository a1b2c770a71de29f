import Verif.Model.VecMem
/-!
# Vector variables as plain lists

The specification of C01–C05: variables that hold lists, without any memory.
-/
namespace Malg
namespace VecMem
variable {T : Type}

/-- Variables holding lists. -/
abbrev Env (T : Type) := Nat → Option (List T)

def Env.init : Env T := fun _ => none

def Env.set (e : Env T) (x : Nat) (l : Option (List T)) : Env T := fun y => if y = x then l else e y

/-- `n` elements of `sz` bytes are no more than half of the address space. -/
def Small (sz n : Nat) : Prop := sz * n < 2 ^ 63

instance (sz n : Nat) : Decidable (Small sz n) := inferInstanceAs (Decidable (_ < _))

/-- What an operation means; `none` if a program must not do this: the variable exists already or does not exist, the
index is out of range, the size is beyond the address space. -/
def specStep [Zero T] (sz : Nat) (e : Env T) : Op T → Option (Env T × Option (Obs T))
  | .default x => if e x = none then some (e.set x (some []), none) else none
  | .sized x n => if e x = none ∧ Small sz n then some (e.set x (some (List.replicate n 0)), none) else none
  | .filled x n a => if e x = none ∧ Small sz n then some (e.set x (some (List.replicate n a)), none) else none
  | .ofList x l => if e x = none ∧ Small sz l.length then some (e.set x (some l), none) else none
  | .sizedList x n l =>
    if e x = none ∧ n = l.length ∧ Small sz l.length then some (e.set x (some l), none) else none
  | .copyCtor x y =>
    match e x, e y with
    | none, some l => some (e.set x (some l), none)
    | _, _ => none
  | .moveCtor x y =>
    match e x, e y with
    | none, some l => some ((e.set x (some l)).set y (some []), none)
    | _, _ => none
  | .destroy x =>
    match e x with
    | some _ => some (e.set x none, none)
    | none => none
  | .copyAssign x y =>
    match e x, e y with
    | some _, some l => some (e.set x (some l), none)
    | _, _ => none
  | .moveAssign x y =>
    match e x, e y with
    | some _, some l => if x = y then some (e, none) else some ((e.set x (some l)).set y (some []), none)
    | _, _ => none
  | .resize x n =>
    match e x with
    | some l => if Small sz n then some (e.set x (some (l.take n ++ List.replicate (n - l.length) 0)), none) else none
    | none => none
  | .resizeLike x y =>
    match e x, e y with
    | some l, some k => some (e.set x (some (l.take k.length ++ List.replicate (k.length - l.length) 0)), none)
    | _, _ => none
  | .write x i a =>
    match e x with
    | some l => if i < l.length then some (e.set x (some (l.set i a)), none) else none
    | none => none
  | .read x i =>
    match e x with
    | some l => match l[i]? with
      | some a => some (e, some (.val a))
      | none => none
    | none => none
  | .size x =>
    match e x with
    | some l => some (e, some (.size l.length))
    | none => none

/-- Does a change of size need the allocator? -/
def request (old new : Nat) : Nat := if new = 0 ∨ new = old then 0 else 1

/-- The length of a variable. -/
def Env.len (e : Env T) (x : Nat) : Nat := match e x with
  | some l => l.length
  | none => 0

/-- How often an operation asks the allocator for memory: only when a vector gets a new size other than zero. -/
def requests (e : Env T) : Op T → Nat
  | .sized _ n => request 0 n
  | .filled _ n _ => request 0 n
  | .ofList _ l => request 0 l.length
  | .sizedList _ _ l => request 0 l.length
  | .copyCtor _ y => request 0 (e.len y)
  | .copyAssign x y => request (e.len x) (e.len y)
  | .resize x n => request (e.len x) n
  | .resizeLike x y => request (e.len x) (e.len y)
  | _ => 0

/-- How often a program asks the allocator for memory. -/
def totalRequests [Zero T] (sz : Nat) (e : Env T) : List (Op T) → Nat
  | [] => 0
  | op :: ops =>
    match specStep sz e op with
    | none => 0
    | some (e', _) => requests e op + totalRequests sz e' ops

/-- What a program means. -/
def specRun [Zero T] (sz : Nat) (e : Env T) : List (Op T) → Option (Env T × List (Obs T))
  | [] => some (e, [])
  | op :: ops =>
    match specStep sz e op with
    | none => none
    | some (e, o) =>
      match specRun sz e ops with
      | none => none
      | some (e, os) => some (e, o.toList ++ os)

/-- The operation is applied to the variable `z` (and not just reads it). -/
def Op.Changes (z : Nat) : Op T → Prop
  | .default x | .sized x _ | .filled x _ _ | .ofList x _ | .sizedList x _ _ | .copyCtor x _ | .destroy x
  | .copyAssign x _ | .resize x _ | .resizeLike x _ | .write x _ _ => z = x
  | .moveCtor x y | .moveAssign x y => z = x ∨ z = y
  | .read _ _ | .size _ => False

end VecMem
end Malg
