import Verif.Model.MatHist
import Verif.Model.VecMem
/-!
# Matrices on the heap

`matrix.hpp` on top of the `Vector` of `Verif.Model.VecMem`: a matrix is two numbers and a vector that owns a block of memory. The
programs are those of `Verif.Model.MatHist`. The vector of the matrix variable `x` is the vector variable `x + 1`; the vector variable `0` is
the temporary of an assignment `_data = Vector<T>(…)` or of the local matrix of `resize`.
-/
namespace Malg
namespace MatMem
variable {T : Type}

/-- The heap with the vectors, and `_rows`, `_cols` of the matrices that exist, `matrix.hpp:26-32`. -/
structure MSt (T : Type) where
  vec : VecMem.St T
  dims : Nat → Option (Nat × Nat)

def MSt.init : MSt T := ⟨VecMem.St.init, fun _ => none⟩

def MSt.put (h : MSt T) (x : Nat) (v : VecMem.St T) (d : Option (Nat × Nat)) : MSt T := ⟨v, fun y => if y = x then d else h.dims y⟩

/-- A variable that does not exist has an indeterminate value. -/
def MSt.dim (h : MSt T) (x : Nat) : Res (Nat × Nat) :=
  match h.dims x with
  | none => .ub .uninit
  | some d => .ok d

variable [Zero T] (cfg : VecMem.Cfg)

/-- A call of a member of `Vector`. -/
def does (v : VecMem.St T) (op : VecMem.Op T) : Res (VecMem.St T) := do
  let r ← VecMem.step cfg v op
  return r.1

/-- `x[i]` for a vector, `vector.hpp:210-213`. -/
def reads (v : VecMem.St T) (x i : Nat) : Res T := do
  let r ← VecMem.step cfg v (.read x i)
  match r.2 with
  | some (.val a) => .ok a
  | _ => .ub .uninit

/-- The linear position of `(r, c)`, `matrix.hpp:450, 463`. -/
def pos (cols r c : Nat) : Nat := wadd (wmul r cols) c

/-- The loops of `Matrix(rows, cols, list)`, `matrix.hpp:69-74, 85-90`. -/
def fillFlat (x n m : Nat) (l : List T) (v : VecMem.St T) : Res (VecMem.St T) := do
  let (v, _) ← forRange 0 n (v, 0) fun r s =>
    forRange 0 m s fun c (v, it) => do
      let a ← vget l it
      let v ← does cfg v (.write x (pos m r c) a)
      return (v, it + 1)
  return v

/-- `_data = Vector<T>(k)`: the temporary is moved from and destroyed, `matrix.hpp:112, 266, 381`. -/
def renew (x k : Nat) (v : VecMem.St T) : Res (VecMem.St T) := do
  let v ← does cfg v (.sized 0 k)
  let v ← does cfg v (.moveAssign x 0)
  does cfg v (.destroy 0)

/-- The loops over nested lists, `matrix.hpp:114-120, 383-389`. -/
def fillNested (x n m : Nat) (l : List (List T)) (v : VecMem.St T) : Res (VecMem.St T) :=
  forRange 0 n v fun r v => do
    let row ← vget l r
    forRange 0 m v fun c v => do
      let a ← vget row c
      does cfg v (.write x (pos m r c) a)

/-- The loop of the copy constructors, `matrix.hpp:129-131, 152-154`. -/
def copyLin (x y k : Nat) (v : VecMem.St T) : Res (VecMem.St T) :=
  forRange 0 k v fun i v => do
    let a ← reads cfg v y i
    does cfg v (.write x i a)

/-- The loops of assignment and `resize`, `matrix.hpp:241-245, 271-275`; `cx` and `cy` are the numbers of columns of target and source. -/
def copyAt (x cx y cy n m : Nat) (v : VecMem.St T) : Res (VecMem.St T) :=
  forRange 0 n v fun r v =>
    forRange 0 m v fun c v => do
      let a ← reads cfg v y (pos cy r c)
      does cfg v (.write x (pos cx r c) a)

/-- `Matrix::resize`, `matrix.hpp:228-254`, of a matrix with shape `d`. -/
def resizes (x : Nat) (d : Nat × Nat) (r c : Nat) (v : VecMem.St T) : Res (VecMem.St T) :=
  if d.1 = r ∧ d.2 = c then .ok v
  else if d.2 = c then does cfg v (.resize x (wmul r c))
  else do
    let v ← does cfg v (.filled 0 (wmul r c) 0)
    let v ← copyAt cfg 0 c x d.2 (min d.1 r) (min d.2 c) v
    let v ← does cfg v (.moveAssign x 0)
    does cfg v (.destroy 0)

/-- `std::swap(matrix(r1, c1), matrix(r2, c2))`. -/
def swaps (x m r1 c1 r2 c2 : Nat) (v : VecMem.St T) : Res (VecMem.St T) := do
  let a ← reads cfg v x (pos m r1 c1)
  let b ← reads cfg v x (pos m r2 c2)
  let v ← does cfg v (.write x (pos m r1 c1) b)
  does cfg v (.write x (pos m r2 c2) a)

/-- One operation of a program over matrix variables, `matrix.hpp:44-395, 400-467`, `utility.hpp:447-478`. -/
def mstep (h : MSt T) : MatHist.Op T → Res (MSt T × Option (MatHist.Obs T))
  | .default x => do
    let v ← does cfg h.vec (.default (x + 1))
    return (h.put x v (some (0, 0)), none)
  | .new x n m a => do
    let v ← does cfg h.vec (.filled (x + 1) (wmul n m) a)
    return (h.put x v (some (n, m)), none)
  | .flat x n m l => do
    let v ← does cfg h.vec (.sized (x + 1) (wmul n m))
    let v ← fillFlat cfg (x + 1) n m l v
    return (h.put x v (some (n, m)), none)
  | .nested x l => do
    let v ← does cfg h.vec (.default (x + 1))
    -- an exception in the body of the constructor destroys `_data`
    if l.length = 0 then
      let v ← does cfg v (.destroy (x + 1))
      return (⟨v, h.dims⟩, some (.threw .invalidArgument))
    else
      let first ← vget l 0
      if first.length = 0 then
        let v ← does cfg v (.destroy (x + 1))
        return (⟨v, h.dims⟩, some (.threw .invalidArgument))
      else
        let v ← renew cfg (x + 1) (wmul l.length first.length) v
        let v ← fillNested cfg (x + 1) l.length first.length l v
        return (h.put x v (some (l.length, first.length)), none)
  | .copy x y => do
    let d ← h.dim y
    let v ← does cfg h.vec (.sized (x + 1) (wmul d.1 d.2))
    let v ← copyLin cfg (x + 1) (y + 1) (wmul d.1 d.2) v
    return (h.put x v (some d), none)
  | .move x y => do
    let d ← h.dim y
    let v ← does cfg h.vec (.moveCtor (x + 1) (y + 1))
    return (h.put x v (some d), none)
  | .destroy x => do
    let v ← does cfg h.vec (.destroy (x + 1))
    return (h.put x v none, none)
  | .assign x y => do
    let _ ← h.dim x
    let d ← h.dim y
    if y = x then return (h, none)
    else if wmul d.1 d.2 > 0 then
      let v ← renew cfg (x + 1) (wmul d.1 d.2) h.vec
      let v ← copyAt cfg (x + 1) d.2 (y + 1) d.2 d.1 d.2 v
      return (h.put x v (some d), none)
    else return (h, none)
  | .moveAssign x y => do
    let _ ← h.dim x
    let d ← h.dim y
    if y ≠ x ∧ wmul d.1 d.2 > 0 then
      let v ← does cfg h.vec (.moveAssign (x + 1) (y + 1))
      return (h.put x v (some d), none)
    else return (h, none)
  | .assignNested x l => do
    let _ ← h.dim x
    if l.length = 0 then return (h, none)
    else
      let first ← vget l 0
      if first.length = 0 then return (h, none)
      else
        let v ← renew cfg (x + 1) (wmul l.length first.length) h.vec
        let v ← fillNested cfg (x + 1) l.length first.length l v
        return (h.put x v (some (l.length, first.length)), none)
  | .reshape x n m => do
    let d ← h.dim x
    if wmul d.1 d.2 ≠ wmul n m then return (h, some (.threw .invalidArgument))
    else return (h.put x h.vec (some (n, m)), none)
  | .resize x n m => do
    let d ← h.dim x
    let v ← resizes cfg (x + 1) d n m h.vec
    return (h.put x v (some (n, m)), none)
  | .removeRow x p => do
    let d ← h.dim x
    if p ≥ d.1 then return (h, some (.threw .invalidArgument))
    else
      let v ← forRange p (wsub d.1 1) h.vec fun r v =>
        forRange 0 d.2 v fun c v => swaps cfg (x + 1) d.2 r c (wadd r 1) c v
      let v ← resizes cfg (x + 1) d (wsub d.1 1) d.2 v
      return (h.put x v (some (wsub d.1 1, d.2)), none)
  | .removeCol x p => do
    let d ← h.dim x
    if p ≥ d.2 then return (h, some (.threw .invalidArgument))
    else
      let v ← forRange p (wsub d.2 1) h.vec fun c v =>
        forRange 0 d.1 v fun r v => swaps cfg (x + 1) d.2 r c r (wadd c 1) v
      let v ← resizes cfg (x + 1) d d.1 (wsub d.2 1) v
      return (h.put x v (some (d.1, wsub d.2 1)), none)
  | .set x r c a => do
    let d ← h.dim x
    let v ← does cfg h.vec (.write (x + 1) (pos d.2 r c) a)
    return (h.put x v (some d), none)
  | .setLin x i a => do
    let d ← h.dim x
    let v ← does cfg h.vec (.write (x + 1) i a)
    return (h.put x v (some d), none)
  | .get x r c => do
    let d ← h.dim x
    let a ← reads cfg h.vec (x + 1) (pos d.2 r c)
    return (h, some (.val a))
  | .getLin x i => do
    let a ← reads cfg h.vec (x + 1) i
    return (h, some (.val a))
  | .shape x => do
    let d ← h.dim x
    return (h, some (.shape d.1 d.2 (wmul d.1 d.2) (d.1 == 0 || d.2 == 0)))

/-- A program and everything it saw. -/
def mrun (h : MSt T) : List (MatHist.Op T) → Res (MSt T × List (MatHist.Obs T))
  | [] => .ok (h, [])
  | op :: ops => do
    let (h, o) ← mstep cfg h op
    let (h, os) ← mrun h ops
    return (h, o.toList ++ os)

end MatMem
end Malg
