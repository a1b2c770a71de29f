import Verif.Model.VecMem
import Verif.Model.View
/-!
# Pointers and iterators into vectors, matrices and views

Iterators are plain pointers (`vector.hpp:24-27`): a block, or null, and an offset. Pointers of a `Matrix` are those of the
vector inside (`matrix.hpp:198-208, 471-495`).
-/
namespace Malg
namespace VecMem
variable {T : Type}

/-- `data()`, `begin()` and `cbegin()`, `vector.hpp:154-164, 273-290`: `_data`. -/
def St.begin (st : St T) (x : Nat) : Res (Option Nat × Nat) := do
  let v ← st.var x
  return (v.data, 0)

/-- `end()` and `cend()`, `vector.hpp:294-311`: `_data + _size`. -/
def St.end_ (st : St T) (x : Nat) : Res (Option Nat × Nat) := do
  let v ← st.var x
  return (v.data, v.size)

/-- `p[i]`. -/
def deref (m : Mem T) (p : Option Nat × Nat) (i : Nat) : Res T := load m p.1 (p.2 + i)

/-- `p[i] = a`. -/
def assignThrough (st : St T) (p : Option Nat × Nat) (i : Nat) (a : T) : Res (St T) := do
  let m ← store st.mem p.1 (p.2 + i) a
  return ⟨m, st.vars⟩

/-- `for (; it != last; ++it) f(*it)`: what `f` sees, in order; `fuel` bounds the number of iterations. -/
def visit (m : Mem T) (it last : Option Nat × Nat) : Nat → Res (List T)
  | 0 => .diverge
  | fuel + 1 =>
    if it = last then .ok []
    else do
      let x ← deref m it 0
      let l ← visit m (it.1, it.2 + 1) last fuel
      return x :: l

end VecMem

/-- `View::data()[k]`, `view.hpp:171-181`: the data of the matrix that is viewed, for views of views that of the matrix
at the bottom. -/
def viewData {T : Type} (A : Mat T) (_rows _cols : Range) (k : Nat) : Res T := vget A.data k

end Malg
