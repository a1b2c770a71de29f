import Verif.Model.Utility
/-!
# Programs over matrix variables

Sequences of the operations of `matrix.hpp` and of `remove_row` / `remove_column` on any number of `Matrix` variables. All
functions are those of `Verif.Model.Mat` and `Verif.Model.Utility`; here they only get names of variables as arguments.
-/
namespace Malg
namespace MatHist
variable {T : Type}

/-- Operations on matrix variables, named by numbers. -/
inductive Op (T : Type)
  | default (x : Nat)
  | new (x n m : Nat) (a : T)
  | flat (x n m : Nat) (l : List T)
  | nested (x : Nat) (l : List (List T))
  | copy (x y : Nat)
  | move (x y : Nat)
  | destroy (x : Nat)
  | assign (x y : Nat)
  | moveAssign (x y : Nat)
  | assignNested (x : Nat) (l : List (List T))
  | reshape (x n m : Nat)
  | resize (x n m : Nat)
  | removeRow (x p : Nat)
  | removeCol (x p : Nat)
  | set (x r c : Nat) (a : T)
  | setLin (x i : Nat) (a : T)
  | get (x r c : Nat)
  | getLin (x i : Nat)
  | shape (x : Nat)

/-- What a program sees. -/
inductive Obs (T : Type)
  | val (a : T)
  | shape (rows cols size : Nat) (empty : Bool)
  | threw (e : Exc)
  deriving DecidableEq, Repr

/-- The matrix variables that exist. -/
abbrev Vars (T : Type) := Nat → Option (Mat T)

def Vars.init : Vars T := fun _ => none

def Vars.put (st : Vars T) (x : Nat) (A : Option (Mat T)) : Vars T := fun y => if y = x then A else st y

/-- A variable that does not exist has an indeterminate value. -/
def Vars.var (st : Vars T) (x : Nat) : Res (Mat T) :=
  match st x with
  | none => .ub .uninit
  | some A => .ok A

/-- The program catches exceptions. All functions here throw before they change anything: `matrix.hpp:98-107` (constructor,
the variable does not come to exist), 216-218, `utility.hpp:449-451, 468-470`. -/
def caught (st : Vars T) (x : Nat) (r : Res (Mat T)) : Res (Vars T × Option (Obs T)) :=
  match r with
  | .throw e => .ok (st, some (.threw e))
  | r => do
    let A ← r
    return (st.put x (some A), none)

/-- One operation. The self checks are in `matrix.hpp:261, 357`. -/
def step [Zero T] (st : Vars T) : Op T → Res (Vars T × Option (Obs T))
  | .default x => .ok (st.put x (some Mat.empty0), none)
  | .new x n m a => caught st x (Mat.new n m a)
  | .flat x n m l => caught st x (Mat.ofFlat n m l)
  | .nested x l => caught st x (Mat.ofNested l)
  | .copy x y => do
    let B ← st.var y
    caught st x B.copy
  | .move x y => do
    let B ← st.var y
    return ((st.put x (some B.move.1)).put y (some B.move.2), none)
  | .destroy x => do
    let _ ← st.var x
    return (st.put x none, none)
  | .assign x y => do
    let A ← st.var x
    let B ← st.var y
    if y = x then return (st, none) else caught st x (A.assign B.toMB)
  | .moveAssign x y => do
    let A ← st.var x
    let B ← st.var y
    if y ≠ x then return ((st.put x (some (A.moveAssign B).1)).put y (some (A.moveAssign B).2), none)
    else return (st, none)
  | .assignNested x l => do
    let A ← st.var x
    caught st x (A.assignNested l)
  | .reshape x n m => do
    let A ← st.var x
    caught st x (A.reshape n m)
  | .resize x n m => do
    let A ← st.var x
    caught st x (A.resize n m)
  | .removeRow x p => do
    let A ← st.var x
    caught st x (Util.removeRow A p)
  | .removeCol x p => do
    let A ← st.var x
    caught st x (Util.removeColumn A p)
  | .set x r c a => do
    let A ← st.var x
    caught st x (A.setAt r c a)
  | .setLin x i a => do
    let A ← st.var x
    caught st x (A.setLin i a)
  | .get x r c => do
    let A ← st.var x
    let a ← A.at_ r c
    return (st, some (.val a))
  | .getLin x i => do
    let A ← st.var x
    let a ← A.lin i
    return (st, some (.val a))
  | .shape x => do
    let A ← st.var x
    return (st, some (.shape A.rows A.cols A.size A.isEmpty))

/-- A program and everything it saw. -/
def run [Zero T] (st : Vars T) : List (Op T) → Res (Vars T × List (Obs T))
  | [] => .ok (st, [])
  | op :: ops => do
    let (st, o) ← step st op
    let (st, os) ← run st ops
    return (st, o.toList ++ os)

end MatHist
end Malg
