import Verif.Model.Core
/-!
# Layer 1: `Vector` on the heap

`vector.hpp` with raw pointers, `std::realloc` and `std::free`. Element types are trivially copyable, as the use of
`realloc` requires. The templates that convert between element types (`vector.hpp:107-117, 233-242`) copy element by
element like the non-template versions and are not repeated here; the converting moves (`vector.hpp:134-144, 260-269`) do
not compile.
-/
namespace Malg
namespace VecMem
variable {T : Type}

/-- What the allocator does with a request: put the block elsewhere, extend or shrink it where it is, refuse. -/
inductive Decision
  | move | stay | fail
  deriving DecidableEq, Repr

/-- The environment of an execution: `sizeof(T)` and the decision for the `k`-th call of `realloc`. -/
structure Cfg where
  sz : Nat
  dec : Nat → Decision

/-- The heap: the live blocks (a cell is `none` as long as nothing was stored in it), the next block identity, and the
number of calls of `realloc` so far. Identities are never reused, so a stale pointer is always noticed. -/
structure Mem (T : Type) where
  blocks : Nat → Option (List (Option T))
  next : Nat
  calls : Nat

def Mem.empty : Mem T := ⟨fun _ => none, 0, 0⟩

/-- The heap with one block replaced. -/
def Mem.put (m : Mem T) (b : Nat) (c : Option (List (Option T))) : Mem T :=
  { m with blocks := fun k => if k = b then c else m.blocks k }

/-- Read of `p[i]`. -/
def load (m : Mem T) (p : Option Nat) (i : Nat) : Res T :=
  match p with
  | none => .ub .nullDeref
  | some b =>
    match m.blocks b with
    | none => .ub .useAfterFree
    | some cells =>
      match cells[i]? with
      | none => .ub .oob
      | some none => .ub .uninit
      | some (some x) => .ok x

/-- `p[i] = x`. -/
def store (m : Mem T) (p : Option Nat) (i : Nat) (x : T) : Res (Mem T) :=
  match p with
  | none => .ub .nullDeref
  | some b =>
    match m.blocks b with
    | none => .ub .useAfterFree
    | some cells => if i < cells.length then .ok (m.put b (some (cells.set i (some x)))) else .ub .oob

/-- `std::free(p)`. -/
def free (m : Mem T) (p : Option Nat) : Res (Mem T) :=
  match p with
  | none => .ok m
  | some b =>
    match m.blocks b with
    | none => .ub .doubleFree
    | some _ => .ok (m.put b none)

/-- `std::realloc(p, bytes)` as in glibc: requests above `PTRDIFF_MAX` bytes fail, a failure leaves the old block alone,
`realloc(p, 0)` with `p` not null frees the block and returns null. -/
def realloc (cfg : Cfg) (m : Mem T) (p : Option Nat) (bytes : Nat) : Res (Mem T × Option Nat) :=
  let d := cfg.dec m.calls
  let m := { m with calls := m.calls + 1 }
  let n := bytes / cfg.sz
  let refuse := d = .fail ∨ 2 ^ 63 ≤ bytes
  match p with
  | none =>
    if refuse then .ok (m, none)
    else .ok ({ m.put m.next (some (List.replicate n none)) with next := m.next + 1 }, some m.next)
  | some b =>
    match m.blocks b with
    | none => .ub .doubleFree
    | some cells =>
      if bytes = 0 then .ok (m.put b none, none)
      else if refuse then .ok (m, none)
      else
        let cells := cells.take n ++ List.replicate (n - cells.length) none
        if d = .stay then .ok (m.put b (some cells), some b)
        else .ok ({ (m.put b none).put m.next (some cells) with next := m.next + 1 }, some m.next)

/-- `Vector<T>`: `_data` and `_size`, `vector.hpp:362-365`. -/
structure VObj where
  data : Option Nat
  size : Nat
  deriving DecidableEq, Repr

/-- `Vector::deallocate`, `vector.hpp:314-326`. -/
def deallocate (m : Mem T) (v : VObj) : Res (Mem T × VObj × Bool) :=
  if v.size > 0 then do
    let m ← free m v.data
    return (m, ⟨none, 0⟩, true)
  else .ok (m, v, false)

/-- `Vector::allocate`, `vector.hpp:328-360`. The branch `else if (_size == 0)` (352-356) is never taken, `size > _size`
holds whenever `_size == 0`. -/
def allocate [Zero T] (cfg : Cfg) (m : Mem T) (v : VObj) (size : Nat) : Res (Mem T × VObj × Bool) :=
  if size = 0 then deallocate m v
  else if size = v.size then .ok (m, v, true)
  else do
    let (m, p) ← realloc cfg m v.data (wmul cfg.sz size)
    if size > v.size then
      let m ← forRange v.size size m fun i m => store m p i 0
      return (m, ⟨p, size⟩, true)
    else if v.size = 0 then
      let m ← forRange 0 size m fun i m => store m p i 0
      return (m, ⟨p, size⟩, true)
    else return (m, ⟨p, size⟩, true)

/-- `for (i = 0; i < _size; ++i) _data[i] = value i`, the loops of the constructors and assignments. -/
def fill (m : Mem T) (v : VObj) (value : Mem T → Nat → Res T) : Res (Mem T) :=
  forRange 0 v.size m fun i m => do
    let x ← value m i
    store m v.data i x

/-- `*(it + i)` for an iterator of an initialiser list. -/
def listAt (l : List T) (i : Nat) : Res T :=
  match l[i]? with
  | some a => .ok a
  | none => .ub .oob

/-! ## Programs over vector variables -/

/-- The state of a program: the heap and the vector variables that exist. -/
structure St (T : Type) where
  mem : Mem T
  vars : Nat → Option VObj

def St.init : St T := ⟨Mem.empty, fun _ => none⟩

def St.setVar (st : St T) (x : Nat) (m : Mem T) (v : Option VObj) : St T :=
  ⟨m, fun y => if y = x then v else st.vars y⟩

/-- A variable that does not exist has an indeterminate value. -/
def St.var (st : St T) (x : Nat) : Res VObj :=
  match st.vars x with
  | none => .ub .uninit
  | some v => .ok v

/-- Operations on vector variables, named by numbers. -/
inductive Op (T : Type)
  | default (x : Nat)
  | sized (x n : Nat)
  | filled (x n : Nat) (a : T)
  | ofList (x : Nat) (l : List T)
  | sizedList (x n : Nat) (l : List T)
  | copyCtor (x y : Nat)
  | moveCtor (x y : Nat)
  | destroy (x : Nat)
  | copyAssign (x y : Nat)
  | moveAssign (x y : Nat)
  | resize (x n : Nat)
  | resizeLike (x y : Nat)
  | write (x i : Nat) (a : T)
  | read (x i : Nat)
  | size (x : Nat)

/-- What a program sees. -/
inductive Obs (T : Type)
  | val (a : T)
  | size (n : Nat)
  deriving DecidableEq, Repr

/-- One operation. Constructors: `vector.hpp:32-130`, destructor 147-150, `size` 168-171, `resize` 184-197, `operator[]`
202-213, `operator=` 218-228 and 247-255. -/
def step [Zero T] (cfg : Cfg) (st : St T) : Op T → Res (St T × Option (Obs T))
  | .default x => .ok (st.setVar x st.mem (some ⟨none, 0⟩), none)
  | .sized x n => do
    let (m, v, _) ← allocate cfg st.mem ⟨none, 0⟩ n
    return (st.setVar x m (some v), none)
  | .filled x n a => do
    let (m, v, b) ← allocate cfg st.mem ⟨none, 0⟩ n
    let m ← if b then fill m v (fun _ _ => .ok a) else .ok m
    return (st.setVar x m (some v), none)
  | .ofList x l => do
    let (m, v, b) ← allocate cfg st.mem ⟨none, 0⟩ l.length
    let m ← if b then fill m v (fun _ i => listAt l i) else .ok m
    return (st.setVar x m (some v), none)
  | .sizedList x n l =>
    if n = l.length then do
      let (m, v, b) ← allocate cfg st.mem ⟨none, 0⟩ n
      let m ← if b then fill m v (fun _ i => listAt l i) else .ok m
      return (st.setVar x m (some v), none)
    else .abort
  | .copyCtor x y => do
    let w ← st.var y
    let (m, v, b) ← allocate cfg st.mem ⟨none, 0⟩ w.size
    let m ← if b then fill m v (fun m i => load m w.data i) else .ok m
    return (st.setVar x m (some v), none)
  | .moveCtor x y => do
    let w ← st.var y
    let (m, v, _) ← deallocate st.mem ⟨none, 0⟩
    return ((st.setVar x m (some w)).setVar y m (some v), none)
  | .destroy x => do
    let v ← st.var x
    let (m, _, _) ← deallocate st.mem v
    return (st.setVar x m none, none)
  | .copyAssign x y => do
    let v ← st.var x
    let w ← st.var y
    if x ≠ y then
      let (m, v, b) ← allocate cfg st.mem v w.size
      let m ← if b then fill m v (fun m i => load m w.data i) else .ok m
      return (st.setVar x m (some v), none)
    else return (st, none)
  | .moveAssign x y => do
    let v ← st.var x
    let w ← st.var y
    if x ≠ y then
      let (m, v, _) ← deallocate st.mem v
      return ((st.setVar x m (some w)).setVar y m (some v), none)
    else return (st, none)
  | .resize x n => do
    let v ← st.var x
    let (m, v, _) ← allocate cfg st.mem v n
    return (st.setVar x m (some v), none)
  | .resizeLike x y => do
    let v ← st.var x
    let w ← st.var y
    let (m, v, _) ← allocate cfg st.mem v w.size
    return (st.setVar x m (some v), none)
  | .write x i a => do
    let v ← st.var x
    let m ← store st.mem v.data i a
    return (⟨m, st.vars⟩, none)
  | .read x i => do
    let v ← st.var x
    let a ← load st.mem v.data i
    return (st, some (.val a))
  | .size x => do
    let v ← st.var x
    return (st, some (.size v.size))

/-- A program and everything it saw. -/
def run [Zero T] (cfg : Cfg) (st : St T) : List (Op T) → Res (St T × List (Obs T))
  | [] => .ok (st, [])
  | op :: ops => do
    let (st, o) ← step cfg st op
    let (st, os) ← run cfg st ops
    return (st, o.toList ++ os)

end VecMem
end Malg
