import Verif.Model.View
/-!
# Lifetimes of matrices and views

`View` and `CofactorView` hold a pointer to the object they show (`view.hpp:37, 263`). Here objects have addresses and can end;
an access through a pointer to an object that has ended is undefined. Addresses are not used twice (in a real program they may
be, but a program that looks at the object behind a dangling pointer is undefined already).
-/
namespace Malg.ViewMem
open Malg
variable {T : Type}

/-- An object: a matrix with its contents, or a view with its pointer, `view.hpp:36-41, 262-267`. -/
inductive Obj (T : Type)
  | mat (A : Mat T)
  | view (p : Nat) (row col : Range)
  | cof (p er ec : Nat)
  deriving DecidableEq

/-- The object a view points to. -/
def Obj.target : Obj T → Option Nat
  | .mat _ => none
  | .view p _ _ => some p
  | .cof p _ _ => some p

/-- The living objects by address, and the next free address. -/
structure Heap (T : Type) where
  obj : Nat → Option (Obj T)
  next : Nat

/-- No objects. -/
def Heap.empty : Heap T := ⟨fun _ => none, 0⟩

/-- Object `p` replaced, or ended. -/
def Heap.put (h : Heap T) (p : Nat) (o : Option (Obj T)) : Heap T := { h with obj := fun q => if q = p then o else h.obj q }

/-- A further object. -/
def Heap.alloc (h : Heap T) (o : Obj T) : Heap T := { h.put h.next (some o) with next := h.next + 1 }

/-- What object `p` shows; every virtual call is passed on to the object behind the pointer, `view.hpp:74-91, 198-205, 238-241, 286-303,
348-355, 388-391`. The first argument bounds the number of pointers followed. -/
def lookN (h : Heap T) : Nat → Nat → Res (MB T)
  | 0, _ => .diverge
  | fuel + 1, p =>
    match h.obj p with
    | none => .ub .useAfterFree
    | some (.mat A) => .ok A.toMB
    | some (.view q row col) => do let b ← lookN h fuel q; return b.view row col
    | some (.cof q er ec) => do let b ← lookN h fuel q; return b.cofactor er ec

/-- What object `p` shows. Only objects in the heap have pointers: who follows more than `h.next` of them goes round in circles, and runs out
of stack. -/
def look (h : Heap T) (p : Nat) : Res (MB T) := lookN h (h.next + 1) p

/-- `x` written to `(r, c)` of object `p`, `matrix.hpp:447-454`, `view.hpp:229-232, 379-382`. -/
def writeN (h : Heap T) : Nat → Nat → Nat → Nat → T → Res (Heap T)
  | 0, _, _, _, _ => .diverge
  | fuel + 1, p, r, c, x =>
    match h.obj p with
    | none => .ub .useAfterFree
    | some (.mat A) => do let A ← A.setAt r c x; return h.put p (some (.mat A))
    | some (.view q row col) => writeN h fuel q (wadd row.start r) (wadd col.start c) x
    | some (.cof q er ec) => writeN h fuel q (wadd r (if r ≥ er then 1 else 0)) (wadd c (if c ≥ ec then 1 else 0)) x

/-- `p(r, c) = x`. -/
def write (h : Heap T) (p r c : Nat) (x : T) : Res (Heap T) := writeN h (h.next + 1) p r c x

/-- `p = q` for a view `p`, `view.hpp:96-132, 308-317`: the elements are copied, the pointer of `p` stays. For a `CofactorView` `p` this is
called only if `q` has another type. -/
def assign (h : Heap T) (p q : Nat) : Res (Heap T) := do
  let a ← look h p
  let b ← look h q
  if a.rows ≠ b.rows then .abort
  else if a.cols ≠ b.cols then .abort
  else
    forRange 0 b.rows h fun r h =>
      forRange 0 b.cols h fun c h => do
        let b ← look h q
        let x ← b.at_ r c
        write h p r c x

/-- The steps of a program that concern objects. -/
inductive Cmd (T : Type)
  /-- A matrix is constructed, also a temporary one. -/
  | mat (A : Mat T)
  /-- Matrix `p` takes the value `A`: assignment, `resize`, `reshape`, moving from or into it. -/
  | change (p : Nat) (A : Mat T)
  /-- `View(&p, row, col)`, `p(row, col)`, `view`, `row`, `col`, `view.hpp:50-70, 244-254`, `utility.hpp:877-904`. -/
  | view (p : Nat) (row col : Range)
  /-- `CofactorView(&p, er, ec)`, `view.hpp:274-282`. -/
  | cof (p er ec : Nat)
  /-- `auto v = p;`: a matrix is copied, a copied view has the same pointer (implicit copy constructor). -/
  | copy (p : Nat)
  | write (p r c : Nat) (x : T)
  /-- `p = q;` for a `View` `p`, or a `CofactorView` `p` and a `q` of another type. -/
  | assign (p q : Nat)
  /-- `p = q;` for a `CofactorView` `p` and a `q` of the same type. The template of `view.hpp:308-317` is no copy assignment operator, and the
  implicit one (absent from the source; `view.hpp:257-392` declares none) is the better match: it copies the members of
  `view.hpp:263-267`. -/
  | rebind (p q : Nat)
  /-- The lifetime of `p` ends. -/
  | destroy (p : Nat)

/-- One step. A view can be made of an object that has ended (the constructors do not look at it), but a pointer to something that has
never been an object is not to be had. -/
def step (h : Heap T) : Cmd T → Res (Heap T)
  | .mat A => .ok (h.alloc (.mat A))
  | .change p A =>
    match h.obj p with
    | none => .ub .useAfterFree
    | some (.mat _) => .ok (h.put p (some (.mat A)))
    | some _ => .ub .badCast
  | .view p row col =>
    if h.next ≤ p then .ub .nullDeref
    else if viewOk row col then .ok (h.alloc (.view p row col)) else .abort
  | .cof p er ec => if h.next ≤ p then .ub .nullDeref else .ok (h.alloc (.cof p er ec))
  | .copy p =>
    match h.obj p with
    | none => .ub .useAfterFree
    | some o => .ok (h.alloc o)
  | .write p r c x => write h p r c x
  | .assign p q => assign h p q
  | .rebind p q =>
    match h.obj p, h.obj q with
    | some (.cof _ _ _), some (.cof t er ec) => .ok (h.put p (some (.cof t er ec)))
    | some _, some _ => .ub .badCast
    | _, _ => .ub .useAfterFree
  | .destroy p =>
    match h.obj p with
    | none => .ub .doubleFree
    | some _ => .ok (h.put p none)

/-- A program. -/
def run (h : Heap T) : List (Cmd T) → Res (Heap T)
  | [] => .ok h
  | c :: cs => do let h ← step h c; run h cs

end Malg.ViewMem
