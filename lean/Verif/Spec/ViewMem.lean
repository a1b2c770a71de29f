import Verif.Model.ViewMem
import Verif.Spec.Ref
import Mathlib.Logic.Relation
/-!
# Lifetimes of views: notions
-/
namespace Malg.ViewMem
variable {T : Type}

/-- Object `p` is a living view with a pointer to `q`. -/
def Points (h : Heap T) (p q : Nat) : Prop := ∃ o, h.obj p = some o ∧ o.target = some q

/-- Following pointers from `p` one comes to `q` (also `p` itself). -/
def Reach (h : Heap T) : Nat → Nat → Prop := Relation.ReflTransGen (Points h)

/-- Object `p` lives. -/
def Alive (h : Heap T) (p : Nat) : Prop := ∃ o, h.obj p = some o

/-- Object `p` and everything behind its pointers live, up to a matrix, and it is this reference into the matrices. -/
inductive Resolves (h : Heap T) : Nat → MRef (Store T) T → Prop
  | mat {p A} : h.obj p = some (.mat A) → Resolves h p (.var p)
  | view {p q row col m} : h.obj p = some (.view q row col) → Resolves h q m → Resolves h p (m.sub row col)
  | cof {p q er ec m} : h.obj p = some (.cof q er ec) → Resolves h q m → Resolves h p (m.cofactor er ec)

/-- The contents of the matrices. -/
def Heap.contents (h : Heap T) : Store T := fun p =>
  match h.obj p with
  | some (.mat A) => A
  | _ => .empty0

/-- What a C++ program with local variables does: it names living objects only, and ends the lifetime of the newest one first. And what it
should do: a cofactor view is assigned another of the same type only if that one shows something older than the first. -/
def Scoped (h : Heap T) : Cmd T → Prop
  | .mat _ => True
  | .change p _ => ∃ A, h.obj p = some (.mat A)
  | .view p _ _ => Alive h p
  | .cof p _ _ => Alive h p
  | .copy p => Alive h p
  | .write p _ _ _ => Alive h p
  | .assign p q => Alive h p ∧ Alive h q
  | .rebind p q => (∃ t er ec, h.obj p = some (.cof t er ec)) ∧ ∃ t er ec, h.obj q = some (.cof t er ec) ∧ t < p
  | .destroy p => Alive h p ∧ ∀ q, Alive h q → q ≤ p

/-- The same, with any assignments of cofactor views. -/
def Local (h : Heap T) : Cmd T → Prop
  | .rebind p q => (∃ t er ec, h.obj p = some (.cof t er ec)) ∧ ∃ t er ec, h.obj q = some (.cof t er ec)
  | c => Scoped h c

/-- Weaker: objects may end in any order as long as no living view points to them. -/
def Guarded (h : Heap T) : Cmd T → Prop
  | .mat _ => True
  | .change p _ => ∃ A, h.obj p = some (.mat A)
  | .view p _ _ => Alive h p
  | .cof p _ _ => Alive h p
  | .copy p => Alive h p
  | .write p _ _ _ => Alive h p
  | .assign p q => Alive h p ∧ Alive h q
  | .rebind p q => (∃ t er ec, h.obj p = some (.cof t er ec)) ∧ ∃ t er ec, h.obj q = some (.cof t er ec) ∧ t < p
  | .destroy p => Alive h p ∧ ∀ q, ¬ Points h q p

/-- Every step of the program obeys `P`. -/
def Obeys (P : Heap T → Cmd T → Prop) (h : Heap T) : List (Cmd T) → Prop
  | [] => True
  | c :: cs => P h c ∧ ∀ h', step h c = .ok h' → Obeys P h' cs

end Malg.ViewMem
