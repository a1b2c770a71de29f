/-!
# Outcomes, `std::size_t` arithmetic and loops

The common ground of the model.  Nothing in this file transcribes a function of
`/repo`; it fixes how C++ control flow is represented.
-/

namespace Malg

/-- Exception classes thrown by the library (messages are dropped). -/
inductive Exc
  | invalidArgument   -- `std::invalid_argument`
  | runtimeError      -- `std::runtime_error`
  deriving DecidableEq, Repr

/-- Kinds of undefined behaviour the model distinguishes. -/
inductive UB
  | oob            -- read or write outside an array
  | nullDeref      -- read or write through a null pointer
  | useAfterFree   -- read or write of a freed block
  | doubleFree     -- `free`/`realloc` of a block that is not live
  | uninit         -- read of an uninitialised value
  | divZero        -- division (or modulo) by zero
  | allocFail      -- allocation that cannot succeed, result not checked
  | overflow       -- overflow of a signed integer type
  | badCast        -- conversion of an out-of-range floating point value
  | noReturn       -- loop without side effects that never ends
  deriving DecidableEq, Repr

/-- Outcome of a C++ call. -/
inductive Res (α : Type) where
  | ok (a : α)
  | throw (e : Exc)
  | ub (k : UB)
  | abort                 -- failed `assert`
  | exit (code : Nat)     -- `std::exit`
  | diverge               -- fuel of a data dependent loop used up
  deriving DecidableEq, Repr

namespace Res

/-- Sequencing: everything but `ok` ends the call. -/
protected def bind : Res α → (α → Res β) → Res β
  | ok a, f => f a
  | throw e, _ => throw e
  | ub k, _ => ub k
  | abort, _ => abort
  | exit n, _ => exit n
  | diverge, _ => diverge

instance : Monad Res where
  pure := ok
  bind := Res.bind

@[simp] theorem ok_bind (a : α) (f : α → Res β) : (Res.ok a >>= f) = f a := rfl
@[simp] theorem throw_bind (e) (f : α → Res β) : (Res.throw e >>= f) = .throw e := rfl
@[simp] theorem ub_bind (e) (f : α → Res β) : (Res.ub e >>= f) = .ub e := rfl
@[simp] theorem abort_bind (f : α → Res β) : (Res.abort >>= f) = .abort := rfl
@[simp] theorem exit_bind (n) (f : α → Res β) : (Res.exit n >>= f) = .exit n := rfl
@[simp] theorem diverge_bind (f : α → Res β) : (Res.diverge >>= f) = .diverge := rfl
@[simp] theorem pure_eq (a : α) : (pure a : Res α) = .ok a := rfl

instance : LawfulMonad Res := LawfulMonad.mk' Res
  (id_map := by intro α x; cases x <;> rfl)
  (pure_bind := by intros; rfl)
  (bind_assoc := by intro α β γ x f g; cases x <;> rfl)

@[simp] theorem map_ok (f : α → β) (a : α) : f <$> (Res.ok a) = .ok (f a) := rfl

/-- Inversion of a successful sequence. -/
theorem bind_eq_ok {x : Res α} {f : α → Res β} {b : β} :
    (x >>= f) = .ok b ↔ ∃ a, x = .ok a ∧ f a = .ok b := by
  cases x <;> simp

end Res

/-! ## `std::size_t` -/

/-- `2^64`: `std::size_t` is taken to be 64 bits wide. -/
def W : Nat := 2 ^ 64

/-- Element counts from here on cannot be allocated (`PTRDIFF_MAX` bytes). -/
def allocMax : Nat := 2 ^ 63

/-- `a + b` on `std::size_t`. -/
def wadd (a b : Nat) : Nat := (a + b) % W
/-- `a * b` on `std::size_t`. -/
def wmul (a b : Nat) : Nat := (a * b) % W
/-- `a - b` on `std::size_t` (arguments below `W`). -/
def wsub (a b : Nat) : Nat := (a + (W - b)) % W

theorem W_eq : W = 2 ^ 64 := rfl
theorem allocMax_eq : allocMax = 2 ^ 63 := rfl
theorem allocMax_lt_W : allocMax < W := by decide
attribute [irreducible] W allocMax
theorem W_pos : 0 < W := by rw [W_eq]; decide
theorem one_lt_W : 1 < W := by rw [W_eq]; decide
theorem allocMax_pos : 0 < allocMax := by rw [allocMax_eq]; decide

theorem wadd_eq {a b : Nat} (h : a + b < W) : wadd a b = a + b := Nat.mod_eq_of_lt h
theorem wmul_eq {a b : Nat} (h : a * b < W) : wmul a b = a * b := Nat.mod_eq_of_lt h
theorem wsub_eq {a b : Nat} (h : b ≤ a) (ha : a < W) : wsub a b = a - b := by
  unfold wsub
  have : a + (W - b) = (a - b) + W := by omega
  rw [this, Nat.add_mod_right, Nat.mod_eq_of_lt (by omega)]

/-! ## Loops -/

/-- `n` iterations starting at index `i`. -/
def loopN (body : Nat → σ → Res σ) : (n : Nat) → (i : Nat) → σ → Res σ
  | 0, _, s => .ok s
  | n + 1, i, s => body i s >>= loopN body n (i + 1)

/-- `for (i = lo; i < hi; ++i) body` with loop-carried state. -/
def forRange (lo hi : Nat) (s : σ) (body : Nat → σ → Res σ) : Res σ :=
  loopN body (hi - lo) lo s

/-- `n` iterations starting at `i`, left early by `return`. -/
def searchN (body : Nat → Res (Option β)) : (n : Nat) → (i : Nat) → Res (Option β)
  | 0, _ => .ok none
  | n + 1, i => do
    match ← body i with
    | some b => .ok (some b)
    | none => searchN body n (i + 1)

/-- `for (i = lo; i < hi; ++i) { … return b; … }`: `some b` when the body returned. -/
def forSearch (lo hi : Nat) (body : Nat → Res (Option β)) : Res (Option β) :=
  searchN body (hi - lo) lo

/-- `while (cond) body` with at most `fuel` iterations; the condition is a part of `step`:
`none` means the condition failed. -/
def whileFuel (step : σ → Res (Option σ)) : (fuel : Nat) → σ → Res σ
  | 0, _ => .diverge
  | n + 1, s => do
    match ← step s with
    | none => .ok s
    | some s' => whileFuel step n s'

end Malg
