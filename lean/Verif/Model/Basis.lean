import Verif.Model.Core
/-!
# `utility::basis` and the arithmetic it probes

The function finds out how numbers are rounded, so here the arithmetic of the element type is represented exactly. The
values it meets are integers; a floating point type is the set of integers with at most `p` significant binary digits, with
rounding to nearest, ties to even (IEEE 754 default mode, no limit on the exponent).
-/
namespace Malg
namespace Basis

/-- The arithmetic of an element type. -/
structure Num (T : Type) where
  one : T
  two : T
  add : T → T → Res T
  sub : T → T → Res T
  mul : T → T → Res T
  /-- `static_cast<int>` -/
  toInt : T → Res Int

/-- Number of binary digits. -/
def digits (n : Nat) : Nat := if n = 0 then 0 else Nat.log2 n + 1

/-- Rounding to `p` significant binary digits, ties to even. -/
def round (p n : Nat) : Nat :=
  let u := 2 ^ (digits n - p)
  let q := n / u
  let r := n % u
  if 2 * r < u then q * u
  else if u < 2 * r then (q + 1) * u
  else if q % 2 = 0 then q * u
  else (q + 1) * u

/-- The same for signed values. -/
def roundInt (p : Nat) (z : Int) : Int := if z < 0 then -(round p z.natAbs : Int) else round p z.natAbs

/-- A binary floating point type with `p` significant digits. The conversion to `int` is defined for values in its
range. -/
def float (p : Nat) : Num Int where
  one := 1
  two := 2
  add x y := .ok (roundInt p (x + y))
  sub x y := .ok (roundInt p (x - y))
  mul x y := .ok (roundInt p (x * y))
  toInt x := if -2 ^ 31 ≤ x ∧ x < 2 ^ 31 then .ok x else .ub .badCast

/-- An unsigned integer type with `w` bits (at least as wide as `int`). -/
def unsigned (w : Nat) : Num Nat where
  one := 1
  two := 2 % 2 ^ w
  add x y := .ok ((x + y) % 2 ^ w)
  sub x y := .ok ((x + (2 ^ w - y)) % 2 ^ w)
  mul x y := .ok ((x * y) % 2 ^ w)
  toInt x := .ok (if x % 2 ^ 32 < 2 ^ 31 then (x % 2 ^ 32 : Nat) else (x % 2 ^ 32 : Nat) - 2 ^ 32)

/-- A value of a signed type with `w` bits, or an overflow. -/
def fit (w : Nat) (z : Int) : Res Int := if -2 ^ (w - 1) ≤ z ∧ z < 2 ^ (w - 1) then .ok z else .ub .overflow

/-- A signed integer type with `w` bits (at least as wide as `int`). -/
def signed (w : Nat) : Num Int where
  one := 1
  two := 2
  add x y := fit w (x + y)
  sub x y := fit w (x - y)
  mul x y := fit w (x * y)
  toInt x := .ok x

/-- `basis`, `utility.hpp:27-38`. -/
def basis {T : Type} [DecidableEq T] (K : Num T) (fuel : Nat) : Res Int := do
  let x ← whileFuel (fun x => do
    let s ← K.add x K.one
    let d ← K.sub s x
    if d = K.one then do
      let x ← K.mul x K.two
      return some x
    else return none) fuel K.one
  let b ← whileFuel (fun b => do
    let s ← K.add x b
    if s = x then do
      let b ← K.mul b K.two
      return some b
    else return none) fuel K.one
  let s ← K.add x b
  let d ← K.sub s x
  K.toInt d

end Basis
end Malg
