import Verif.Model.Utility
import Mathlib.Data.Int.Log
import Mathlib.Algebra.Order.Floor.Ring
import Mathlib.Data.Rat.Floor
import Mathlib.Tactic.Linarith
import Mathlib.Tactic.Ring
/-!
# Binary floating point numbers

Elsewhere floating point types are modelled by a field. Here they are represented as they are: a number is an integer
significand of at most `p` binary digits times a power of two with exponent at least `emin`, and the result of an operation is
the exact result rounded to nearest, ties to even (IEEE 754-2008, sections 4.3.1 and 5.4.1). `double` is `p = 53`,
`emin = -1074`. There is no largest exponent, no infinity, no NaN and one zero: the model describes computations without
overflow. The values are taken in a field `K` (the rationals to evaluate, the reals where a square root is needed).
-/
namespace Malg
variable {K : Type} [Field K] [LinearOrder K] [IsStrictOrderedRing K] [FloorRing K]

/-- The nearest integer, ties to even. -/
def rne (x : K) : ℤ :=
  if x - ⌊x⌋ < 1 / 2 then ⌊x⌋
  else if 1 / 2 < x - ⌊x⌋ then ⌊x⌋ + 1
  else if ⌊x⌋ % 2 = 0 then ⌊x⌋ else ⌊x⌋ + 1

/-- The exponent of the last digit kept when `x` is rounded. -/
def lastExp (p : ℕ) (emin : ℤ) (x : K) : ℤ := max (Int.log 2 |x| + 1 - p) emin

/-- Rounding to `p` digits. -/
def rnd (p : ℕ) (emin : ℤ) (x : K) : K := rne (x / 2 ^ lastExp p emin x) * 2 ^ lastExp p emin x

/-- The numbers of the format. -/
def IsFl (p : ℕ) (emin : ℤ) (x : K) : Prop := ∃ m e : ℤ, emin ≤ e ∧ |m| ≤ 2 ^ p ∧ x = m * 2 ^ e

omit [FloorRing K] in
theorem two_zpow_pos (e : ℤ) : (0 : K) < 2 ^ e := zpow_pos zero_lt_two e

/-- `rne x` is within one half of `x`. -/
theorem rne_err (x : K) : |(rne x : K) - x| ≤ 1 / 2 := by
  have h0 := Int.floor_le x
  have h1 := Int.lt_floor_add_one x
  unfold rne
  split
  · rw [abs_le]; constructor <;> linarith
  · split
    · push_cast; rw [abs_le]; constructor <;> linarith
    · split
      · rw [abs_le]; constructor <;> linarith
      · push_cast; rw [abs_le]; constructor <;> linarith

theorem rne_int (z : ℤ) : rne (z : K) = z := by
  unfold rne
  rw [Int.floor_intCast, sub_self, if_pos (by norm_num)]

/-- Rounding stays between integers. -/
theorem rne_le {x : K} {z : ℤ} (h : x ≤ z) : rne x ≤ z := by
  by_contra hc
  have h1 : ((z + 1 : ℤ) : K) ≤ rne x := by exact_mod_cast (show z + 1 ≤ rne x by omega)
  have h2 := (abs_le.1 (rne_err x)).2
  have : x = z := by push_cast at h1; linarith
  rw [this, rne_int] at hc
  omega
theorem le_rne {x : K} {z : ℤ} (h : (z : K) ≤ x) : z ≤ rne x := by
  by_contra hc
  have h1 : (rne x : K) ≤ ((z - 1 : ℤ) : K) := by exact_mod_cast (show rne x ≤ z - 1 by omega)
  have h2 := (abs_le.1 (rne_err x)).1
  push_cast at h1; linarith

/-- The scaled value has at most `p` digits. -/
theorem scaled_lt (p : ℕ) (emin : ℤ) (x : K) : |x / 2 ^ lastExp p emin x| < 2 ^ p := by
  have h2 := two_zpow_pos (K := K) (lastExp p emin x)
  rw [abs_div, abs_of_pos h2, div_lt_iff₀ h2, ← zpow_natCast, ← zpow_add₀ two_ne_zero]
  calc |x| < (2 : ℕ) ^ (Int.log 2 |x| + 1) := Int.lt_zpow_succ_log_self (by norm_num) _
    _ ≤ _ := by
      rw [Nat.cast_ofNat]
      apply zpow_le_zpow_right₀ one_le_two
      have := le_max_left (Int.log 2 |x| + 1 - p) emin
      unfold lastExp
      omega

theorem rnd_isFl (p : ℕ) (emin : ℤ) (x : K) : IsFl p emin (rnd p emin x) := by
  refine ⟨_, _, le_max_right _ _, ?_, rfl⟩
  have h := (abs_lt.1 (scaled_lt p emin x))
  rw [abs_le]
  constructor
  · apply le_rne; push_cast; exact h.1.le
  · apply rne_le; push_cast; exact h.2.le

omit [LinearOrder K] [IsStrictOrderedRing K] [FloorRing K] in
theorem isFl_zero (p : ℕ) (emin : ℤ) : IsFl p emin (0 : K) := ⟨0, emin, le_rfl, by simp, by simp⟩

omit [LinearOrder K] [IsStrictOrderedRing K] [FloorRing K] in
theorem IsFl.neg {p : ℕ} {emin : ℤ} {x : K} (h : IsFl p emin x) : IsFl p emin (-x) := by
  obtain ⟨m, e, h1, h2, rfl⟩ := h
  exact ⟨-m, e, h1, by rwa [abs_neg], by push_cast; ring⟩

/-- A floating point number. -/
structure Fl (K : Type) [Field K] [LinearOrder K] [IsStrictOrderedRing K] [FloorRing K] (p : ℕ) (emin : ℤ) where
  val : K
  isFl : IsFl p emin val

namespace Fl
variable {p : ℕ} {emin : ℤ}

@[ext] theorem ext {x y : Fl K p emin} (h : x.val = y.val) : x = y := by
  cases x; cases y; cases h; rfl

/-- The exact value `x`, rounded. -/
def of (p : ℕ) (emin : ℤ) (x : K) : Fl K p emin := ⟨rnd p emin x, rnd_isFl p emin x⟩

instance : DecidableEq (Fl K p emin) := fun _ _ => decidable_of_iff _ Fl.ext_iff.symm
instance : Zero (Fl K p emin) := ⟨⟨0, isFl_zero p emin⟩⟩
instance : One (Fl K p emin) := ⟨of p emin 1⟩
instance : NatCast (Fl K p emin) := ⟨fun n => of p emin n⟩
instance : Neg (Fl K p emin) := ⟨fun x => ⟨-x.val, x.isFl.neg⟩⟩
instance : Add (Fl K p emin) := ⟨fun x y => of p emin (x.val + y.val)⟩
instance : Sub (Fl K p emin) := ⟨fun x y => of p emin (x.val - y.val)⟩
instance : Mul (Fl K p emin) := ⟨fun x y => of p emin (x.val * y.val)⟩
/-- A division by zero has no value here (in IEEE arithmetic it gives an infinity or a NaN). -/
instance : CDiv (Fl K p emin) := ⟨fun x y => if y.val = 0 then .ub .divZero else .ok (of p emin (x.val / y.val))⟩
instance : LT (Fl K p emin) := ⟨fun x y => x.val < y.val⟩
instance : LE (Fl K p emin) := ⟨fun x y => x.val ≤ y.val⟩
instance : DecidableRel (α := Fl K p emin) (· < ·) := fun x y => inferInstanceAs (Decidable (x.val < y.val))
instance : DecidableRel (α := Fl K p emin) (· ≤ ·) := fun x y => inferInstanceAs (Decidable (x.val ≤ y.val))
instance : Max (Fl K p emin) := ⟨fun x y => if x ≤ y then y else x⟩

/-- `std::abs`. -/
def abs (x : Fl K p emin) : Fl K p emin := if x < 0 then -x else x

end Fl

/-- `double`, evaluated over the rationals. -/
abbrev Double := Fl ℚ 53 (-1074)

end Malg
