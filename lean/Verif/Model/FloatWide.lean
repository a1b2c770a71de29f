import Verif.Model.Float
/-!
# Floating point numbers without a smallest exponent

What `Verif.Model.Float` becomes when results are never too small: an integer significand of at most `p` binary digits times any power of two. Used to say what
holds as long as nothing underflows or overflows.
-/
namespace Malg
variable {K : Type} [Field K] [LinearOrder K] [IsStrictOrderedRing K] [FloorRing K]

/-- Rounding to `p` digits, whatever the exponent. -/
def rndW (p : ℕ) (x : K) : K := rne (x / 2 ^ (Int.log 2 |x| + 1 - p)) * 2 ^ (Int.log 2 |x| + 1 - p)

/-- The numbers with `p` digits. -/
def IsWide (p : ℕ) (x : K) : Prop := ∃ m e : ℤ, |m| ≤ 2 ^ p ∧ x = m * 2 ^ e

/-- As long as the result is not too small, this is how numbers of a format are rounded. -/
theorem rndW_eq {p : ℕ} {emin : ℤ} {x : K} (h : x = 0 ∨ (2 : K) ^ (emin + p - 1) ≤ |x|) : rndW p x = rnd p emin x := by
  rcases h with rfl | h
  · simp [rndW, rnd, rne]
  · have hl : lastExp p emin x = Int.log 2 |x| + 1 - p := by
      unfold lastExp
      refine max_eq_left ?_
      have h0 : (0 : K) < |x| := lt_of_lt_of_le (two_zpow_pos _) h
      have : emin + p - 1 ≤ Int.log 2 |x| := by
        rw [← Int.zpow_le_iff_le_log (by norm_num) h0]
        exact_mod_cast h
      omega
    unfold rnd rndW
    rw [hl]

theorem rndW_isWide (p : ℕ) (x : K) : IsWide p (rndW p x) := by
  obtain ⟨m, e, -, h1, h2⟩ := rnd_isFl p (Int.log 2 |x| + 1 - p) x
  refine ⟨m, e, h1, ?_⟩
  rw [← h2]
  unfold rndW rnd lastExp
  rw [max_self]

omit [LinearOrder K] [IsStrictOrderedRing K] [FloorRing K] in
theorem IsWide.neg {p : ℕ} {x : K} (h : IsWide p x) : IsWide p (-x) := by
  obtain ⟨m, e, h2, rfl⟩ := h
  exact ⟨-m, e, by rwa [abs_neg], by push_cast; ring⟩

/-- A floating point number without limits for the exponent. -/
structure Wide (K : Type) [Field K] [LinearOrder K] [IsStrictOrderedRing K] [FloorRing K] (p : ℕ) where
  val : K
  isWide : IsWide p val

namespace Wide
variable {p : ℕ}

@[ext] theorem ext {x y : Wide K p} (h : x.val = y.val) : x = y := by
  cases x; cases y; cases h; rfl

/-- The exact value `x`, rounded. -/
def of (p : ℕ) (x : K) : Wide K p := ⟨rndW p x, rndW_isWide p x⟩

instance : DecidableEq (Wide K p) := fun _ _ => decidable_of_iff _ Wide.ext_iff.symm
instance : Zero (Wide K p) := ⟨⟨0, 0, 0, by simp, by simp⟩⟩
instance : One (Wide K p) := ⟨of p 1⟩
instance : NatCast (Wide K p) := ⟨fun n => of p n⟩
instance : Neg (Wide K p) := ⟨fun x => ⟨-x.val, x.isWide.neg⟩⟩
instance : Add (Wide K p) := ⟨fun x y => of p (x.val + y.val)⟩
instance : Sub (Wide K p) := ⟨fun x y => of p (x.val - y.val)⟩
instance : Mul (Wide K p) := ⟨fun x y => of p (x.val * y.val)⟩
/-- A division by zero has no value here. -/
instance : CDiv (Wide K p) := ⟨fun x y => if y.val = 0 then .ub .divZero else .ok (of p (x.val / y.val))⟩
instance : LE (Wide K p) := ⟨fun x y => x.val ≤ y.val⟩
instance : DecidableRel (α := Wide K p) (· ≤ ·) := fun x y => inferInstanceAs (Decidable (x.val ≤ y.val))

/-- `std::abs`. -/
def abs (x : Wide K p) : Wide K p := if x.val < 0 then -x else x

end Wide
end Malg
