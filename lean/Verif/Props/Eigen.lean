import Verif.Model.Eigen
import Verif.Props.ComplexMath
import Verif.Props.Matrix
import Verif.Spec.Matrix
import Mathlib.LinearAlgebra.Matrix.Charpoly.Basic
import Mathlib.LinearAlgebra.Matrix.Charpoly.Coeff
import Mathlib.Analysis.Complex.Norm
import Mathlib.Analysis.SpecialFunctions.Pow.Complex
import Mathlib.Tactic.Ring
import Mathlib.Tactic.LinearCombination
/-!
# Property C73: the shift of the QR iteration
-/
namespace Malg
open Cpx Eigen

/-- The square root is one (which of the two does not matter). -/
def IsSqrt (sqrt : Cpx ℝ → Cpx ℝ) : Prop := ∀ z, (sqrt z).toC ^ 2 = z.toC

/- There is one. -/
example : ∃ sqrt, IsSqrt sqrt :=
  ⟨fun z => ⟨(z.toC ^ (((2 : Nat) : ℂ)⁻¹)).re, (z.toC ^ (((2 : Nat) : ℂ)⁻¹)).im⟩, fun z => Complex.cpow_nat_inv_pow z.toC two_ne_zero⟩

theorem toC_addC (a b : Cpx ℝ) : (addC a b).toC = a.toC + b.toC := rfl
theorem toC_subC (a b : Cpx ℝ) : (subC a b).toC = a.toC - b.toC := rfl
theorem toC_mulC (a b : Cpx ℝ) : (mulC a b).toC = a.toC * b.toC := rfl
theorem toC_mulR (a : Cpx ℝ) (x : ℝ) : (mulR a x).toC = (x : ℂ) * a.toC := by
  apply Complex.ext <;> simp [Cpx.toC, mulR, mul_comm]
theorem norm_toC (a : Cpx ℝ) : Eigen.norm a = Complex.normSq a.toC := by
  simp [Eigen.norm, Complex.normSq_apply, Cpx.toC]

/-- C73: on a square matrix with at least two rows the shift is an eigenvalue of the trailing `2 × 2` block, and no
eigenvalue of the block is nearer to the last diagonal entry. -/
theorem C73_shift_partial {sqrt : Cpx ℝ → Cpx ℝ} (hs : IsSqrt sqrt) [DecidableRel (α := ℝ) (· < ·)] {A : Mat (Cpx ℝ)} {n : Nat}
    {e : Nat → Nat → Cpx ℝ} (h : A.Holds (n + 2) (n + 2) e) :
    ∃ s, wilkinsonShift sqrt 4 (1/2) A = .ok s ∧
      (Matrix.charpoly !![(e n n).toC, (e n (n + 1)).toC; (e (n + 1) n).toC, (e (n + 1) (n + 1)).toC]).IsRoot s.toC ∧
      ∀ z, (Matrix.charpoly !![(e n n).toC, (e n (n + 1)).toC; (e (n + 1) n).toC, (e (n + 1) (n + 1)).toC]).IsRoot z →
        ‖s.toC - (e (n + 1) (n + 1)).toC‖ ≤ ‖z - (e (n + 1) (n + 1)).toC‖ := by
  have hr := h.rep
  have hrow : A.rows = n + 2 := hr.rows
  have hN : wsub A.rows 1 = n + 1 := by rw [hrow, wsub_eq (by omega) hr.fits.2.1]; omega
  have ga : A.at_ n n = .ok (e n n) := hr.get n n (by omega) (by omega)
  have gb : A.at_ n (n + 1) = .ok (e n (n + 1)) := hr.get _ _ (by omega) (by omega)
  have gc : A.at_ (n + 1) n = .ok (e (n + 1) n) := hr.get _ _ (by omega) (by omega)
  have gd : A.at_ (n + 1) (n + 1) = .ok (e (n + 1) (n + 1)) := hr.get _ _ (by omega) (by omega)
  generalize e n n = a at *
  generalize e n (n + 1) = b at *
  generalize e (n + 1) n = c at *
  generalize e (n + 1) (n + 1) = d at *
  have hroot : ∀ z : ℂ, (Matrix.charpoly !![a.toC, b.toC; c.toC, d.toC]).IsRoot z ↔
      z ^ 2 - (a.toC + d.toC) * z + (a.toC * d.toC - b.toC * c.toC) = 0 := by
    intro z
    rw [Matrix.charpoly_fin_two]
    simp [Polynomial.IsRoot, Matrix.trace_fin_two, Matrix.det_fin_two]
  set delta := sqrt (subC (mulC (addC a d) (addC a d)) (mulR (subC (mulC a d) (mulC b c)) 4)) with hdelta
  have hd : delta.toC ^ 2 = (a.toC + d.toC) * (a.toC + d.toC) - 4 * (a.toC * d.toC - b.toC * c.toC) := by
    rw [hdelta, hs, toC_subC, toC_mulC, toC_addC, toC_mulR, toC_subC, toC_mulC, toC_mulC]; norm_num
  set s1 := mulR (addC (addC a d) delta) (1/2) with hs1
  set s2 := mulR (subC (addC a d) delta) (1/2) with hs2
  have t1 : s1.toC = (a.toC + d.toC + delta.toC) / 2 := by
    rw [hs1, toC_mulR, toC_addC, toC_addC]; push_cast; ring
  have t2 : s2.toC = (a.toC + d.toC - delta.toC) / 2 := by
    rw [hs2, toC_mulR, toC_subC, toC_addC]; push_cast; ring
  have fac : ∀ z : ℂ, z ^ 2 - (a.toC + d.toC) * z + (a.toC * d.toC - b.toC * c.toC) = (z - s1.toC) * (z - s2.toC) := by
    intro z; rw [t1, t2]; linear_combination (1/4 : ℂ) * hd
  have hcmp : ∀ u v : Cpx ℝ, Eigen.norm (subC u d) ≤ Eigen.norm (subC v d) → ‖u.toC - d.toC‖ ≤ ‖v.toC - d.toC‖ := by
    intro u v huv
    rw [norm_toC, norm_toC, toC_subC, toC_subC, Complex.normSq_eq_norm_sq, Complex.normSq_eq_norm_sq] at huv
    exact (pow_le_pow_iff_left₀ (norm_nonneg _) (norm_nonneg _) two_ne_zero).1 huv
  refine ⟨if Eigen.norm (subC s1 d) < Eigen.norm (subC s2 d) then s1 else s2, ?_, ?_, ?_⟩
  · unfold wilkinsonShift
    simp only [hN]
    rw [if_pos (by omega), Nat.add_sub_cancel, ga, Res.ok_bind, gb, Res.ok_bind, gc, Res.ok_bind, gd]
    rfl
  · rw [hroot, fac]; split <;> simp
  · intro z hz
    rw [hroot, fac] at hz
    have hz : z = s1.toC ∨ z = s2.toC := by
      rcases mul_eq_zero.1 hz with h | h
      · exact .inl (sub_eq_zero.1 h)
      · exact .inr (sub_eq_zero.1 h)
    split
    · rename_i hlt
      rcases hz with rfl | rfl
      · exact le_rfl
      · exact hcmp _ _ (le_of_lt hlt)
    · rename_i hlt
      rcases hz with rfl | rfl
      · exact hcmp _ _ (not_lt.1 hlt)
      · exact le_rfl

/-- C73: a `1 × 1` matrix gives no shift. -/
theorem C73_one_partial {K : Type} [Field K] [LT K] [DecidableRel (α := K) (· < ·)] (sqrt : Cpx K → Cpx K) (four half : K)
    {A : Mat (Cpx K)} {e} (h : A.Holds 1 1 e) : wilkinsonShift sqrt four half A = .ok ⟨0, 0⟩ := by
  have hN : wsub A.rows 1 = 0 := by
    have hr : A.rows = 1 := h.rep.rows
    rw [hr, wsub_eq (by omega) one_lt_W]
  unfold wilkinsonShift
  simp only [hN]
  rw [if_neg (by omega)]; rfl

/-- C73 is false for the empty matrix: the index of the last row wraps around and the matrix is read outside its
storage. -/
theorem C73_empty_false {K : Type} [Field K] [LT K] [DecidableRel (α := K) (· < ·)] (sqrt : Cpx K → Cpx K) (four half : K) :
    wilkinsonShift sqrt four half Mat.empty0 = .ub .oob := by
  have hN : wsub (Mat.empty0 : Mat (Cpx K)).rows 1 = W - 1 := by
    show (0 + (W - 1)) % W = W - 1
    have := W_pos
    rw [Nat.zero_add, Nat.mod_eq_of_lt (by omega)]
  have := one_lt_W
  unfold wilkinsonShift
  simp only [hN]
  rw [if_pos (by omega)]
  rfl

/- A 3×3 matrix with the trailing block `[[2, 1], [1, 2]]` of eigenvalues 1 and 3, both at distance 1 from 2: the second one
computed is taken. With the block `[[5, 0], [0, 2]]` the eigenvalue 2 is nearer. -/
example : wilkinsonShift (K := ℚ) (fun z => if z = ⟨4, 0⟩ then ⟨2, 0⟩ else ⟨3, 0⟩) 4 (1/2)
    ⟨3, 3, [⟨9, 0⟩, ⟨9, 0⟩, ⟨9, 0⟩, ⟨9, 0⟩, ⟨2, 0⟩, ⟨1, 0⟩, ⟨9, 0⟩, ⟨1, 0⟩, ⟨2, 0⟩]⟩ = .ok ⟨1, 0⟩ := by decide +kernel
example : wilkinsonShift (K := ℚ) (fun z => if z = ⟨9, 0⟩ then ⟨-3, 0⟩ else ⟨0, 0⟩) 4 (1/2)
    ⟨2, 2, [⟨5, 0⟩, ⟨0, 0⟩, ⟨0, 0⟩, ⟨2, 0⟩]⟩ = .ok ⟨2, 0⟩ := by decide +kernel

end Malg
