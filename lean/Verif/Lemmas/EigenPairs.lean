import Verif.Props.EigenQr
/-!
# Lengths of complex vectors, and `eigenvectorUpper` on matrices that are not triangular
-/
namespace Malg
open Matrix
namespace Eigen
open Cpx
variable {K : Type} [Field K] [LinearOrder K] [IsStrictOrderedRing K] {n : Nat}

theorem norm_add_le_two (x y : Cpx K) : norm (x + y) ≤ 2 * norm x + 2 * norm y := by
  have h1 := norm_nonneg (x - y)
  simp only [norm, add_re, add_im, sub_re, sub_im] at *
  nlinarith

omit [LinearOrder K] [IsStrictOrderedRing K] in
theorem norm_sub_eq (x y : Cpx K) : norm (x - y) = norm x + norm y - 2 * (x * star y).re := by
  simp only [norm, sub_re, sub_im, mul_re, star_re, star_im]
  ring

theorem re_sum {ι : Type} (s : Finset ι) (f : ι → Cpx K) : (∑ i ∈ s, f i).re = ∑ i ∈ s, (f i).re := by
  classical
  induction s using Finset.induction_on with
  | empty => rfl
  | insert a s h ih => rw [Finset.sum_insert h, Finset.sum_insert h, add_re, ih]

/-- The Cauchy–Schwarz inequality. -/
theorem norm_sum_mul_le {ι : Type} (s : Finset ι) (a b : ι → Cpx K) :
    norm (∑ i ∈ s, a i * b i) ≤ (∑ i ∈ s, norm (a i)) * ∑ i ∈ s, norm (b i) := by
  have hS : 0 ≤ ∑ i ∈ s, norm (b i) := Finset.sum_nonneg fun _ _ => norm_nonneg _
  rcases hS.eq_or_lt with h0 | hpos
  · have hb : ∀ i ∈ s, b i = 0 := fun i hi =>
      norm_eq_zero.1 ((Finset.sum_eq_zero_iff_of_nonneg fun i _ => norm_nonneg (b i)).1 h0.symm i hi)
    rw [Finset.sum_eq_zero fun i hi => by rw [hb i hi, mul_zero], norm_zero, ← h0, mul_zero]
  · obtain ⟨S, hSe⟩ : ∃ S, S = ∑ i ∈ s, norm (b i) := ⟨_, rfl⟩
    obtain ⟨z, hz⟩ : ∃ z, z = ∑ i ∈ s, a i * b i := ⟨_, rfl⟩
    rw [← hSe] at hpos ⊢
    rw [← hz]
    have h1 : 0 ≤ ∑ i ∈ s, norm (ofReal S * a i - z * star (b i)) := Finset.sum_nonneg fun _ _ => norm_nonneg _
    have h2 : ∑ i ∈ s, norm (ofReal S * a i - z * star (b i)) =
        S * S * (∑ i ∈ s, norm (a i)) + norm z * S - 2 * (S * norm z) := by
      have h3 : ∀ i, norm (ofReal S * a i - z * star (b i)) =
          S * S * norm (a i) + norm z * norm (b i) - 2 * (S * (star z * (a i * b i)).re) := by
        intro i
        rw [norm_sub_eq, norm_mul, norm_ofReal, norm_mul, norm_star]
        congr 2
        simp only [mul_re, mul_im, star_re, star_im, ofReal_re, ofReal_im]
        ring
      simp only [h3]
      rw [Finset.sum_sub_distrib, Finset.sum_add_distrib, ← Finset.mul_sum, ← Finset.mul_sum, ← Finset.mul_sum, ← Finset.mul_sum,
        ← re_sum, ← Finset.mul_sum, ← hz, ← hSe, ← norm_eq]
      rfl
    rw [h2] at h1
    have h4 : 0 ≤ S * (S * (∑ i ∈ s, norm (a i)) - norm z) := by linarith
    have h5 := nonneg_of_mul_nonneg_right h4 hpos
    linarith

/-- Unitary matrices keep lengths. -/
theorem sq_unitary {U : Matrix (Fin n) (Fin n) (Cpx K)} (h : Uᴴ * U = 1) (v : Fin n → Cpx K) :
    ∑ r, norm ((U *ᵥ v) r) = ∑ r, norm (v r) := by
  have h1 : ofReal (sqC (U *ᵥ v)) = ofReal (sqC v) := by
    rw [ofReal_sqC, ofReal_sqC, star_mulVec, ← dotProduct_mulVec, mulVec_mulVec, h, one_mulVec]
  exact ofReal_inj.1 h1

/-- The matrix without what is below the diagonal. -/
def upperPart (M : Matrix (Fin n) (Fin n) (Cpx K)) : Matrix (Fin n) (Fin n) (Cpx K) := fun r c => if c.val < r.val then 0 else M r c

/-- The part below the diagonal. -/
def lowerPart (M : Matrix (Fin n) (Fin n) (Cpx K)) : Matrix (Fin n) (Fin n) (Cpx K) := fun r c => if c.val < r.val then M r c else 0

omit [IsStrictOrderedRing K] [LinearOrder K] in
theorem upper_add_lower (M : Matrix (Fin n) (Fin n) (Cpx K)) : M = upperPart M + lowerPart M := by
  apply Matrix.ext
  intro r c
  rw [Matrix.add_apply, upperPart, lowerPart]
  split <;> simp

theorem lower_mulVec_le (M : Matrix (Fin n) (Fin n) (Cpx K)) (v : Fin n → Cpx K) :
    ∑ r, norm ((lowerPart M *ᵥ v) r) ≤
      (∑ r : Fin n, ∑ c : Fin n, if c.val < r.val then norm (M r c) else 0) * ∑ r, norm (v r) := by
  rw [Finset.sum_mul]
  refine Finset.sum_le_sum fun r _ => (norm_sum_mul_le _ _ _).trans (le_of_eq ?_)
  congr 1
  refine Finset.sum_congr rfl fun c _ => ?_
  rw [lowerPart]
  split <;> simp

omit [IsStrictOrderedRing K] [LinearOrder K] in
theorem tab_upper (M : Matrix (Fin n) (Fin n) (Cpx K)) {r c : Nat} (h : r ≤ c) : tab (upperPart M) r c = tab M r c := by
  unfold tab
  split
  · rw [upperPart, if_neg (by simpa using h)]
  · rfl

/-- `eigenvectorUpper` does not look below the diagonal. -/
theorem ColOk.upper {M : Matrix (Fin n) (Fin n) (Cpx K)} {eps : K} {abs : Cpx K → K} {e : Nat → Nat → Cpx K} {L : Nat}
    (h : ColOk n eps abs (tab M) e L) : ColOk n eps abs (tab (upperPart M)) e L := by
  obtain ⟨w, len, hb, h2⟩ := h
  refine ⟨w, len, ?_, h2⟩
  have hd : ∀ r, tab (upperPart M) r r = tab M r r := fun r => tab_upper M (Nat.le_refl r)
  have hr : ∀ r, backRhs (tab (upperPart M)) L w r = backRhs (tab M) L w r := fun r => by
    unfold backRhs
    congr 1
    refine Finset.sum_congr rfl fun j hj => ?_
    rw [tab_upper M (by have := (Finset.mem_Ico.1 hj).1; omega)]
  exact ⟨hb.one, hb.below, hb.above, by simpa only [hd] using hb.near, by simpa only [hd, hr] using hb.far,
    by simpa only [hd, hr] using hb.flag⟩

end Eigen
end Malg
