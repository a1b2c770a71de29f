import Mathlib.LinearAlgebra.Matrix.Charpoly.Coeff
import Mathlib.LinearAlgebra.Matrix.NonsingularInverse
/-!
# Ackermann's formula
-/
namespace Malg
open Polynomial

variable {R : Type} [CommRing R] {n : Nat}

/-- The controllability matrix `[b, A b, …, A^(n-1) b]` of a single-input system. -/
def ctrbMatrix (A : Matrix (Fin n) (Fin n) R) (b : Matrix (Fin n) (Fin 1) R) : Matrix (Fin n) (Fin n) R :=
  fun i j => (A ^ j.1 * b) i 0

/-- `(0 … 0 1)`. -/
def lastRow (n : Nat) : Matrix (Fin 1) (Fin n) R := fun _ j => if j.1 + 1 = n then 1 else 0

theorem mul_aeval_of_lt {A F : Matrix (Fin n) (Fin n) R} {c : Matrix (Fin 1) (Fin n) R}
    (h : ∀ i, i < n → c * F ^ i = c * A ^ i) {r : R[X]} (hr : r.degree < n) : c * aeval F r = c * aeval A r := by
  by_cases h0 : r = 0
  · subst h0; simp
  have hd : r.natDegree < n := (natDegree_lt_iff_degree_lt h0).2 hr
  rw [aeval_eq_sum_range' hd, aeval_eq_sum_range' hd, Matrix.mul_sum, Matrix.mul_sum]
  refine Finset.sum_congr rfl fun i hi => ?_
  rw [Matrix.mul_smul, Matrix.mul_smul, h i (Finset.mem_range.1 hi)]

/-- Ackermann's formula: with `c` such that `c A^i b` is `0` for `i < n-1` and `1` for `i = n-1`, the feedback
`c q(A)` gives the characteristic polynomial `q`. -/
theorem ackermann_row [Nontrivial R] (hn : 0 < n) (A : Matrix (Fin n) (Fin n) R) (b : Matrix (Fin n) (Fin 1) R) (c : Matrix (Fin 1) (Fin n) R)
    (h0 : ∀ i, i + 1 < n → c * (A ^ i * b) = 0) (h1 : c * (A ^ (n - 1) * b) = 1) {q : R[X]} (hq : q.Monic)
    (hd : q.natDegree = n) : (A - b * (c * aeval A q)).charpoly = q := by
  set k := c * aeval A q with hk
  set F := A - b * k with hF
  have hpow : ∀ i, i < n → c * F ^ i = c * A ^ i := by
    intro i hi
    induction i with
    | zero => simp
    | succ i ih =>
      rw [pow_succ, ← Matrix.mul_assoc, ih (by omega), hF, Matrix.mul_sub, ← Matrix.mul_assoc (c * A ^ i) b k,
        Matrix.mul_assoc c (A ^ i) b, h0 i hi, Matrix.zero_mul, sub_zero, Matrix.mul_assoc, ← pow_succ]
  have htop : c * F ^ n = c * A ^ n - k := by
    obtain ⟨m, rfl⟩ : ∃ m, n = m + 1 := ⟨n - 1, by omega⟩
    rw [pow_succ, ← Matrix.mul_assoc, hpow m (by omega), hF, Matrix.mul_sub, ← Matrix.mul_assoc (c * A ^ m) b k,
      Matrix.mul_assoc c (A ^ m) b]
    rw [Nat.add_sub_cancel] at h1
    rw [h1, Matrix.one_mul, Matrix.mul_assoc, ← pow_succ]
  -- `q = X^n + r`
  have hr : (q - X ^ n : R[X]).degree < (n : WithBot ℕ) := by
    have : q.degree = (X ^ n : R[X]).degree := by rw [degree_X_pow, degree_eq_natDegree hq.ne_zero, hd]
    have h := degree_sub_lt_left this hq.ne_zero (by rw [hq.leadingCoeff, (monic_X_pow n).leadingCoeff])
    rwa [degree_eq_natDegree hq.ne_zero, hd] at h
  have hqF : c * aeval F q = 0 := by
    have e : q = X ^ n + (q - X ^ n) := by ring
    have e1 : c * aeval F q = c * F ^ n + c * aeval F (q - X ^ n) := by
      conv_lhs => rw [e]
      rw [map_add, Matrix.mul_add, map_pow, aeval_X]
    have e2 : c * aeval A q = c * A ^ n + c * aeval A (q - X ^ n) := by
      conv_lhs => rw [e]
      rw [map_add, Matrix.mul_add, map_pow, aeval_X]
    rw [e1, htop, mul_aeval_of_lt hpow hr, hk, e2]
    abel
  -- compare with Cayley–Hamilton
  have hχ : F.charpoly.Monic := F.charpoly_monic
  have hχd : F.charpoly.natDegree = n := by rw [Matrix.charpoly_natDegree_eq_dim, Fintype.card_fin]
  set s := F.charpoly - q with hs
  have hsd : s.degree < n := by
    have : F.charpoly.degree = q.degree := by rw [degree_eq_natDegree hχ.ne_zero, degree_eq_natDegree hq.ne_zero, hd, hχd]
    have h := degree_sub_lt_left this hχ.ne_zero (by rw [hq.leadingCoeff, hχ.leadingCoeff])
    rwa [degree_eq_natDegree hχ.ne_zero, hχd] at h
  have hsA : c * aeval A s = 0 := by
    rw [← mul_aeval_of_lt hpow hsd, hs, map_sub, Matrix.mul_sub, hqF, Matrix.aeval_self_charpoly, Matrix.mul_zero, sub_zero]
  by_contra hne
  have hs0 : s ≠ 0 := fun h => hne (sub_eq_zero.1 h)
  have hlt : s.natDegree < n := (natDegree_lt_iff_degree_lt hs0).2 hsd
  have key : c * aeval A s * (A ^ (n - 1 - s.natDegree) * b) = s.leadingCoeff • (1 : Matrix (Fin 1) (Fin 1) R) := by
    rw [aeval_eq_sum_range, Matrix.mul_sum, Matrix.sum_mul, Finset.sum_eq_single s.natDegree]
    · rw [Matrix.mul_smul, Matrix.smul_mul, Matrix.mul_assoc c, ← Matrix.mul_assoc (A ^ _), ← pow_add]
      have : s.natDegree + (n - 1 - s.natDegree) = n - 1 := by omega
      rw [this, h1]; rfl
    · intro i hi hin
      have := Finset.mem_range.1 hi
      rw [Matrix.mul_smul, Matrix.smul_mul, Matrix.mul_assoc c, ← Matrix.mul_assoc (A ^ _), ← pow_add, h0 _ (by omega), smul_zero]
    · intro h; exact absurd (Finset.mem_range.2 (Nat.lt_succ_self _)) h
  rw [hsA, Matrix.zero_mul] at key
  have := congrFun (congrFun key 0) 0
  rw [Matrix.smul_apply, Matrix.one_apply_eq, smul_eq_mul, mul_one] at this
  exact hs0 (leadingCoeff_eq_zero.1 this.symm)

theorem ackermann [Nontrivial R] (hn : 0 < n) (A : Matrix (Fin n) (Fin n) R) (b : Matrix (Fin n) (Fin 1) R)
    (hdet : IsUnit (ctrbMatrix A b).det) {q : R[X]} (hq : q.Monic) (hd : q.natDegree = n) :
    (A - b * ((lastRow n : Matrix (Fin 1) (Fin n) R) * (ctrbMatrix A b)⁻¹ * aeval A q)).charpoly = q := by
  have hinv : (lastRow n : Matrix (Fin 1) (Fin n) R) * (ctrbMatrix A b)⁻¹ * ctrbMatrix A b = (lastRow n : Matrix (Fin 1) (Fin n) R) := by
    rw [Matrix.mul_assoc, Matrix.nonsing_inv_mul _ hdet, Matrix.mul_one]
  have hcol : ∀ i : Fin n, (lastRow n : Matrix (Fin 1) (Fin n) R) * (ctrbMatrix A b)⁻¹ * (A ^ i.1 * b) = fun _ _ => if i.1 + 1 = n then (1 : R) else 0 := by
    intro i
    funext x y
    have hy : y = 0 := Subsingleton.elim _ _
    have := congrFun (congrFun hinv x) i
    rw [Matrix.mul_apply] at this ⊢
    subst hy
    exact this
  refine ackermann_row hn A b _ (fun i hi => ?_) ?_ hq hd
  · rw [hcol ⟨i, by omega⟩]
    funext x y
    exact if_neg (by simp only; omega)
  · rw [hcol ⟨n - 1, by omega⟩]
    funext x y
    have : x = y := Subsingleton.elim _ _
    rw [this, Matrix.one_apply_eq]
    exact if_pos (by simp only; omega)

end Malg
