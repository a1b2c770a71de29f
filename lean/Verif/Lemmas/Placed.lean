import Verif.Lemmas.Ackermann
/-!
# How the characteristic polynomial depends on the gain
-/
namespace Malg
open Polynomial

variable {R : Type} [CommRing R] {n : Nat}

/-- The coefficient of `X^(n - 1 - j)` of the adjugate of `X - A`, by the coefficients of the characteristic polynomial. -/
noncomputable def placeWeight (A : Matrix (Fin n) (Fin n) R) (j : Nat) : Matrix (Fin n) (Fin n) R :=
  ∑ i ∈ Finset.range (j + 1), A.charpoly.coeff (n - i) • A ^ (j - i)

section
variable {A : Matrix (Fin n) (Fin n) R} {b : Matrix (Fin n) (Fin 1) R} {c : Matrix (Fin 1) (Fin n) R}
  (h0 : ∀ i, i + 1 < n → c * (A ^ i * b) = 0) (h1 : c * (A ^ (n - 1) * b) = 1)
include h0 h1

/-- `c q(A)` is the gain of which `q` is the characteristic polynomial. -/
theorem gain_of_charpoly [Nontrivial R] (hn : 0 < n) (k : Matrix (Fin 1) (Fin n) R) : c * aeval A (A - b * k).charpoly = k := by
  set F := A - b * k with hF
  have hpow : ∀ i, i < n → c * F ^ i = c * A ^ i := by
    intro i hi
    induction i with
    | zero => simp
    | succ i ih =>
      rw [pow_succ, ← Matrix.mul_assoc, ih (by omega), hF, Matrix.mul_sub, ← Matrix.mul_assoc (c * A ^ i) b k,
        Matrix.mul_assoc c (A ^ i) b, h0 i hi, Matrix.zero_mul, sub_zero, Matrix.mul_assoc, ← pow_succ]
  have htop : c * F ^ n = c * A ^ n - k := by
    obtain ⟨m, rfl⟩ : ∃ m, n = m + 1 := ⟨n - 1, by omega⟩
    rw [pow_succ, ← Matrix.mul_assoc, hpow m (by omega), hF, Matrix.mul_sub, ← Matrix.mul_assoc (c * A ^ m) b k,
      Matrix.mul_assoc c (A ^ m) b]
    rw [Nat.add_sub_cancel] at h1
    rw [h1, Matrix.one_mul, Matrix.mul_assoc, ← pow_succ]
  set q := F.charpoly with hq'
  have hq : q.Monic := F.charpoly_monic
  have hd : q.natDegree = n := by rw [hq', Matrix.charpoly_natDegree_eq_dim, Fintype.card_fin]
  have hr : (q - X ^ n : R[X]).degree < (n : WithBot ℕ) := by
    have : q.degree = (X ^ n : R[X]).degree := by rw [degree_X_pow, degree_eq_natDegree hq.ne_zero, hd]
    have h := degree_sub_lt_left this hq.ne_zero (by rw [hq.leadingCoeff, (monic_X_pow n).leadingCoeff])
    rwa [degree_eq_natDegree hq.ne_zero, hd] at h
  have e : q = X ^ n + (q - X ^ n) := by ring
  have e1 : c * aeval F q = c * F ^ n + c * aeval F (q - X ^ n) := by
    conv_lhs => rw [e]
    rw [map_add, Matrix.mul_add, map_pow, aeval_X]
  have e2 : c * aeval A q = c * A ^ n + c * aeval A (q - X ^ n) := by
    conv_lhs => rw [e]
    rw [map_add, Matrix.mul_add, map_pow, aeval_X]
  rw [hq', Matrix.aeval_self_charpoly, Matrix.mul_zero, ← hq', htop, mul_aeval_of_lt hpow hr] at e1
  rw [e2]
  have := add_eq_zero_iff_eq_neg.1 e1.symm
  rw [sub_eq_iff_eq_add] at this
  rw [this]
  abel

/-- The Markov parameters, weighted with the coefficients of the characteristic polynomial. -/
theorem markov_coeff [Nontrivial R] {j l : Nat} (hj : j < n) (hl : l < n) :
    c * (A ^ l * (placeWeight A j * b)) = if l + j + 1 = n then 1 else 0 := by
  have e : c * (A ^ l * (placeWeight A j * b)) = ∑ i ∈ Finset.range (j + 1), A.charpoly.coeff (n - i) • (c * (A ^ (l + j - i) * b)) := by
    rw [placeWeight, Matrix.sum_mul, Matrix.mul_sum, Matrix.mul_sum]
    refine Finset.sum_congr rfl fun i hi => ?_
    have := Finset.mem_range.1 hi
    rw [Matrix.smul_mul, Matrix.mul_smul, Matrix.mul_smul, ← Matrix.mul_assoc (A ^ l), ← pow_add, show l + (j - i) = l + j - i by omega]
  have hχd : A.charpoly.natDegree = n := by rw [Matrix.charpoly_natDegree_eq_dim, Fintype.card_fin]
  have hχ0 : A.charpoly.coeff n = 1 := by
    have := A.charpoly_monic
    rw [Monic, leadingCoeff, hχd] at this
    exact this
  rw [e]
  rcases Nat.lt_trichotomy (l + j + 1) n with h | h | h
  · rw [if_neg (by omega)]
    refine Finset.sum_eq_zero fun i _ => ?_
    rw [h0 _ (by omega), smul_zero]
  · rw [if_pos h, Finset.sum_eq_single 0 ?_ (fun h' => absurd (Finset.mem_range.2 (Nat.succ_pos j)) h')]
    · rw [Nat.sub_zero, Nat.sub_zero, hχ0, one_smul, show l + j = n - 1 by omega, h1]
    · intro i hi' hi
      have := Finset.mem_range.1 hi'
      rw [h0 _ (by omega), smul_zero]
  · rw [if_neg (by omega)]
    have h2 : ∑ i ∈ Finset.range (n + 1), A.charpoly.coeff (n - i) • (c * (A ^ (l + j - i) * b)) = 0 := by
      have ch := Matrix.aeval_self_charpoly A
      rw [aeval_eq_sum_range, hχd, ← Finset.sum_range_reflect] at ch
      have ch' := congrArg (fun Z => c * (A ^ (l + j - n) * (Z * b))) ch
      rw [Matrix.zero_mul, Matrix.mul_zero, Matrix.mul_zero, Matrix.sum_mul, Matrix.mul_sum, Matrix.mul_sum] at ch'
      rw [← ch']
      refine Finset.sum_congr rfl fun i hi => ?_
      have := Finset.mem_range.1 hi
      rw [Matrix.smul_mul, Matrix.mul_smul, Matrix.mul_smul, ← Matrix.mul_assoc (A ^ _), ← pow_add, show n + 1 - 1 - i = n - i by omega,
        show l + j - n + (n - i) = l + j - i by omega]
    rw [← h2]
    refine Finset.sum_subset (fun i hi => Finset.mem_range.2 (by have := Finset.mem_range.1 hi; omega)) fun i hi hi' => ?_
    have := Finset.mem_range.1 hi
    rw [Finset.mem_range] at hi'
    rw [h0 _ (by omega), smul_zero]

end

/-- The coefficients of the characteristic polynomial of `A - b k` are affine in the gain. -/
theorem placed_shift [Nontrivial R] (hn : 0 < n) (A : Matrix (Fin n) (Fin n) R) (b : Matrix (Fin n) (Fin 1) R)
    (hdet : IsUnit (ctrbMatrix A b).det) {q : R[X]} (hq : q.Monic) (hd : q.natDegree = n) (k : Matrix (Fin 1) (Fin n) R) {j : Nat} (hj : j < n) :
    (A - b * k).charpoly.coeff (n - 1 - j) =
      q.coeff (n - 1 - j) + ((k - (lastRow n : Matrix (Fin 1) (Fin n) R) * (ctrbMatrix A b)⁻¹ * aeval A q) * (placeWeight A j * b)) 0 0 := by
  have hinv : (lastRow n : Matrix (Fin 1) (Fin n) R) * (ctrbMatrix A b)⁻¹ * ctrbMatrix A b = (lastRow n : Matrix (Fin 1) (Fin n) R) := by
    rw [Matrix.mul_assoc, Matrix.nonsing_inv_mul _ hdet, Matrix.mul_one]
  set c := (lastRow n : Matrix (Fin 1) (Fin n) R) * (ctrbMatrix A b)⁻¹ with hc
  have hcol : ∀ i : Fin n, c * (A ^ i.1 * b) = fun _ _ => if i.1 + 1 = n then (1 : R) else 0 := by
    intro i
    funext x y
    have hy : y = 0 := Subsingleton.elim _ _
    have := congrFun (congrFun hinv x) i
    rw [Matrix.mul_apply] at this ⊢
    subst hy
    exact this
  have h0 : ∀ i, i + 1 < n → c * (A ^ i * b) = 0 := fun i hi => by
    rw [hcol ⟨i, by omega⟩]
    funext x y
    exact if_neg (by simp only; omega)
  have h1 : c * (A ^ (n - 1) * b) = 1 := by
    rw [hcol ⟨n - 1, by omega⟩]
    funext x y
    have : x = y := Subsingleton.elim _ _
    rw [this, Matrix.one_apply_eq]
    exact if_pos (by simp only; omega)
  set F := A - b * k with hF
  have hχ : F.charpoly.Monic := F.charpoly_monic
  have hχd : F.charpoly.natDegree = n := by rw [Matrix.charpoly_natDegree_eq_dim, Fintype.card_fin]
  set s := F.charpoly - q with hs
  have hsd : s.degree < n := by
    have : F.charpoly.degree = q.degree := by rw [degree_eq_natDegree hχ.ne_zero, degree_eq_natDegree hq.ne_zero, hd, hχd]
    have h := degree_sub_lt_left this hχ.ne_zero (by rw [hq.leadingCoeff, hχ.leadingCoeff])
    rwa [degree_eq_natDegree hχ.ne_zero, hχd] at h
  have hsA : c * aeval A s = k - c * aeval A q := by
    rw [hs, map_sub, Matrix.mul_sub, gain_of_charpoly h0 h1 hn k]
  have hs' : s = ∑ l ∈ Finset.range n, monomial l (s.coeff l) := by
    by_cases h : s = 0
    · rw [h]; simp
    · exact as_sum_range' s n ((natDegree_lt_iff_degree_lt h).2 hsd)
  have key : (c * aeval A s) * (placeWeight A j * b) = s.coeff (n - 1 - j) • (1 : Matrix (Fin 1) (Fin 1) R) := by
    conv_lhs => rw [hs']
    rw [map_sum, Matrix.mul_sum, Matrix.sum_mul, Finset.sum_eq_single (n - 1 - j)]
    · rw [aeval_monomial, ← Algebra.smul_def, Matrix.mul_smul, Matrix.smul_mul, Matrix.mul_assoc, markov_coeff h0 h1 hj (by omega), if_pos (by omega)]
    · intro l hl hlj
      have := Finset.mem_range.1 hl
      rw [aeval_monomial, ← Algebra.smul_def, Matrix.mul_smul, Matrix.smul_mul, Matrix.mul_assoc, markov_coeff h0 h1 hj this, if_neg (by omega),
        smul_zero]
    · intro h; exact absurd (Finset.mem_range.2 (by omega)) h
  rw [← hsA, key, Matrix.smul_apply, Matrix.one_apply_eq, smul_eq_mul, mul_one, hs, coeff_sub]
  ring

end Malg
