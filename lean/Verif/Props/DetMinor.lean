import Verif.Props.Det
import Verif.Lemmas.DetMinor
import Mathlib.LinearAlgebra.Matrix.AbsoluteValue
import Mathlib.LinearAlgebra.Matrix.ToLinearEquiv
/-!
# Property C142: what `determinant`, `adjoint` and `inverse` return beyond 4×4
-/
namespace Malg
open Ops Lin Feq

section
variable {K R : Type} [Field K] [DecidableEq K] [Field R] [LinearOrder R] [IsStrictOrderedRing R]
variable (abs : AbsoluteValue K R) {tol : R} (ht : tol < 1)

include ht in
/-- C142: beyond 4×4 the result of `determinant` is, up to its sign, a minor: with `c` the number of leading columns that are linearly
independent, the minor of these columns and some `c` rows. It is not zero. All columns are used exactly when the matrix is regular; otherwise
the next column is a combination of the columns used. -/
theorem C142_minor {A : MB K} {N : Nat} {M : Matrix (Fin N) (Fin N) K} (h : A.Is M) (hN : 4 < N) :
    ∃ d c, ∃ hc : c ≤ N, ∃ σ : Equiv.Perm (Fin N), determinant (isZ abs tol) A = .ok d ∧ d ≠ 0 ∧
      d = (σ.sign : ℤ) * (M.submatrix (fun i => σ (Fin.castLE hc i)) (Fin.castLE hc)).det ∧
      LinearIndependent K (fun (j : Fin c) i => M i (Fin.castLE hc j)) ∧ (c = N ↔ M.det ≠ 0) ∧
      ∀ hc' : c < N, ∃ x : Fin c → K, ∀ i, M i ⟨c, hc'⟩ = ∑ j, x j * M i (Fin.castLE hc j) := by
  obtain ⟨e, h, rfl⟩ := h
  obtain ⟨d, c, hc, σ, h1, h2, h3, h4⟩ := determinant_minor (isZ_iff abs ht) h hN
  have h5 : ((toM N N e).submatrix (fun i => σ (Fin.castLE hc i)) (Fin.castLE hc)).det ≠ 0 := fun h0 => h3 (by rw [h2, h0, mul_zero])
  refine ⟨d, c, hc, σ, h1, h3, h2, ?_, ⟨?_, ?_⟩, h4⟩
  · rw [Fintype.linearIndependent_iff]
    intro g hg
    have hv : ((toM N N e).submatrix (fun i => σ (Fin.castLE hc i)) (Fin.castLE hc)).mulVec g = 0 := by
      funext i
      have := congrFun hg (σ (Fin.castLE hc i))
      simp only [Finset.sum_apply, Pi.smul_apply, smul_eq_mul, Pi.zero_apply] at this
      rw [Matrix.mulVec, dotProduct, Pi.zero_apply, ← this]
      exact Finset.sum_congr rfl fun j _ => mul_comm _ _
    exact congrFun (Matrix.eq_zero_of_mulVec_eq_zero h5 hv)
  · rintro rfl
    have : (toM c c e).submatrix (fun i => σ (Fin.castLE hc i)) (Fin.castLE hc) = (toM c c e).submatrix σ id := rfl
    rw [this, Matrix.det_permute] at h5
    exact right_ne_zero_of_mul h5
  · intro h0
    by_contra hcN
    obtain ⟨x, hx⟩ := h4 (by omega)
    refine h0 (Matrix.exists_mulVec_eq_zero_iff.1 ⟨fun j => if h : j.1 < c then x ⟨j, h⟩ else if j.1 = c then -1 else 0, ?_, ?_⟩)
    · intro h0
      have := congrFun h0 ⟨c, by omega⟩
      simp at this
    · funext i
      have e1 : ∀ j : Fin N, toM N N e i j * (if h : j.1 < c then x ⟨j, h⟩ else if j.1 = c then -1 else 0) =
          (if h : j.1 < c then x ⟨j, h⟩ * toM N N e i j else 0) + if j = ⟨c, by omega⟩ then - toM N N e i ⟨c, by omega⟩ else 0 := by
        intro j
        by_cases h1 : j.1 < c
        · rw [dif_pos h1, dif_pos h1, if_neg (fun h => by rw [h] at h1; simp at h1), add_zero, mul_comm]
        · rw [dif_neg h1, dif_neg h1, zero_add]
          by_cases h2 : j.1 = c
          · have h3 : j = ⟨c, by omega⟩ := Fin.ext h2
            rw [if_pos h2, if_pos h3, ← h3, mul_neg_one]
          · rw [if_neg h2, if_neg (fun h => h2 (congrArg Fin.val h)), mul_zero]
      rw [Matrix.mulVec, dotProduct, Finset.sum_congr rfl fun j _ => e1 j, Finset.sum_add_distrib, Finset.sum_ite_eq' , if_pos (Finset.mem_univ _),
        hx i, Pi.zero_apply, add_neg_eq_zero]
      symm
      refine Finset.sum_of_injOn (Fin.castLE hc) (Fin.castLE_injective hc).injOn (by simp) (fun l _ hl => ?_) fun l _ => ?_
      · rw [dif_neg fun h => hl ⟨⟨l, h⟩, by simp, Fin.ext rfl⟩]
      · rw [dif_pos (show (Fin.castLE hc l).1 < c from l.2)]; rfl

include ht in
/-- C142: so the result never exceeds what the size of the entries allows, right or wrong. -/
theorem C142_bound {A : MB K} {N : Nat} {M : Matrix (Fin N) (Fin N) K} (h : A.Is M) {B : R} (hB1 : 1 ≤ B) (hB : ∀ i j, abs (M i j) ≤ B) :
    ∃ d, determinant (isZ abs tol) A = .ok d ∧ abs d ≤ N.factorial * B ^ N := by
  by_cases hN : 4 < N
  · obtain ⟨d, c, hc, σ, h1, -, h2, -⟩ := C142_minor abs ht h hN
    refine ⟨d, h1, ?_⟩
    have h3 := Matrix.det_le (abv := abs) (A := M.submatrix (fun i => σ (Fin.castLE hc i)) (Fin.castLE hc)) fun i j => hB _ _
    rw [Fintype.card_fin, nsmul_eq_mul] at h3
    have h4 : abs d = abs (M.submatrix (fun i => σ (Fin.castLE hc i)) (Fin.castLE hc)).det := by
      rw [h2]
      rcases Int.units_eq_one_or σ.sign with h | h <;> rw [h] <;> simp
    rw [h4]
    refine h3.trans ?_
    have h5 : (c.factorial : R) ≤ N.factorial := by exact_mod_cast Nat.factorial_le hc
    have h6 : B ^ c ≤ B ^ N := pow_le_pow_right₀ hB1 hc
    have : 0 ≤ B ^ c := by positivity
    gcongr
  · refine ⟨M.det, C50_small_partial _ h (by omega), ?_⟩
    have h3 := Matrix.det_le (abv := abs) (A := M) hB
    rwa [Fintype.card_fin, nsmul_eq_mul] at h3

include ht in
/-- C142: the computed adjoint is right in every entry that is not zero; beyond 5×5 the others are never zero. -/
theorem C142_adjoint {A : MB K} {N : Nat} {M : Matrix (Fin N) (Fin N) K} (h : A.Is M) {B : R} (hB1 : 1 ≤ B) (hB : ∀ i j, abs (M i j) ≤ B) :
    ∃ M' : Matrix (Fin N) (Fin N) K, Yields (adjoint (isZ abs tol) A) M' ∧
      ∀ i j, (M.adjugate i j ≠ 0 → M' i j = M.adjugate i j) ∧ (5 < N → M' i j ≠ 0) ∧ abs (M' i j) ≤ (N - 1).factorial * B ^ (N - 1) := by
  obtain ⟨e, h, rfl⟩ := h
  by_cases h1 : N = 1
  · subst h1
    refine ⟨_, C51_small_partial _ h.is (by omega), fun i j => ⟨fun _ => rfl, fun h => by omega, ?_⟩⟩
    rw [Matrix.adjugate_fin_one, Subsingleton.elim i j, Matrix.one_apply_eq]
    simp
  by_cases h0 : N = 0
  · subst h0
    exact ⟨_, C51_small_partial _ h.is (by omega), fun i => i.elim0⟩
  have hr := fun i j => cofactor_rep h.toRepAt (by omega) i j
  have hd : ∀ i j, ∃ d, i < N → j < N → determinant (isZ abs tol) (A.cofactor i j) = .ok d ∧
      ((toM (N - 1) (N - 1) fun r c => e (skip i r) (skip j c)).det ≠ 0 → d = (toM (N - 1) (N - 1) fun r c => e (skip i r) (skip j c)).det) ∧
      (5 < N → d ≠ 0) ∧ abs d ≤ (N - 1).factorial * B ^ (N - 1) := by
    intro i j
    by_cases hij : i < N ∧ j < N
    · obtain ⟨d, e1, e2⟩ := C142_bound abs ht (hr i j).is hB1 (B := B) fun r c => by
        have hs : ∀ {p q : Nat}, q < N - 1 → skip p q < N := fun {p q} hq => by unfold skip; split <;> omega
        exact hB ⟨skip i r, hs r.2⟩ ⟨skip j c, hs c.2⟩
      refine ⟨d, fun _ _ => ⟨e1, fun hne => ?_, fun hN => ?_, e2⟩⟩
      · have := C50_large_partial abs ht (hr i j).is hne
        rw [e1] at this
        injection this
      · obtain ⟨d', e3, e4, -⟩ := determinant_large (isZ_iff abs ht) (hr i j) (by omega)
        rw [e1] at e3
        injection e3 with e3
        rw [e3]; exact e4
    · exact ⟨0, fun hi hj => absurd ⟨hi, hj⟩ hij⟩
  choose d hd using hd
  refine ⟨_, Yields.of_eq h.fits (adjoint_eq h.toRepAt h1 fun i j hi hj => (hd i j hi hj).1), fun i j => ?_⟩
  obtain ⟨-, h2, h3, h4⟩ := hd j i j.2 i.2
  refine ⟨fun hne => ?_, fun hN => mul_ne_zero (pow_ne_zero _ (by simp)) (h3 hN), ?_⟩
  · rw [adjugate_eq (by omega) e j.2 i.2] at hne ⊢
    rw [toM_apply, h2 (right_ne_zero_of_mul hne)]
  · rw [toM_apply, map_mul, map_pow, abs.map_neg, map_one, one_pow, one_mul]
    exact h4

include ht in
/-- C142: the computed inverse of a regular matrix is right in every entry that is not zero, and beyond 5×5 wrong in all the others. Even there
it is no larger than the bound for a proper inverse. -/
theorem C142_inverse {A : MB K} {N : Nat} {M : Matrix (Fin N) (Fin N) K} (h : A.Is M) (hM : M.det ≠ 0) {B : R} (hB1 : 1 ≤ B)
    (hB : ∀ i j, abs (M i j) ≤ B) :
    ∃ M' : Matrix (Fin N) (Fin N) K, Yields (inverse (isZ abs tol) A) M' ∧
      ∀ i j, (M⁻¹ i j ≠ 0 → M' i j = M⁻¹ i j) ∧ (5 < N → M' i j ≠ 0) ∧ abs (M' i j) ≤ (N - 1).factorial * B ^ (N - 1) / abs M.det := by
  obtain ⟨M', h1, h2⟩ := C142_adjoint abs ht h hB1 hB
  have hd := C50_large_partial abs ht h hM
  have hinv : M⁻¹ = M.det⁻¹ • M.adjugate := by rw [Matrix.inv_def, Ring.inverse_eq_inv']
  obtain ⟨e, h, rfl⟩ := h
  refine ⟨_, inverse_eq abs ht h.toRepAt hd hM h1, fun i j => ⟨fun hne => ?_, fun hN => ?_, ?_⟩⟩
  · rw [hinv] at hne ⊢
    rw [Matrix.smul_apply, Matrix.smul_apply, (h2 i j).1 fun h0 => hne (by rw [Matrix.smul_apply, h0, smul_zero])]
  · rw [Matrix.smul_apply]; exact mul_ne_zero (inv_ne_zero hM) ((h2 i j).2.1 hN)
  · rw [Matrix.smul_apply, smul_eq_mul, map_mul, map_inv₀, div_eq_inv_mul]
    exact mul_le_mul_of_nonneg_left (h2 i j).2.2 (inv_nonneg.2 (abs.nonneg _))

end

/-- The third column is twice the second: two columns are used, and the minor of the first and the third row is the result. -/
example : determinant (isZ (AbsoluteValue.abs (S := ℚ)) (1/1000000000)) (Mat.ofFn 5 5 fun i j =>
    if j = 0 then (if i = 0 then (2:ℚ) else if i = 1 then 4 else 0) else if j = 1 then (if i = 0 then 1 else if i = 1 then 2 else i + 1)
    else if j = 2 then (if i = 0 then 2 else if i = 1 then 4 else 2 * (i + 1)) else i * j).toMB = .ok (-6) := by decide +kernel
/-- Off the diagonal the computed inverse of the 6×6 identity is the bound of `C142_inverse` at most: ±1 instead of 0. -/
example : (inverse (isZ (AbsoluteValue.abs (S := ℚ)) (1/1000000000)) (Mat.ofFn 6 6 fun i j => if i = j then (1:ℚ) else 0).toMB >>=
    fun B => B.at_ 2 0) = .ok 1 := by decide +kernel

end Malg
