import Verif.Lemmas.Spectral
/-!
# C109: eigenvalues and eigenvectors of a matrix

`auto [U, T] = QRHessenberg(A); auto [E, full] = eigenvectorUpper(T); auto X = U * E;`: the columns of `X` are eigenvectors of
the matrix for the diagonal elements of `T`. The model of the functions and the assumptions are those of C90 to C93. The matrix
`T` is not triangular, what is left below its diagonal is merely short.
-/
namespace Malg
open Ops Matrix Cpx Eigen

section
variable {K : Type} [Field K] [LinearOrder K] [IsStrictOrderedRing K] {n : Nat}
variable {eps : K} {sqrt : K → K} {abs : Cpx K → K} (hs : Sqrt sqrt) (ha : IsAbs abs) (he : 0 < eps)

include hs ha he in
/-- C109: `eigenvectorUpper` for matrices that need not be triangular: it treats them as if the part below the diagonal were
zero. -/
theorem C109_upper {A : Mat (Cpx K)} {M : Matrix (Fin n) (Fin n) (Cpx K)} (hw : A.WF) (hA : A.toMB.Is M) (hn31 : n < 2 ^ 31) :
    ∃ (e : Mat (Cpx K)) (fs : Bool) (E : Matrix (Fin n) (Fin n) (Cpx K)),
      eigenvectorUpper eps sqrt abs A = .ok (e, fs) ∧ e.WF ∧ e.toMB.Is E ∧
      (fs = true ↔ ∀ c, ∃ r, E r c ≠ 0) ∧ (fs = true → E.det ≠ 0) ∧
      ∀ c, (∃ r, E r c ≠ 0) → ∑ r, norm (E r c) = 1 ∧
        (∀ r, norm ((∑ j, if j.val < r.val then 0 else M r j * E j c) - M c c * E r c) ≤ eps * eps) ∧
        ((∀ r, r.val < c.val → eps ≤ abs (M r r - M c c)) →
          ∀ r, (∑ j, if j.val < r.val then 0 else M r j * E j c) = M c c * E r c) := by
  have hf := hA.fits
  rw [eq_tab hw hA]
  obtain ⟨e, fs, e1, h⟩ := eigenvectorUpper_run hs ha he hf hn31 (tab M)
  have hup : ∀ r c : Fin n, c.val < r.val → upperPart M r c = 0 := fun r c h => if_pos h
  have hdg : ∀ r : Fin n, upperPart M r r = M r r := fun r => if_neg (lt_irrefl _)
  have hmv : ∀ (v : Fin n → Cpx K) (r : Fin n), (∑ j, if j.val < r.val then 0 else M r j * v j) = (upperPart M *ᵥ v) r := by
    intro v r
    rw [Matrix.mulVec, dotProduct]
    refine Finset.sum_congr rfl fun j _ => ?_
    rw [upperPart]
    split <;> simp
  have hbad : ∀ c : Fin n, ColBad n eps abs (tab M) e c → ¬ ∃ r : Fin n, e r c ≠ 0 := by
    rintro c hb ⟨r, hr⟩
    exact hr (hb.2 r r.2)
  have hok : ∀ c : Fin n, ColOk n eps abs (tab M) e c → ∃ r : Fin n, e r c ≠ 0 := fun c hc =>
    ⟨c, (col_ok he ha hup hc.upper).2.1⟩
  refine ⟨_, fs, toM n n e, e1, ofFn_WF hf _, ⟨_, ofFn_rep hf _, rfl⟩, ?_, ?_, fun c hc => ?_⟩
  · rcases h with ⟨rfl, h⟩ | ⟨rfl, h, c, hc, hb⟩
    · exact ⟨fun _ c => hok c (h c c.2), fun _ => rfl⟩
    · exact ⟨fun h => (Bool.noConfusion h), fun h' => absurd (h' ⟨c, hc⟩) (hbad ⟨c, hc⟩ hb)⟩
  · rintro rfl
    rcases h with ⟨-, h⟩ | ⟨h, -⟩
    · have ht : (toM n n e).IsUpperTriangular := fun (r c : Fin n) hrc => (col_ok he ha hup (h c c.2).upper).1 r hrc
      rw [Matrix.det_of_isUpperTriangular ht]
      exact Finset.prod_ne_zero_iff.2 fun c _ => (col_ok he ha hup (h c c.2).upper).2.1
    · cases h
  · have hco : ColOk n eps abs (tab M) e c := by
      rcases h with ⟨rfl, h⟩ | ⟨rfl, h, -⟩
      · exact h c c.2
      · exact (h c c.2).resolve_right fun hb => hbad c hb hc
    obtain ⟨h1, h2, h3, h4, h5⟩ := col_ok he ha hup hco.upper
    refine ⟨h3, fun r => ?_, fun hg r => ?_⟩
    · have := mul_self_le_mul_self (ha _).1 (h4 r)
      rw [(ha _).2, hdg] at this
      rw [hmv]
      exact this
    · have := congrFun (h5 fun r hr hn => absurd (hg r hr) (not_le.2 (by rwa [hdg, hdg] at hn))) r
      rw [hdg] at this
      rw [hmv]
      exact this

variable {A : Mat (Cpx K)} {M : Matrix (Fin n) (Fin n) (Cpx K)} (hw : A.WF) (hA : A.toMB.Is M)

include hs ha he hw hA in
/-- C109, the part that holds: whenever `hessenberg` is right about the matrix (see C90), each column `x` of `X = U * E` is zero
or a unit vector; the columns are a basis if `eigenvectorUpper` says so. If `QRHessenberg` prints no warning, `A x` is as close
to `T(c,c) x` as the tolerances say: the squared distance is at most `tol²` if the diagonal elements before are distinct from
`T(c,c)` for the code, and at most `2 tol² + 2 n eps²` in any case. For a hermitian matrix `T(c,c)` is real. Missing: matrices
that `hessenberg` spoils, see `C109_eigenvalues_false`. -/
theorem C109_eigenpairs_partial (tol : K) (maxIter : Nat) (sqrtC : Cpx K → Cpx K) (four half : K) (hn : 0 < n) (hn31 : n < 2 ^ 31)
    {p h : Mat (Cpx K)} {P H : Matrix (Fin n) (Fin n) (Cpx K)} (hh : hessenberg eps sqrt abs A = .ok (p, h))
    (hpw : p.WF) (hhw : h.WF) (hP : p.toMB.Is P) (hH : h.toMB.Is H) (hunit : Pᴴ * P = 1) (hsim : M * P = P * H) :
    ∃ (u t e x : Mat (Cpx K)) (w fs : Bool) (T X : Matrix (Fin n) (Fin n) (Cpx K)),
      qrHessenberg eps tol maxIter sqrt abs sqrtC four half A = .ok ((u, t), w) ∧ t.WF ∧ t.toMB.Is T ∧
      eigenvectorUpper eps sqrt abs t = .ok (e, fs) ∧ mul u.toMB e.toMB = .ok x ∧ x.WF ∧ x.toMB.Is X ∧
      M.charpoly = T.charpoly ∧ (fs = true ↔ ∀ c, ∃ r, X r c ≠ 0) ∧ (fs = true → X.det ≠ 0) ∧
      (Mᴴ = M → ∀ c, (T c c).im = 0) ∧
      ∀ c, (∃ r, X r c ≠ 0) → ∑ r, norm (X r c) = 1 ∧
        (0 ≤ tol → tol < 1 → 1 < maxIter → w = false →
          ∑ r, norm ((M *ᵥ fun j => X j c) r - T c c * X r c) ≤ 2 * (tol * tol) + 2 * (n * (eps * eps)) ∧
          ((∀ r, r.val < c.val → eps ≤ abs (T r r - T c c)) →
            ∑ r, norm ((M *ᵥ fun j => X j c) r - T c c * X r c) ≤ tol * tol)) := by
  have hf := hA.fits
  obtain ⟨u, t, w, U, T, e1, huw, htw, hU, hT, hUU, hMU, hch, -, hw0⟩ :=
    C92_schur_partial hs ha he hw hA tol maxIter sqrtC four half hn hn31 hh hpw hhw hP hH hunit hsim
  obtain ⟨e, fs, E, e2, hew, hE, hfs, hdet, hcol⟩ := C109_upper hs ha he htw hT hn31
  have hmul : mul u.toMB e.toMB = .ok (Mat.ofFn n n (tab (U * E))) := by
    rw [eq_tab huw hU, eq_tab hew hE]
    exact mul_tab hf U E
  have hUU' := mul_eq_one_comm.1 hUU
  have hX : ∀ c, (fun j => (U * E) j c) = U *ᵥ fun j => E j c := fun c => rfl
  have hne : ∀ c, (∃ r, (U * E) r c ≠ 0) ↔ ∃ r, E r c ≠ 0 := by
    intro c
    have h1 : (∀ r, (U * E) r c = 0) ↔ ∀ r, E r c = 0 := by
      constructor
      · intro h0
        have h2 : (fun j => E j c) = Uᴴ *ᵥ fun j => (U * E) j c := by
          rw [hX, mulVec_mulVec, hUU, one_mulVec]
        have h3 : (fun j => (U * E) j c) = 0 := funext h0
        rw [h3, mulVec_zero] at h2
        exact fun r => congrFun h2 r
      · intro h0 r
        have h3 : (fun j => E j c) = 0 := funext h0
        have := congrFun (hX c) r
        rw [h3, mulVec_zero] at this
        exact this
    rw [← not_iff_not]
    push Not
    exact h1
  refine ⟨u, t, e, _, w, fs, T, U * E, e1, htw, hT, e2, hmul, (tab_is hf _).1, (tab_is hf _).2, hch, ?_, ?_, ?_, ?_⟩
  · rw [hfs]
    exact forall_congr' fun c => (hne c).symm
  · intro h1
    rw [Matrix.det_mul]
    refine mul_ne_zero (fun h0 => ?_) (hdet h1)
    have := congrArg Matrix.det hUU
    rw [Matrix.det_mul, h0, mul_zero, Matrix.det_one] at this
    exact zero_ne_one this
  · intro hM c
    have hTT : Tᴴ = T := by
      have hT' : T = Uᴴ * M * U := by rw [Matrix.mul_assoc, hMU, ← Matrix.mul_assoc, hUU, Matrix.one_mul]
      rw [hT']
      simp only [conjTranspose_mul, conjTranspose_conjTranspose, hM, Matrix.mul_assoc]
    have h1 : star (T c c) = T c c := congrFun (congrFun hTT c) c
    have h2 := congrArg Cpx.im h1
    rw [star_im] at h2
    linarith
  · intro c hc
    obtain ⟨h1, h2, h3⟩ := hcol c ((hne c).1 hc)
    refine ⟨?_, fun a1 a2 a3 a4 => ?_⟩
    · exact (sq_unitary hUU fun j => E j c).trans h1
    have hlow := (hw0 a1 a2 a3 a4).1
    have hmv : ∀ r : Fin n, (∑ j, if j.val < r.val then 0 else T r j * E j c) = (upperPart T *ᵥ fun j => E j c) r := by
      intro r
      rw [Matrix.mulVec, dotProduct]
      refine Finset.sum_congr rfl fun j _ => ?_
      rw [upperPart]
      split <;> simp
    have hL : ∑ r, norm ((lowerPart T *ᵥ fun j => E j c) r) ≤ tol * tol := by
      refine (lower_mulVec_le T _).trans ?_
      rw [h1, mul_one]
      exact hlow
    have hres : ∑ r, norm ((M *ᵥ fun j => (U * E) j c) r - T c c * (U * E) r c) =
        ∑ r, norm ((lowerPart T *ᵥ fun j => E j c) r + ((upperPart T *ᵥ fun j => E j c) r - T c c * E r c)) := by
      rw [← sq_unitary hUU fun r => (lowerPart T *ᵥ fun j => E j c) r + ((upperPart T *ᵥ fun j => E j c) r - T c c * E r c)]
      refine Finset.sum_congr rfl fun r _ => congrArg Eigen.norm ?_
      have h4 : (fun r => (lowerPart T *ᵥ fun j => E j c) r + ((upperPart T *ᵥ fun j => E j c) r - T c c * E r c)) =
          T *ᵥ (fun j => E j c) - T c c • fun j => E j c := by
        funext r
        conv_rhs => rw [upper_add_lower T]
        rw [Pi.sub_apply, add_mulVec, Pi.add_apply, Pi.smul_apply, smul_eq_mul, ← upper_add_lower]
        ring
      rw [h4, mulVec_sub, mulVec_smul, mulVec_mulVec, ← hMU, ← mulVec_mulVec, hX]
      rfl
    rw [hres]
    constructor
    · have h5 : ∑ r : Fin n, norm ((upperPart T *ᵥ fun j => E j c) r - T c c * E r c) ≤ n * (eps * eps) := by
        refine (Finset.sum_le_sum fun r _ => (hmv r ▸ h2 r)).trans (le_of_eq ?_)
        rw [Finset.sum_const, Finset.card_univ, Fintype.card_fin, nsmul_eq_mul]
      refine (Finset.sum_le_sum fun r _ => norm_add_le_two _ _).trans ?_
      rw [Finset.sum_add_distrib, ← Finset.mul_sum, ← Finset.mul_sum]
      linarith
    · intro hsep
      refine le_trans (le_of_eq (Finset.sum_congr rfl fun r _ => ?_)) hL
      rw [← hmv r, h3 hsep r, sub_self, add_zero]

include hs ha he hw hA in
/-- C109: no condition is needed for matrices that are upper triangular or have at most two rows. -/
theorem C109_small (tol : K) (maxIter : Nat) (sqrtC : Cpx K → Cpx K) (four half : K) (hn : 0 < n) (hn31 : n < 2 ^ 31)
    (hM : (∀ r c : Fin n, c.val < r.val → M r c = 0) ∨ n ≤ 2) (ht0 : 0 ≤ tol) (ht1 : tol < 1) (hi : 1 < maxIter) :
    ∃ (u t e x : Mat (Cpx K)) (w fs : Bool) (T X : Matrix (Fin n) (Fin n) (Cpx K)),
      qrHessenberg eps tol maxIter sqrt abs sqrtC four half A = .ok ((u, t), w) ∧ t.toMB.Is T ∧
      eigenvectorUpper eps sqrt abs t = .ok (e, fs) ∧ mul u.toMB e.toMB = .ok x ∧ x.toMB.Is X ∧
      M.charpoly = T.charpoly ∧ (fs = true → X.det ≠ 0) ∧
      (w = false → ∀ c, (∃ r, X r c ≠ 0) → ∑ r, norm (X r c) = 1 ∧
        ∑ r, norm ((M *ᵥ fun j => X j c) r - T c c * X r c) ≤ 2 * (tol * tol) + 2 * (n * (eps * eps))) := by
  obtain ⟨p, e, hp, hp1⟩ := C90_fixed hs ha he hw hA hn hn31 hM
  obtain ⟨u, t, e, x, w, fs, T, X, e1, -, h2, e2, e3, -, h4, h5, -, h7, -, h8⟩ :=
    C109_eigenpairs_partial hs ha he hw hA tol maxIter sqrtC four half hn hn31 e
    hp hw hp1 hA (by rw [conjTranspose_one, Matrix.one_mul]) (by rw [Matrix.mul_one, Matrix.one_mul])
  exact ⟨u, t, e, x, w, fs, T, X, e1, h2, e2, e3, h4, h5, h7, fun hw c hc => ⟨(h8 c hc).1, ((h8 c hc).2 ht0 ht1 hi hw).1⟩⟩

end

/-- C109: the eigenvalues of a hermitian matrix over the reals: if `hessenberg` is right about it and no warning is printed, the diagonal
of `T` holds all eigenvalues of the matrix, each as often as it occurs, with a total squared error of at most `2 tol²`. Missing: as
above. -/
theorem C109_hermitian_partial {n : Nat} {eps : ℝ} {sqrt : ℝ → ℝ} {abs : Cpx ℝ → ℝ} (hs : Sqrt sqrt) (ha : IsAbs abs) (he : 0 < eps)
    {A : Mat (Cpx ℝ)} {M : Matrix (Fin n) (Fin n) (Cpx ℝ)} (hw : A.WF) (hA : A.toMB.Is M) (hM : Mᴴ = M)
    (tol : ℝ) (maxIter : Nat) (sqrtC : Cpx ℝ → Cpx ℝ) (four half : ℝ) (hn : 0 < n) (hn31 : n < 2 ^ 31)
    (ht0 : 0 ≤ tol) (ht1 : tol < 1) (hi : 1 < maxIter)
    {p h : Mat (Cpx ℝ)} {P H : Matrix (Fin n) (Fin n) (Cpx ℝ)} (hh : hessenberg eps sqrt abs A = .ok (p, h))
    (hpw : p.WF) (hhw : h.WF) (hP : p.toMB.Is P) (hH : h.toMB.Is H) (hunit : Pᴴ * P = 1) (hsim : M * P = P * H) :
    ∃ (u t : Mat (Cpx ℝ)) (w : Bool) (T : Matrix (Fin n) (Fin n) (Cpx ℝ)),
      qrHessenberg eps tol maxIter sqrt abs sqrtC four half A = .ok ((u, t), w) ∧ t.toMB.Is T ∧
      (w = false → ∃ d : Fin n → ℝ, M.charpoly = ∏ i, (Polynomial.X - Polynomial.C (ofReal (d i))) ∧
        ∑ i, (d i - (T i i).re) ^ 2 ≤ 2 * tol ^ 2) := by
  obtain ⟨u, t, w, U, T, e1, huw, htw, hU, hT, hUU, hMU, hch, -, hw0⟩ :=
    C92_schur_partial hs ha he hw hA tol maxIter sqrtC four half hn hn31 hh hpw hhw hP hH hunit hsim
  refine ⟨u, t, w, T, e1, hT, fun hwf => ?_⟩
  obtain ⟨h1, h2⟩ := hw0 ht0 ht1 hi hwf
  have h2 := h2 hM
  have hTT : Tᴴ = T := by
    have hT' : T = Uᴴ * M * U := by rw [Matrix.mul_assoc, hMU, ← Matrix.mul_assoc, hUU, Matrix.one_mul]
    rw [hT']
    simp only [conjTranspose_mul, conjTranspose_conjTranspose, hM, Matrix.mul_assoc]
  obtain ⟨d, hd, hb⟩ := hermitian_match hTT fun i => (T i i).re
  refine ⟨d, hch.trans hd, hb.trans ?_⟩
  have h3 : ∑ r, ∑ c, norm ((T - diagonal fun i => ofReal (T i i).re) r c) =
      (∑ r : Fin n, ∑ c : Fin n, if c.val < r.val then norm (T r c) else 0) +
      ∑ r : Fin n, ∑ c : Fin n, if r.val < c.val then norm (T r c) else 0 := by
    rw [← Finset.sum_add_distrib]
    refine Finset.sum_congr rfl fun r _ => ?_
    rw [← Finset.sum_add_distrib]
    refine Finset.sum_congr rfl fun c _ => ?_
    rw [Matrix.sub_apply]
    rcases lt_trichotomy c.val r.val with h | h | h
    · rw [diagonal_apply_ne _ (by intro h'; rw [h'] at h; exact lt_irrefl _ h), if_pos h, if_neg (by omega), sub_zero, add_zero]
    · obtain rfl : c = r := Fin.ext h
      rw [diagonal_apply_eq, if_neg (lt_irrefl _), add_zero]
      have h4 : star (T c c) = T c c := congrFun (congrFun hTT c) c
      have h5 := congrArg Cpx.im h4
      rw [star_im] at h5
      have h6 : T c c - ofReal (T c c).re = 0 := by
        ext
        · simp
        · simp
          linarith
      rw [h6, Cpx.norm_zero]
    · rw [diagonal_apply_ne _ (by intro h'; rw [h'] at h; exact lt_irrefl _ h), if_neg (by omega), if_pos h, sub_zero, zero_add]
  rw [h3]
  linarith

/-- C109 is false: with the constants of the code, no warning is printed for a lower triangular matrix with the eigenvalues 0, 1, 0, for
which 0, 1/4, 0 are returned; the vector that is reported for 1/4 is an eigenvector for 1. -/
theorem C109_eigenvalues_false :
    ∃ A u t e x : Mat (Cpx ℚ), A = realMat 3 3 [0, 0, 0, -1 / 2 ^ 54, 1, 0, 0, 0, 0] ∧
      qrHessenberg (1 / 2 ^ 52) (1 / 10 ^ 14) 10000 exSqrt exAbs (fun z => ofReal (exSqrt z.re)) 4 (1 / 2) A = .ok ((u, t), false) ∧
      t = realMat 3 3 [0, 0, 0, -1 / 2 ^ 55, 1 / 4, 0, 0, 0, 0] ∧
      eigenvectorUpper (1 / 2 ^ 52) exSqrt exAbs t = .ok (e, true) ∧ mul u.toMB e.toMB = .ok x ∧
      x = realMat 3 3 [1, 0, 0, 0, 1 / 2, 0, 0, 0, 1] :=
  ⟨_, realMat 3 3 [1, 0, 0, 0, 1 / 2, 0, 0, 0, 1], _, realMat 3 3 [1, 0, 0, 0, 1, 0, 0, 0, 1], _, rfl, by decide +kernel, rfl,
    by decide +kernel, by decide +kernel, rfl⟩

/-- Two matrices treated exactly. -/
example : (do
    let ((u, t), w) ← qrHessenberg (1 / 2 ^ 52) (1 / 10 ^ 14) 10000 exSqrt exAbs (fun z => ofReal (exSqrt z.re)) 4 (1 / 2)
      (realMat 2 2 [1, 12, 0, 10])
    let (e, fs) ← eigenvectorUpper (1 / 2 ^ 52) exSqrt exAbs t
    let x ← mul u.toMB e.toMB
    return (t, x, w, fs)) = .ok (realMat 2 2 [1, 12, 0, 10], realMat 2 2 [1, 4/5, 0, 3/5], false, true) := by decide +kernel
example : (do
    let ((u, t), w) ← qrHessenberg (1 / 2 ^ 52) (1 / 10 ^ 14) 10000 exSqrt exAbs (fun z => ofReal (exSqrt z.re)) 4 (1 / 2)
      (realMat 2 2 [17, -12, -12, 10])
    let (e, fs) ← eigenvectorUpper (1 / 2 ^ 52) exSqrt exAbs t
    let x ← mul u.toMB e.toMB
    return (t, x, w, fs)) = .ok (realMat 2 2 [26, 0, 0, 1], realMat 2 2 [4/5, 3/5, -3/5, 4/5], false, true) := by decide +kernel

end Malg
