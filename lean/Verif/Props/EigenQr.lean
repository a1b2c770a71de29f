import Verif.Lemmas.EigenVec
import Verif.Props.Qr
/-!
# C90 – C93: `hessenberg`, `qr_factorise_givens`, `QRHessenberg`, `eigenvectorUpper`

These functions are modelled with the edits listed in `Verif.Model.EigenQr`. Numbers are elements of an ordered field with an
exact square root `sqrt` and an exact absolute value `abs` of complex numbers; `eps` is any positive number. Conjugate
transposition is written `ᴴ`; `norm z` is the squared absolute value of `z`.
-/
namespace Malg
open Ops Matrix Cpx Eigen

/-- The real square root and the complex absolute value are of the kind assumed here. -/
example : Sqrt Real.sqrt ∧ IsAbs (fun z : Cpx ℝ => Real.sqrt (Eigen.norm z)) :=
  ⟨fun x hx => ⟨Real.sqrt_nonneg x, Real.mul_self_sqrt hx⟩, fun z => ⟨Real.sqrt_nonneg _, Real.mul_self_sqrt (norm_nonneg z)⟩⟩

section
variable {K : Type} [Field K] [LinearOrder K] [IsStrictOrderedRing K] {n : Nat}
variable {eps : K} {sqrt : K → K} {abs : Cpx K → K} (hs : Sqrt sqrt) (ha : IsAbs abs) (he : 0 < eps)
variable {A : Mat (Cpx K)} {M : Matrix (Fin n) (Fin n) (Cpx K)} (hw : A.WF) (hA : A.toMB.Is M)

omit [IsStrictOrderedRing K] in
theorem eq_tab {K : Type} [Field K] [LinearOrder K] {A : Mat (Cpx K)} {M : Matrix (Fin n) (Fin n) (Cpx K)} (hw : A.WF)
    (hA : A.toMB.Is M) : A = Mat.ofFn n n (tab M) := by
  have : Yields (.ok A) M := ⟨A, rfl, hw, hA⟩
  exact Res.ok.inj this.eq

omit [LinearOrder K] [IsStrictOrderedRing K] in
theorem tab_is (hf : Fits n n) (M : Matrix (Fin n) (Fin n) (Cpx K)) : (Mat.ofFn n n (tab M)).WF ∧ (Mat.ofFn n n (tab M)).toMB.Is M :=
  ⟨ofFn_WF hf _, is_iff_rep.2 (ofFn_rep hf _)⟩

/-! ## C90 -/

include hs ha he hw hA in
/-- C90, the part that holds: `hessenberg` returns two matrices; if the entries it returns below the diagonal are not tiny
(`2 eps` or more, the last one may be anything), then `P` is unitary, `A P = P H`, and what remains below the subdiagonal is
negligible – zero for a real matrix, at most `2 eps` per column for a complex one. Missing: tiny entries,
see `C90_unitary_false` and `C90_trace_partial`. -/
theorem C90_hessenberg_partial (hn : 0 < n) (hn31 : n < 2 ^ 31) :
    ∃ (p h : Mat (Cpx K)) (P H : Matrix (Fin n) (Fin n) (Cpx K)),
      hessenberg eps sqrt abs A = .ok (p, h) ∧ p.WF ∧ h.WF ∧ p.toMB.Is P ∧ h.toMB.Is H ∧
      ((∀ k (hk : k + 2 < n), 2 * eps ≤ abs (H ⟨k + 1, by omega⟩ ⟨k, by omega⟩)) →
        Pᴴ * P = 1 ∧ M * P = P * H ∧ (∀ c : Fin n, ∑ r : Fin n, (if r.val ≤ c.val + 1 then 0 else norm (H r c)) ≤ (2 * eps) * (2 * eps)) ∧
        ((∀ r c, (M r c).im = 0) → ∀ r c : Fin n, c.val + 1 < r.val → H r c = 0)) := by
  have hf := hA.fits
  rw [eq_tab hw hA, hessenberg_run he hf hn hn31]
  refine ⟨_, _, _, _, rfl, (tab_is hf _).1, (tab_is hf _).1, (tab_is hf _).2, (tab_is hf _).2, fun hsub => ?_⟩
  have hinv := hessSeq_inv hs ha he M (Nat.le_refl (n - 2)) fun i hi => .inr (by
    refine le_trans ?_ (hessSeq_sub hs ha he M hi (Nat.le_refl _))
    rw [← (ha _).2]
    have h2 := hsub i (by omega)
    have h3 := mul_self_le_mul_self (by linarith) h2
    linarith)
  refine ⟨hinv.unit, hinv.sim, fun c => ?_, fun hr r c hrc => (hinv.real hr).2 r c (by omega) hrc⟩
  by_cases hc : c.val < n - 2
  · have := hinv.small c hc
    calc _ = tailSqC (c.val + 1) (fun r => (hessSeq eps sqrt abs M (n - 2)).2 r c) := rfl
      _ ≤ _ := this
      _ = _ := by ring
  · rw [Finset.sum_eq_zero fun r _ => if_pos (by omega)]
    exact mul_self_nonneg _

include hs ha he hw hA in
/-- C90, a second part that holds: the same conclusions if every pass of the loop finds a column whose part below the diagonal
is zero or at least `2 eps` long. -/
theorem C90_trace_partial (hn : 0 < n) (hn31 : n < 2 ^ 31)
    (hgood : ∀ (k : Nat) (p h : Mat (Cpx K)) (H : Matrix (Fin n) (Fin n) (Cpx K)) (hk : k + 2 < n) (i : Mat (Cpx K)),
      Util.eye n n 1 = .ok i → forRange 0 k (i, A) (hessStep eps sqrt abs n) = .ok (p, h) → h.toMB.Is H →
      (∀ r : Fin n, k < r.val → H r ⟨k, by omega⟩ = 0) ∨
      (2 * eps) * (2 * eps) ≤ ∑ r : Fin n, if r.val ≤ k then 0 else norm (H r ⟨k, by omega⟩)) :
    ∃ (p h : Mat (Cpx K)) (P H : Matrix (Fin n) (Fin n) (Cpx K)),
      hessenberg eps sqrt abs A = .ok (p, h) ∧ p.WF ∧ h.WF ∧ p.toMB.Is P ∧ h.toMB.Is H ∧
      Pᴴ * P = 1 ∧ M * P = P * H ∧ (∀ c : Fin n, ∑ r : Fin n, (if r.val ≤ c.val + 1 then 0 else norm (H r c)) ≤ (2 * eps) * (2 * eps)) ∧
      ((∀ r c, (M r c).im = 0) → ∀ r c : Fin n, c.val + 1 < r.val → H r c = 0) := by
  have hf := hA.fits
  rw [eq_tab hw hA] at hgood ⊢
  rw [hessenberg_run he hf hn hn31]
  refine ⟨_, _, _, _, rfl, (tab_is hf _).1, (tab_is hf _).1, (tab_is hf _).2, (tab_is hf _).2, ?_⟩
  have hinv := hessSeq_inv hs ha he M (Nat.le_refl (n - 2)) fun i hi => by
    rcases hgood i _ _ (hessSeq eps sqrt abs M i).2 (by omega) _ (eye_tab hn hf) (hess_loop he hf M (by omega)) (tab_is hf _).2 with h | h
    · left
      refine Finset.sum_eq_zero fun r _ => ?_
      by_cases hr : r.val ≤ i
      · rw [if_pos hr]
      · rw [if_neg hr]
        dsimp only
        rw [h r (by omega), Cpx.norm_zero]
    · right
      calc _ = (2 * eps) * (2 * eps) := by ring
        _ ≤ _ := h
  refine ⟨hinv.unit, hinv.sim, fun c => ?_, fun hr r c hrc => (hinv.real hr).2 r c (by omega) hrc⟩
  by_cases hc : c.val < n - 2
  · have := hinv.small c hc
    calc _ = tailSqC (c.val + 1) (fun r => (hessSeq eps sqrt abs M (n - 2)).2 r c) := rfl
      _ ≤ _ := this
      _ = _ := by ring
  · rw [Finset.sum_eq_zero fun r _ => if_pos (by omega)]
    exact mul_self_nonneg _

include hs ha he in
theorem hessSeq_upper (hM : ∀ r c : Fin n, c.val < r.val → M r c = 0) {k : Nat} (hk : k ≤ n - 2) : hessSeq eps sqrt abs M k = (1, M) := by
  induction k with
  | zero => rfl
  | succ k ih =>
    obtain ⟨v, hp, e⟩ := hessSeq_succ hs ha he M (show k + 2 < n by omega)
    rw [e, ih (by omega), hp.zero ?_, house_zero, Matrix.mul_one, Matrix.mul_one, Matrix.one_mul]
    rw [ih (by omega)]
    refine Finset.sum_eq_zero fun r _ => ?_
    by_cases hr : r.val ≤ k
    · rw [if_pos hr]
    · rw [if_neg hr]
      dsimp only
      rw [hM r _ (by simp only; omega), Cpx.norm_zero]

include hs ha he hw hA in
/-- C90: a matrix that is upper triangular, or has at most two rows, is returned unchanged, with `P` the identity. -/
theorem C90_fixed (hn : 0 < n) (hn31 : n < 2 ^ 31) (h : (∀ r c : Fin n, c.val < r.val → M r c = 0) ∨ n ≤ 2) :
    ∃ p, hessenberg eps sqrt abs A = .ok (p, A) ∧ p.WF ∧ p.toMB.Is (1 : Matrix (Fin n) (Fin n) (Cpx K)) := by
  have hf := hA.fits
  rw [eq_tab hw hA, hessenberg_run he hf hn hn31]
  refine ⟨Mat.ofFn n n (tab 1), ?_, (tab_is hf _).1, (tab_is hf _).2⟩
  rcases h with h | h
  · rw [hessSeq_upper hs ha he h (Nat.le_refl _)]
  · rw [show n - 2 = 0 by omega]
    rfl

end

theorem sqrt_mul_self {K : Type} [Field K] [LinearOrder K] [IsStrictOrderedRing K] {sqrt : K → K} (hs : Sqrt sqrt) {x : K} (hx : 0 ≤ x) :
    sqrt (x * x) = x := by
  obtain ⟨h1, h2⟩ := hs (x * x) (mul_self_nonneg x)
  exact (mul_self_inj h1 hx).1 h2

/-- The matrix of `C90_unitary_false`. -/
def tinyMat {K : Type} [Field K] [LinearOrder K] (eps : K) : Matrix (Fin 3) (Fin 3) (Cpx K) :=
  !![0, 0, 0; ofReal (-eps / 4), 1, 0; 0, 0, 0]

theorem tiny_hess {K : Type} [Field K] [LinearOrder K] [IsStrictOrderedRing K] {sqrt : K → K} {abs : Cpx K → K} {eps : K}
    (hs : Sqrt sqrt) (ha : IsAbs abs) (he : 0 < eps) :
    hessSeq eps sqrt abs (tinyMat eps) 1 = (Matrix.diagonal ![1, ofReal (1 / 2), 1],
      !![0, 0, 0; ofReal (-eps / 8), ofReal (1 / 4), 0; 0, 0, 0]) := by
  have habs : abs (ofReal (-eps / 4)) = eps / 4 := by
    obtain ⟨h1, h2⟩ := ha (ofReal (-eps / 4))
    refine (mul_self_inj h1 (by linarith)).1 ?_
    rw [h2, norm_ofReal]
    ring
  have hq : tailSqC 0 (fun r => tinyMat eps r 0) = eps / 4 * (eps / 4) := by
    simp only [tailSqC, Fin.sum_univ_three, tinyMat]
    simp [norm_ofReal]
    ring
  have hrho : rhoOf eps abs (ofReal (-eps / 4)) = 1 := by
    rw [rhoOf, habs, if_neg (by linarith)]
  have hu : hvec 0 (fun r => tinyMat eps r 0) (1 * ofReal (eps / 4)) = ![0, ofReal (-eps / 2), 0] := by
    funext r
    fin_cases r
    · rfl
    · show ofReal (-eps / 4) - 1 * ofReal (eps / 4) = ofReal (-eps / 2)
      rw [one_mul, ← ofReal_sub]
      congr 1
      ring
    · rfl
  have hl : lenOf eps sqrt (sqC ![0, ofReal (-eps / 2), 0]) = eps := by
    have : sqC ![0, ofReal (-eps / 2), (0 : Cpx K)] = eps / 2 * (eps / 2) := by
      simp only [sqC, Fin.sum_univ_three]
      simp [norm_ofReal]
      ring
    rw [this, lenOf, sqrt_mul_self hs (by linarith), if_pos (by linarith)]
  have hv : (fun r => (![0, ofReal (-eps / 2), 0] : Fin 3 → Cpx K) r / ofReal eps) = ![0, ofReal (-1 / 2), 0] := by
    funext r
    fin_cases r
    · exact zero_div _
    · show ofReal (-eps / 2) / ofReal eps = ofReal (-1 / 2)
      rw [← ofReal_div]
      congr 1
      field_simp
    · exact zero_div _
  have hh : house (![0, ofReal (-1 / 2), 0] : Fin 3 → Cpx K) = Matrix.diagonal ![1, ofReal (1 / 2), 1] := by
    apply Matrix.ext
    intro r c
    rw [house_apply]
    fin_cases r <;> fin_cases c <;> simp [two_eq, star_ofReal]
    rw [← ofReal_mul, ← ofReal_mul, ← ofReal_one, ← ofReal_sub]
    congr 1
    ring
  rw [hessSeq, hessNext, dif_pos (by decide)]
  let u : Fin 3 → Cpx K := hvec 0 (fun r => tinyMat eps r 0)
    (rhoOf eps abs (tinyMat eps 1 0) * ofReal (sqrt (tailSqC 0 fun r => tinyMat eps r 0)))
  let v : Fin 3 → Cpx K := fun r => u r / ofReal (lenOf eps sqrt (sqC u))
  have hu' : u = ![0, ofReal (-eps / 2), 0] := by
    rw [← hu, ← hrho, ← sqrt_mul_self hs (show 0 ≤ eps / 4 by linarith), ← hq]
    rfl
  have hv' : v = ![0, ofReal (-1 / 2), 0] := by
    show (fun r => u r / ofReal (lenOf eps sqrt (sqC u))) = _
    rw [hu', hl, hv]
  show (1 * house v, house v * (tinyMat eps * house v)) = _
  rw [hv', hh, Matrix.one_mul]
  congr 1
  apply Matrix.ext
  intro r c
  rw [Matrix.diagonal_mul, Matrix.mul_diagonal]
  fin_cases r <;> fin_cases c <;> simp [tinyMat, ← ofReal_mul]
  · congr 1
    ring
  · congr 1
    ring

/-- C90 is false: for every `eps` there is a 3×3 matrix for which the returned `P` is not unitary and the returned `H` is not similar
to the matrix: the eigenvalue 1 has become 1/4. -/
theorem C90_unitary_false {K : Type} [Field K] [LinearOrder K] [IsStrictOrderedRing K] {sqrt : K → K} {abs : Cpx K → K} {eps : K}
    (hs : Sqrt sqrt) (ha : IsAbs abs) (he : 0 < eps) {A : Mat (Cpx K)} (hw : A.WF) (hA : A.toMB.Is (tinyMat eps)) :
    ∃ (p h : Mat (Cpx K)) (P H : Matrix (Fin 3) (Fin 3) (Cpx K)),
      hessenberg eps sqrt abs A = .ok (p, h) ∧ p.toMB.Is P ∧ h.toMB.Is H ∧
      Pᴴ * P ≠ 1 ∧ tinyMat eps * P ≠ P * H ∧ (tinyMat eps).trace = 1 ∧ H.trace = ofReal (1 / 4) := by
  have hf := hA.fits
  rw [eq_tab hw hA, hessenberg_run he hf (by decide) (by decide), tiny_hess hs ha he]
  refine ⟨_, _, _, _, rfl, (tab_is hf _).2, (tab_is hf _).2, ?_, ?_, ?_, ?_⟩
  · intro h
    have := congrFun (congrFun h 1) 1
    rw [Matrix.diagonal_conjTranspose, Matrix.diagonal_mul_diagonal] at this
    simp [star_ofReal, ← ofReal_mul] at this
    rw [← ofReal_one, ofReal_inj] at this
    norm_num at this
  · intro h
    have := congrFun (congrFun h 1) 1
    rw [Matrix.diagonal_mul, Matrix.mul_diagonal] at this
    simp [tinyMat, ← ofReal_mul] at this
    rw [ofReal_inj] at this
    norm_num at this
  · simp [Matrix.trace, Fin.sum_univ_three, tinyMat]
  · simp [Matrix.trace, Fin.sum_univ_three]

/-- C90: a matrix without rows is rejected. -/
theorem C90_empty {K : Type} [Field K] [LinearOrder K] (eps : K) (sqrt : K → K) (abs : Cpx K → K) {A : Mat (Cpx K)} (h : A.rows = 0) :
    hessenberg eps sqrt abs A = .throw .invalidArgument := by
  unfold hessenberg
  rw [h]
  rfl

/-- The absolute value of complex numbers with a rational one. -/
def exAbs (z : Cpx ℚ) : ℚ := exSqrt (Eigen.norm z)

/-- A matrix of real numbers as a complex one. -/
def realMat (n m : Nat) (l : List ℚ) : Mat (Cpx ℚ) := ⟨n, m, l.map ofReal⟩

example : hessenberg (1 / 4503599627370496) exSqrt exAbs (realMat 3 3 [1, 2, 3, 7, 1, 0, 24, 0, 2]) =
    .ok (realMat 3 3 [1, 0, 0, 0, -7/25, -24/25, 0, -24/25, 7/25], realMat 3 3 [1, -86/25, -27/25, -25, 1201/625, -168/625, 0, -168/625, 674/625]) := by
  decide +kernel
example : hessenberg (1 / 4) exSqrt exAbs (realMat 3 3 [0, 0, 0, -1/16, 1, 0, 0, 0, 0]) =
    .ok (realMat 3 3 [1, 0, 0, 0, 1/2, 0, 0, 0, 1], realMat 3 3 [0, 0, 0, -1/32, 1/4, 0, 0, 0, 0]) := by decide +kernel
example : hessenberg (1 / 4) exSqrt exAbs (⟨3, 3, [0, 0, 0, ⟨0, 7⟩, 0, 0, ⟨24, 0⟩, 0, 0]⟩ : Mat (Cpx ℚ)) =
    .ok (⟨3, 3, [1, 0, 0, 0, ofReal (-7/25), ⟨0, -24/25⟩, 0, ⟨0, 24/25⟩, ofReal (7/25)]⟩,
      ⟨3, 3, [0, 0, 0, ⟨0, -25⟩, 0, 0, 0, 0, 0]⟩) := by decide +kernel

/-! ## C91 -/

section
variable {K : Type} [Field K] [LinearOrder K] [IsStrictOrderedRing K] {n : Nat}
variable {eps : K} {sqrt : K → K} {abs : Cpx K → K} (hs : Sqrt sqrt) (ha : IsAbs abs) (he : 0 < eps)
variable {A : Mat (Cpx K)} {M : Matrix (Fin n) (Fin n) (Cpx K)} (hw : A.WF) (hA : A.toMB.Is M)

include hs ha he hw hA in
/-- C91: every square matrix is factorised into a unitary `Q` and an `R` with `Q R = A`; if the matrix has no entries below its
subdiagonal, the entries of `R` below the diagonal are smaller than `eps`. -/
theorem C91_givens (hn : 0 < n) :
    ∃ (q r : Mat (Cpx K)) (Q R : Matrix (Fin n) (Fin n) (Cpx K)),
      qrFactoriseGivens eps sqrt abs A = .ok (q, r) ∧ q.WF ∧ r.WF ∧ q.toMB.Is Q ∧ r.toMB.Is R ∧
      Qᴴ * Q = 1 ∧ Q * R = M ∧
      ((∀ i j : Fin n, j.val + 1 < i.val → M i j = 0) → ∀ i j : Fin n, j.val < i.val → abs (R i j) < eps) := by
  have hf := hA.fits
  rw [eq_tab hw hA]
  obtain ⟨Q, R, e, h⟩ := givens_run hs ha he hf hn M
  refine ⟨_, _, Q, R, e, (tab_is hf _).1, (tab_is hf _).1, (tab_is hf _).2, (tab_is hf _).2, h.unit, h.fact, fun hh i j hij => ?_⟩
  have h1 := h.low hh i j i.2 hij
  rw [← (ha _).2] at h1
  by_contra hcon
  have h2 := mul_self_le_mul_self he.le (not_lt.1 hcon)
  exact absurd h1 (not_lt.2 h2)

end

/-- C91: a matrix without rows is rejected. -/
theorem C91_empty {K : Type} [Field K] [LinearOrder K] (eps : K) (sqrt : K → K) (abs : Cpx K → K) {A : Mat (Cpx K)} (h : A.rows = 0) :
    qrFactoriseGivens eps sqrt abs A = .throw .invalidArgument := by
  unfold qrFactoriseGivens
  rw [h]
  rfl

example : qrFactoriseGivens (1 / 4503599627370496) exSqrt exAbs (realMat 2 2 [3, 1, 4, 2]) =
    .ok (realMat 2 2 [3/5, -4/5, 4/5, 3/5], realMat 2 2 [5, 11/5, 0, 2/5]) := by decide +kernel
example : qrFactoriseGivens (1 / 4503599627370496) exSqrt exAbs (⟨2, 2, [⟨0, 3⟩, 1, 4, 0]⟩ : Mat (Cpx ℚ)) =
    .ok (⟨2, 2, [⟨0, 3/5⟩, ofReal (-4/5), ofReal (4/5), ⟨0, -3/5⟩]⟩, ⟨2, 2, [5, ⟨0, -3/5⟩, 0, ofReal (-4/5)]⟩) := by decide +kernel
/-- C91 is about square matrices only: `Q` is rotated in as many rows as `A` has columns, so for this matrix with more rows
than columns it is not unitary and `Q R` is not `A`. -/
theorem C91_tall :
    qrFactoriseGivens (1 / 4503599627370496) exSqrt exAbs (realMat 3 2 [3, 0, 4, 5, 0, 4]) =
      .ok (realMat 3 3 [3/5, -12/25, 16/25, 4/5, 9/25, -12/25, 0, 0, 1], realMat 3 2 [5, 4, 0, 5, 0, 0]) ∧
    Ops.mul (realMat 3 3 [3/5, -12/25, 16/25, 4/5, 9/25, -12/25, 0, 0, 1]).toMB (realMat 3 2 [5, 4, 0, 5, 0, 0]).toMB =
      .ok (realMat 3 2 [3, 0, 4, 5, 0, 0]) := by
  decide +kernel

/-- On a wide matrix `Q` is accessed past its end. -/
example : qrFactoriseGivens (1 / 4503599627370496) exSqrt exAbs (realMat 2 3 [3, 1, 0, 4, 2, 0]) = .ub .oob := by decide +kernel

/-! ## C92 -/

section
variable {K : Type} [Field K] [LinearOrder K] [IsStrictOrderedRing K] {n : Nat}
variable {eps : K} {sqrt : K → K} {abs : Cpx K → K} (hs : Sqrt sqrt) (ha : IsAbs abs) (he : 0 < eps)
variable {A : Mat (Cpx K)} {M : Matrix (Fin n) (Fin n) (Cpx K)} (hw : A.WF) (hA : A.toMB.Is M)

include hs ha he hw hA in
/-- C92: the loop of `QRHessenberg` always ends, and does not spoil what `hessenberg` found: the returned `T` is unitarily similar to `H`,
by the matrix that turns `P` into the returned matrix. If no warning is printed, the part of `T` below the diagonal is no
longer than the tolerance. -/
theorem C92_loop (tol : K) (maxIter : Nat) (sqrtC : Cpx K → Cpx K) (four half : K) (hn : 0 < n) (hn31 : n < 2 ^ 31)
    {p h : Mat (Cpx K)} {P H : Matrix (Fin n) (Fin n) (Cpx K)} (hh : hessenberg eps sqrt abs A = .ok (p, h))
    (hpw : p.WF) (hhw : h.WF) (hP : p.toMB.Is P) (hH : h.toMB.Is H) :
    ∃ (u t : Mat (Cpx K)) (w : Bool) (Q T : Matrix (Fin n) (Fin n) (Cpx K)),
      qrHessenberg eps tol maxIter sqrt abs sqrtC four half A = .ok ((u, t), w) ∧ u.WF ∧ t.WF ∧ u.toMB.Is (P * Q) ∧ t.toMB.Is T ∧
      Qᴴ * Q = 1 ∧ Q * T = H * Q ∧
      (0 ≤ tol → tol < 1 → 1 < maxIter → w = false →
        ∑ r : Fin n, ∑ c : Fin n, (if c.val < r.val then norm (T r c) else 0) ≤ tol * tol) := by
  have hf := hA.fits
  rw [eq_tab hw hA] at hh ⊢
  rw [eq_tab hpw hP, eq_tab hhw hH] at hh
  obtain ⟨Q, T, w, e, h1, h2, h3⟩ := qrHessenberg_run hs ha he tol maxIter sqrtC four half hf hn hn31 M P H hh
  exact ⟨_, _, w, Q, T, e, (tab_is hf _).1, (tab_is hf _).1, (tab_is hf _).2, (tab_is hf _).2, h1, h2, h3⟩

include hs ha he hw hA in
/-- C92, the part that holds: whenever `hessenberg` is right about the matrix (see C90), `QRHessenberg` returns a unitary `U` and a `T`
with `A U = U T`; so `T` has the eigenvalues of the matrix. If no warning is printed, the part of `T` below the diagonal is no
longer than the tolerance; if there is nothing below it, the eigenvalues are the diagonal elements; for a hermitian matrix
the part above the diagonal is equally short. Missing: matrices that `hessenberg` spoils, see `C92_eigenvalues_false`. -/
theorem C92_schur_partial (tol : K) (maxIter : Nat) (sqrtC : Cpx K → Cpx K) (four half : K) (hn : 0 < n) (hn31 : n < 2 ^ 31)
    {p h : Mat (Cpx K)} {P H : Matrix (Fin n) (Fin n) (Cpx K)} (hh : hessenberg eps sqrt abs A = .ok (p, h))
    (hpw : p.WF) (hhw : h.WF) (hP : p.toMB.Is P) (hH : h.toMB.Is H) (hunit : Pᴴ * P = 1) (hsim : M * P = P * H) :
    ∃ (u t : Mat (Cpx K)) (w : Bool) (U T : Matrix (Fin n) (Fin n) (Cpx K)),
      qrHessenberg eps tol maxIter sqrt abs sqrtC four half A = .ok ((u, t), w) ∧ u.WF ∧ t.WF ∧ u.toMB.Is U ∧ t.toMB.Is T ∧
      Uᴴ * U = 1 ∧ M * U = U * T ∧ M.charpoly = T.charpoly ∧
      ((∀ r c : Fin n, c.val < r.val → T r c = 0) → M.charpoly = ∏ i, (Polynomial.X - Polynomial.C (T i i))) ∧
      (0 ≤ tol → tol < 1 → 1 < maxIter → w = false →
        ∑ r : Fin n, ∑ c : Fin n, (if c.val < r.val then norm (T r c) else 0) ≤ tol * tol ∧
        (Mᴴ = M → ∑ r : Fin n, ∑ c : Fin n, (if r.val < c.val then norm (T r c) else 0) ≤ tol * tol)) := by
  obtain ⟨u, t, w, Q, T, e, h1, h2, h3, h4, h5, h6, h7⟩ :=
    C92_loop hs ha he hw hA tol maxIter sqrtC four half hn hn31 hh hpw hhw hP hH
  have hU : (P * Q)ᴴ * (P * Q) = 1 := by
    rw [conjTranspose_mul, Matrix.mul_assoc, ← Matrix.mul_assoc Pᴴ, hunit, Matrix.one_mul, h5]
  have hMU : M * (P * Q) = P * Q * T := by
    rw [← Matrix.mul_assoc, hsim, Matrix.mul_assoc, ← h6, Matrix.mul_assoc]
  have hT : T = (P * Q)ᴴ * M * (P * Q) := by
    rw [Matrix.mul_assoc, hMU, ← Matrix.mul_assoc, hU, Matrix.one_mul]
  have hM : M = P * Q * T * (P * Q)ᴴ := by
    rw [← hMU, Matrix.mul_assoc, mul_eq_one_comm.1 hU, Matrix.mul_one]
  have hch : M.charpoly = T.charpoly := by
    rw [hM, Matrix.charpoly_mul_comm, ← Matrix.mul_assoc, hU, Matrix.one_mul]
  refine ⟨u, t, w, P * Q, T, e, h1, h2, h3, h4, hU, hMU, hch, fun hlow => ?_, fun a b c d => ⟨h7 a b c d, fun hherm => ?_⟩⟩
  · rw [hch]
    exact Matrix.charpoly_of_isUpperTriangular T fun i j hij => hlow i j hij
  · have hTT : Tᴴ = T := by
      rw [hT]
      simp only [conjTranspose_mul, conjTranspose_conjTranspose, hherm, Matrix.mul_assoc]
    refine le_trans (le_of_eq ?_) (h7 a b c d)
    rw [Finset.sum_comm]
    refine Finset.sum_congr rfl fun r _ => Finset.sum_congr rfl fun c _ => ?_
    have : T c r = star (T r c) := by
      conv_lhs => rw [← hTT]
      rfl
    rw [this, norm_star]

include hs ha he hw hA in
/-- C92: no condition is needed for matrices that are upper triangular or have at most two rows. -/
theorem C92_small (tol : K) (maxIter : Nat) (sqrtC : Cpx K → Cpx K) (four half : K) (hn : 0 < n) (hn31 : n < 2 ^ 31)
    (hM : (∀ r c : Fin n, c.val < r.val → M r c = 0) ∨ n ≤ 2) :
    ∃ (u t : Mat (Cpx K)) (w : Bool) (U T : Matrix (Fin n) (Fin n) (Cpx K)),
      qrHessenberg eps tol maxIter sqrt abs sqrtC four half A = .ok ((u, t), w) ∧ u.WF ∧ t.WF ∧ u.toMB.Is U ∧ t.toMB.Is T ∧
      Uᴴ * U = 1 ∧ M * U = U * T ∧ M.charpoly = T.charpoly := by
  obtain ⟨p, e, hp, hp1⟩ := C90_fixed hs ha he hw hA hn hn31 hM
  obtain ⟨u, t, w, U, T, e, h1, h2, h3, h4, h5, h6, h7, -⟩ := C92_schur_partial hs ha he hw hA tol maxIter sqrtC four half hn hn31 e
    hp hw hp1 hA (by rw [conjTranspose_one, Matrix.one_mul]) (by rw [Matrix.mul_one, Matrix.one_mul])
  exact ⟨u, t, w, U, T, e, h1, h2, h3, h4, h5, h6, h7⟩

end

/-- C92 is false: for every `eps`, every tolerance and every number of passes there is a 3×3 matrix with eigenvalues 1, 0, 0 for which the
returned `T` has the trace 1/4; it does not have the eigenvalues of the matrix. -/
theorem C92_eigenvalues_false {K : Type} [Field K] [LinearOrder K] [IsStrictOrderedRing K] {sqrt : K → K} {abs : Cpx K → K} {eps : K}
    (hs : Sqrt sqrt) (ha : IsAbs abs) (he : 0 < eps) {A : Mat (Cpx K)} (hw : A.WF) (hA : A.toMB.Is (tinyMat eps))
    (tol : K) (maxIter : Nat) (sqrtC : Cpx K → Cpx K) (four half : K) :
    ∃ (u t : Mat (Cpx K)) (w : Bool) (T : Matrix (Fin 3) (Fin 3) (Cpx K)),
      qrHessenberg eps tol maxIter sqrt abs sqrtC four half A = .ok ((u, t), w) ∧ t.toMB.Is T ∧
      T.trace = ofReal (1 / 4) ∧ (tinyMat eps).trace = 1 ∧ (tinyMat eps).charpoly ≠ T.charpoly := by
  have hf := hA.fits
  obtain ⟨p, h, P, H, e, hP, hH, -, -, h1, h2⟩ := C90_unitary_false hs ha he hw hA
  obtain ⟨p', h', P', H', e', hpw, hhw, -, -, -⟩ := C90_hessenberg_partial hs ha he hw hA (by decide) (by decide)
  rw [e] at e'
  cases e'
  obtain ⟨u, t, w, Q, T, e2, -, -, -, ht, hu, hq, -⟩ :=
    C92_loop hs ha he hw hA tol maxIter sqrtC four half (by decide) (by decide) e hpw hhw hP hH
  have htr : T.trace = ofReal (1 / 4) := by
    have hT : T = Qᴴ * (H * Q) := by rw [← hq, ← Matrix.mul_assoc, hu, Matrix.one_mul]
    rw [hT, Matrix.trace_mul_comm, Matrix.mul_assoc, mul_eq_one_comm.1 hu, Matrix.mul_one, h2]
  refine ⟨u, t, w, T, e2, ht, htr, h1, fun hc => ?_⟩
  have h3 := Matrix.trace_eq_neg_charpoly_coeff (tinyMat eps)
  rw [hc, ← Matrix.trace_eq_neg_charpoly_coeff, h1, htr, ← ofReal_one, ofReal_inj] at h3
  norm_num at h3

/-- C92: a matrix without rows is rejected. -/
theorem C92_empty {K : Type} [Field K] [LinearOrder K] (eps tol : K) (maxIter : Nat) (sqrt : K → K) (abs : Cpx K → K)
    (sqrtC : Cpx K → Cpx K) (four half : K) {A : Mat (Cpx K)} (h : A.rows = 0) :
    qrHessenberg eps tol maxIter sqrt abs sqrtC four half A = .throw .invalidArgument := by
  unfold qrHessenberg
  rw [h, show intDim 0 = .ok 0 from rfl, Res.ok_bind, Mat.new_eq (by unfold Fits; rw [allocMax_eq, W_eq]; decide), Res.ok_bind]
  rfl

example : qrHessenberg (1 / 4503599627370496) (1 / 100000000000000) 10000 exSqrt exAbs (fun z => ofReal (exSqrt z.re)) 4 (1 / 2)
    (realMat 2 2 [17, -12, -12, 10]) =
    .ok ((realMat 2 2 [4/5, 3/5, -3/5, 4/5], realMat 2 2 [26, 0, 0, 1]), false) := by decide +kernel

/-! ## C93 -/

section
variable {K : Type} [Field K] [LinearOrder K] [IsStrictOrderedRing K] {n : Nat}
variable {eps : K} {sqrt : K → K} {abs : Cpx K → K} (hs : Sqrt sqrt) (ha : IsAbs abs) (he : 0 < eps)
variable {A : Mat (Cpx K)} {M : Matrix (Fin n) (Fin n) (Cpx K)} (hw : A.WF) (hA : A.toMB.Is M)

/-- What a successful column says about the matrix. -/
theorem col_ok (he : 0 < eps) (ha : IsAbs abs) (hM : ∀ r c : Fin n, c.val < r.val → M r c = 0) {e : Nat → Nat → Cpx K} {L : Fin n}
    (h : ColOk n eps abs (tab M) e L) :
    (∀ r : Fin n, L.val < r.val → e r L = 0) ∧ e L L ≠ 0 ∧ ∑ r : Fin n, norm (e r L) = 1 ∧
    (∀ r : Fin n, abs ((M *ᵥ fun j => e j L) r - M L L * e r L) ≤ eps) ∧
    ((∀ r : Fin n, r.val < L.val → abs (M r r - M L L) < eps → ∀ w, BackInv eps abs (tab M) L 0 w true → backRhs (tab M) L w r = 0) →
      (M *ᵥ fun j => e j L) = M L L • fun r : Fin n => e r L) := by
  obtain ⟨w, len, hb, l0, ll, hcol⟩ := h
  have hl' : (ofReal len : Cpx K) ≠ 0 := ofReal_ne_zero.2 l0.ne'
  have hS := sum_pos_of L.2 hb.one
  rw [← ll] at hS
  have hres : ∀ r : Fin n, (M *ᵥ fun j => e j L) r - M L L * e r L =
      (if r.val < L.val ∧ abs (M r r - M L L) < eps then -backRhs (tab M) L w r else 0) / ofReal len := by
    intro r
    rw [← row_defect hM hb r]
    have h1 : (fun j : Fin n => e j L) = (ofReal len)⁻¹ • fun j : Fin n => w j := by
      funext j
      rw [hcol j j.2, Pi.smul_apply, smul_eq_mul, div_eq_mul_inv, mul_comm]
    rw [h1, Matrix.mulVec_smul, Pi.smul_apply, smul_eq_mul, hcol r r.2]
    field_simp
  refine ⟨fun r hr => ?_, ?_, ?_, fun r => ?_, fun h0 => ?_⟩
  · rw [hcol r r.2, hb.below r hr, zero_div]
  · rw [hcol L L.2, hb.one]
    exact div_ne_zero one_ne_zero hl'
  · have h1 : ∀ r : Fin n, norm (e r L) = norm (w r) / (len * len) := fun r => by
      rw [hcol r r.2, eq_div_iff (mul_pos l0 l0).ne', ← norm_ofReal, ← norm_mul, div_mul_cancel₀ _ hl']
    rw [Finset.sum_congr rfl fun r _ => h1 r, ← Finset.sum_div, ll, sum_range_fin]
    rw [div_self]
    rw [sum_range_fin] at ll
    rw [← ll]
    exact (mul_pos l0 l0).ne'
  · rw [hres]
    refine le_of_mul_self he.le ?_
    rw [(ha _).2]
    split
    · rename_i hc
      have h1 := hb.flag.1 rfl r (Nat.zero_le _) hc.1 (by rw [tab_lt M r.2 r.2, tab_lt M L.2 L.2]; exact hc.2)
      have h2 := mul_self_le_mul_self (ha _).1 (not_lt.1 h1)
      rw [(ha _).2] at h2
      have h3 : norm (-backRhs (tab M) L w r / ofReal len) * (len * len) = norm (backRhs (tab M) L w r) := by
        rw [← norm_ofReal, ← norm_mul, div_mul_cancel₀ _ hl', norm_neg]
      have h4 : norm (-backRhs (tab M) L w r / ofReal len) ≤ norm (backRhs (tab M) L w r) := by
        rw [← h3]
        exact le_mul_of_one_le_right (norm_nonneg _) hS
      exact h4.trans h2
    · rw [zero_div, Cpx.norm_zero]
      exact mul_self_nonneg _
  · funext r
    have h1 := hres r
    rw [Pi.smul_apply, smul_eq_mul]
    refine sub_eq_zero.1 ?_
    rw [h1]
    split
    · rename_i hc
      rw [h0 r hc.1 hc.2 w hb, neg_zero, zero_div]
    · exact zero_div _

include hs ha he hw hA in
/-- C93, the part that holds for every upper triangular matrix: each column of the result is zero or a unit vector, which is an
eigenvector up to an error of `eps` in every entry, and exactly if no eigenvalue before it is within `eps`; the flag tells
whether there are zero columns. Missing: repeated eigenvalues, where a column that is no eigenvector can pass for one
(`C93_repeated_false`). -/
theorem C93_columns_partial (hn31 : n < 2 ^ 31) (hM : ∀ r c : Fin n, c.val < r.val → M r c = 0) :
    ∃ (e : Mat (Cpx K)) (fs : Bool) (E : Matrix (Fin n) (Fin n) (Cpx K)),
      eigenvectorUpper eps sqrt abs A = .ok (e, fs) ∧ e.WF ∧ e.toMB.Is E ∧
      (fs = true ↔ ∀ c, ∃ r, E r c ≠ 0) ∧
      ∀ c, (∃ r, E r c ≠ 0) →
        (∀ r, c.val < r.val → E r c = 0) ∧ ∑ r, norm (E r c) = 1 ∧
        (∀ r, abs ((M *ᵥ fun j => E j c) r - M c c * E r c) ≤ eps) ∧
        ((∀ r, r.val < c.val → eps ≤ abs (M r r - M c c)) → (M *ᵥ fun j => E j c) = M c c • fun r => E r c) := by
  have hf := hA.fits
  rw [eq_tab hw hA]
  obtain ⟨e, fs, e1, h⟩ := eigenvectorUpper_run hs ha he hf hn31 (tab M)
  have hbad : ∀ c : Fin n, ColBad n eps abs (tab M) e c → ¬ ∃ r : Fin n, e r c ≠ 0 := by
    rintro c hb ⟨r, hr⟩
    exact hr (hb.2 r r.2)
  have hok : ∀ c : Fin n, ColOk n eps abs (tab M) e c → ∃ r : Fin n, e r c ≠ 0 := fun c hc =>
    ⟨c, (col_ok he ha hM hc).2.1⟩
  refine ⟨_, fs, toM n n e, e1, ofFn_WF hf _, ⟨_, ofFn_rep hf _, rfl⟩, ?_, fun c hc => ?_⟩
  · rcases h with ⟨rfl, h⟩ | ⟨rfl, h, c, hc, hb⟩
    · exact ⟨fun _ c => hok c (h c c.2), fun _ => rfl⟩
    · exact ⟨fun h => (Bool.noConfusion h), fun h' => absurd (h' ⟨c, hc⟩) (hbad ⟨c, hc⟩ hb)⟩
  · have hco : ColOk n eps abs (tab M) e c := by
      rcases h with ⟨rfl, h⟩ | ⟨rfl, h, -⟩
      · exact h c c.2
      · exact (h c c.2).resolve_right fun hb => hbad c hb hc
    obtain ⟨h1, h2, h3, h4, h5⟩ := col_ok he ha hM hco
    exact ⟨h1, h3, h4, fun hg => h5 fun r hr hn => absurd (hg r hr) (not_le.2 hn)⟩

theorem all_ok_conclusion (he : 0 < eps) (ha : IsAbs abs) (hM : ∀ r c : Fin n, c.val < r.val → M r c = 0) {e : Nat → Nat → Cpx K}
    (h : ∀ c, c < n → ColOk n eps abs (tab M) e c)
    (h0 : ∀ L r : Fin n, r.val < L.val → abs (M r r - M L L) < eps → ∀ w, BackInv eps abs (tab M) L 0 w true → backRhs (tab M) L w r = 0) :
    M * toM n n e = toM n n e * Matrix.diagonal (fun i => M i i) ∧ (toM n n e).det ≠ 0 ∧ ∀ c, ∑ r, norm (toM n n e r c) = 1 := by
  refine ⟨?_, ?_, fun c => (col_ok he ha hM (h c c.2)).2.2.1⟩
  · apply Matrix.ext
    intro r c
    have := congrFun ((col_ok he ha hM (h c c.2)).2.2.2.2 (h0 c)) r
    rw [Matrix.mul_diagonal, mul_comm]
    exact this
  · have hup : (toM n n e).IsUpperTriangular := fun (r c : Fin n) hrc => (col_ok he ha hM (h c c.2)).1 r hrc
    rw [Matrix.det_of_isUpperTriangular hup]
    exact Finset.prod_ne_zero_iff.2 fun c _ => (col_ok he ha hM (h c c.2)).2.1

include hs ha he hw hA in
/-- C93, the part that holds for separated eigenvalues: the columns are a basis of exact unit eigenvectors, and the flag is `true`. -/
theorem C93_distinct_partial (hn31 : n < 2 ^ 31) (hM : ∀ r c : Fin n, c.val < r.val → M r c = 0)
    (hg : ∀ r c, r ≠ c → eps ≤ abs (M r r - M c c)) :
    ∃ (e : Mat (Cpx K)) (E : Matrix (Fin n) (Fin n) (Cpx K)),
      eigenvectorUpper eps sqrt abs A = .ok (e, true) ∧ e.WF ∧ e.toMB.Is E ∧
      M * E = E * Matrix.diagonal (fun i => M i i) ∧ E.det ≠ 0 ∧ ∀ c, ∑ r, norm (E r c) = 1 := by
  have hf := hA.fits
  rw [eq_tab hw hA]
  obtain ⟨e, fs, e1, h⟩ := eigenvectorUpper_run hs ha he hf hn31 (tab M)
  have hfar : ∀ L r : Fin n, r.val < L.val → ¬ abs (M r r - M L L) < eps := fun L r hr =>
    not_lt.2 (hg r L (by rintro rfl; exact lt_irrefl _ hr))
  rcases h with ⟨rfl, h⟩ | ⟨rfl, -, c, hc, ⟨w, hb⟩, -⟩
  · have := all_ok_conclusion he ha hM h fun L r hr hn => absurd hn (hfar L r hr)
    exact ⟨_, _, e1, ofFn_WF hf _, ⟨_, ofFn_rep hf _, rfl⟩, this⟩
  · refine absurd (hb.flag.2 fun r _ hr hn => ?_) (by simp)
    rw [tab_lt M (show r < n by omega) (show r < n by omega), tab_lt M hc hc] at hn
    exact absurd hn (hfar ⟨c, hc⟩ ⟨r, by omega⟩ hr)

include hs ha he hw hA in
/-- C93, the part that holds for repeated eigenvalues: if the matrix has a basis of eigenvectors at all, and eigenvalues are equal or at
least `eps` apart, then one is found and the flag is `true`. So the warning that there are not enough eigenvectors is never false. -/
theorem C93_complete_partial (hn31 : n < 2 ^ 31) (hM : ∀ r c : Fin n, c.val < r.val → M r c = 0)
    (hg : ∀ r c, M r r = M c c ∨ eps ≤ abs (M r r - M c c))
    {S : Matrix (Fin n) (Fin n) (Cpx K)} {d : Fin n → Cpx K} (hS : M * S = S * Matrix.diagonal d) (hdet : S.det ≠ 0) :
    ∃ (e : Mat (Cpx K)) (E : Matrix (Fin n) (Fin n) (Cpx K)),
      eigenvectorUpper eps sqrt abs A = .ok (e, true) ∧ e.WF ∧ e.toMB.Is E ∧
      M * E = E * Matrix.diagonal (fun i => M i i) ∧ E.det ≠ 0 ∧ ∀ c, ∑ r, norm (E r c) = 1 := by
  have hf := hA.fits
  rw [eq_tab hw hA]
  obtain ⟨e, fs, e1, h⟩ := eigenvectorUpper_run hs ha he hf hn31 (tab M)
  have hS' : S * S⁻¹ = 1 := Matrix.mul_nonsing_inv S (isUnit_iff_ne_zero.2 hdet)
  have hex : ∀ (L r : Fin n), r.val < L.val → abs (M r r - M L L) < eps → ∀ w ok, BackInv eps abs (tab M) L 0 w ok →
      backRhs (tab M) L w r = 0 := fun L r hr hn w ok hb =>
    back_complete hM hS hS' (fun r hn => (hg r L).resolve_right (not_le.2 hn)) hb _ r hr rfl hn
  rcases h with ⟨rfl, h⟩ | ⟨rfl, -, c, hc, ⟨w, hb⟩, -⟩
  · have := all_ok_conclusion he ha hM h fun L r hr hn w hb => hex L r hr hn w true hb
    exact ⟨_, _, e1, ofFn_WF hf _, ⟨_, ofFn_rep hf _, rfl⟩, this⟩
  · refine absurd (hb.flag.2 fun r _ hr hn => ?_) (by simp)
    rw [tab_lt M (show r < n by omega) (show r < n by omega), tab_lt M hc hc] at hn
    rw [hex ⟨c, hc⟩ ⟨r, by omega⟩ hr hn w false hb]
    have h1 := (ha 0).2
    rw [Cpx.norm_zero, mul_self_eq_zero] at h1
    rw [h1]
    exact not_lt.2 he.le

end

/-- C93 is false: for every `eps` the matrix `[[1, eps/2], [0, 1]]` has no basis of eigenvectors, but the flag says that one was found; the
second column is `(0, 1)`, which is no eigenvector. -/
theorem C93_repeated_false {K : Type} [Field K] [LinearOrder K] [IsStrictOrderedRing K] {sqrt : K → K} {abs : Cpx K → K} {eps : K}
    (hs : Sqrt sqrt) (ha : IsAbs abs) (he : 0 < eps) {A : Mat (Cpx K)} (hw : A.WF)
    (hA : A.toMB.Is (!![1, ofReal (eps / 2); 0, 1] : Matrix (Fin 2) (Fin 2) (Cpx K))) :
    (∃ (e : Mat (Cpx K)) (E : Matrix (Fin 2) (Fin 2) (Cpx K)), eigenvectorUpper eps sqrt abs A = .ok (e, true) ∧ e.toMB.Is E ∧
      E 0 1 = 0 ∧ E 1 1 = 1 ∧ (!![1, ofReal (eps / 2); 0, 1] *ᵥ fun j => E j 1) ≠ (1 : Cpx K) • fun j => E j 1) ∧
    ¬ ∃ (S : Matrix (Fin 2) (Fin 2) (Cpx K)) (d : Fin 2 → Cpx K), S.det ≠ 0 ∧
      !![1, ofReal (eps / 2); 0, 1] * S = S * Matrix.diagonal d := by
  have hf := hA.fits
  have h2 : (ofReal (eps / 2) : Cpx K) ≠ 0 := ofReal_ne_zero.2 (by linarith)
  constructor
  · rw [eq_tab hw hA]
    obtain ⟨e, fs, e1, h⟩ := eigenvectorUpper_run hs ha he hf (by decide) (tab (!![1, ofReal (eps / 2); 0, 1] : Matrix (Fin 2) (Fin 2) (Cpx K)))
    generalize hm : tab (!![1, ofReal (eps / 2); 0, 1] : Matrix (Fin 2) (Fin 2) (Cpx K)) = m at e1 h
    have m00 : m 0 0 = 1 := by rw [← hm]; rfl
    have m11 : m 1 1 = 1 := by rw [← hm]; rfl
    have m01 : m 0 1 = ofReal (eps / 2) := by rw [← hm]; rfl
    have a0 : abs 0 = 0 := by
      have h1 := (ha 0).2
      rwa [Cpx.norm_zero, mul_self_eq_zero] at h1
    have hnear : abs (m 0 0 - m 1 1) < eps := by rw [m00, m11, sub_self, a0]; exact he
    have hrhs : ∀ w : Nat → Cpx K, w 1 = 1 → backRhs m 1 w 0 = -ofReal (eps / 2) := by
      intro w h1
      rw [backRhs]
      simp [m01, h1]
    have habs : abs (-ofReal (eps / 2)) = eps / 2 := by
      obtain ⟨h3, h4⟩ := ha (-ofReal (eps / 2))
      refine (mul_self_inj h3 (by linarith)).1 ?_
      rw [h4, norm_neg, norm_ofReal]
    rcases h with ⟨rfl, h⟩ | ⟨rfl, -, c, hc, ⟨w, hb⟩, -⟩
    · obtain ⟨w, len, hb, l0, ll, hcol⟩ := h 1 (by decide)
      have w0 : w 0 = 0 := hb.near 0 (Nat.zero_le _) (by decide) hnear
      have hlen : len = 1 := by
        refine (mul_self_inj l0.le zero_le_one).1 ?_
        rw [ll, Finset.sum_range_succ, Finset.sum_range_one, w0, hb.one, Cpx.norm_zero, Cpx.norm_one, zero_add, mul_one]
      have e01 : e 0 1 = 0 := by rw [hcol 0 (by decide), w0, zero_div]
      have e11 : e 1 1 = 1 := by rw [hcol 1 (by decide), hb.one, hlen, ofReal_one, div_one]
      refine ⟨_, _, e1, ⟨_, ofFn_rep hf _, rfl⟩, e01, e11, fun hcon => ?_⟩
      have h3 := congrFun hcon 0
      simp [Matrix.mulVec, dotProduct, Fin.sum_univ_two, toM_apply, e01, e11] at h3
      exact h2 h3
    · refine absurd (hb.flag.2 fun r _ hr hn => ?_) (by simp)
      obtain rfl : c = 1 := by omega
      obtain rfl : r = 0 := by omega
      rw [hrhs w hb.one, habs]
      linarith
  · rintro ⟨S, d, hdet, hS⟩
    have key : ∀ j, S 1 j = 0 := by
      intro j
      have r0 := congrFun (congrFun hS 0) j
      have r1 := congrFun (congrFun hS 1) j
      rw [Matrix.mul_diagonal] at r0 r1
      simp [Matrix.mul_apply, Fin.sum_univ_two] at r0 r1
      by_contra hj
      have hd : d j = 1 := by
        have := mul_left_cancel₀ hj ((mul_one (S 1 j)).trans r1)
        exact this.symm
      rw [hd, mul_one] at r0
      have h3 : ofReal (eps / 2) * S 1 j = 0 := by
        linear_combination r0
      rcases mul_eq_zero.1 h3 with h4 | h4
      · exact h2 h4
      · exact hj h4
    apply hdet
    rw [Matrix.det_fin_two, key 0, key 1, mul_zero, mul_zero, sub_zero]

example : eigenvectorUpper (1 / 4503599627370496) exSqrt exAbs (realMat 2 2 [1, 3/4, 0, 2]) =
    .ok (realMat 2 2 [1, 3/5, 0, 4/5], true) := by decide +kernel
example : eigenvectorUpper (1 / 4503599627370496) exSqrt exAbs (realMat 2 2 [1, 1, 0, 1]) =
    .ok (realMat 2 2 [1, 0, 0, 0], false) := by decide +kernel
example : eigenvectorUpper (1 / 4) exSqrt exAbs (realMat 2 2 [1, 1/8, 0, 1]) = .ok (realMat 2 2 [1, 0, 0, 1], true) := by decide +kernel

end Malg
