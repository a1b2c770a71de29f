import Verif.Props.FloatDetErr
import Verif.Lemmas.Radix
/-!
# Property C113: accuracy of `inverse` in floating point, up to 4×4
-/
namespace Malg
open Ops Lin

section
variable {T K : Type} [Zero T] [One T] [Add T] [Sub T] [Mul T] [CDiv T] [Field K] [LinearOrder K] [IsStrictOrderedRing K]

/-- The error of `determinant` up to 4×4, see C86: 2, 5 and 26 roundings relative to the permanent `P` of the absolute values, and an
underflow term; `m` bounds the entries. -/
def detErr (u η m : K) (N : Nat) (P : K) : K :=
  match N with
  | 2 => ((1 + u) ^ 2 - 1) * P + 2 * (1 + u) * η
  | 3 => ((1 + u) ^ 5 - 1) * P + 3 * (1 + u) ^ 4 * (2 * m + 1) * η
  | 4 => ((1 + u) ^ 26 - 1) * P + 24 * (1 + u) ^ 25 * (m ^ 2 + m + 1) * η
  | _ => 0

/-- Quotients of approximate values. -/
theorem quotient_err {x c d D α β : K} (hx : |x - c| ≤ α) (hd : |d - D| ≤ β) (hβ : β < |D|) :
    |x / d - c / D| ≤ (α + |c / D| * β) / (|D| - β) := by
  have hD : 0 < |D| := (abs_nonneg (d - D)).trans_lt (hd.trans_lt hβ)
  have hD0 : D ≠ 0 := abs_pos.1 hD
  have hdl : |D| - β ≤ |d| := by
    have h1 : |D| ≤ |d| + |d - D| := by
      have := abs_sub_abs_le_abs_sub D d
      rw [abs_sub_comm] at this
      linarith
    linarith
  have hpos : 0 < |D| - β := by linarith
  have hd0 : d ≠ 0 := abs_pos.1 (hpos.trans_le hdl)
  have e : x / d - c / D = ((x - c) - c / D * (d - D)) / d := by field_simp; ring
  rw [e, abs_div]
  refine div_le_div₀ (add_nonneg ((abs_nonneg _).trans hx) (mul_nonneg (abs_nonneg _) ((abs_nonneg _).trans hd))) ?_ hpos hdl
  refine (abs_sub _ _).trans (add_le_add hx ?_)
  rw [abs_mul]
  exact mul_le_mul_of_nonneg_left hd (abs_nonneg _)

end

section
variable {K : Type} [Field K] [LinearOrder K] [IsStrictOrderedRing K] [FloorRing K] {p : ℕ} {emin : ℤ} (hp : 1 ≤ p) (he : emin ≤ 0)

include hp he in
theorem determinant_err (isz : Fl K p emin → Bool) {A : MB (Fl K p emin)} {N : Nat} {e : Nat → Nat → Fl K p emin} (h : Rep A N N e)
    (hN : N ≤ 4) {m : K} (hm : ∀ i j, i < N → j < N → |(e i j).val| ≤ m) :
    ∃ d, determinant isz A = .ok d ∧
      |d.val - (toM N N fun i j => (e i j).val).det| ≤
        detErr (2 ^ (-(p : ℤ))) (2 ^ emin / 2) m N (toM N N fun i j => |(e i j).val|).permanent := by
  have R := Fl.rounds K hp emin
  obtain rfl | rfl | rfl | rfl | rfl : N = 0 ∨ N = 1 ∨ N = 2 ∨ N = 3 ∨ N = 4 := by omega
  · refine ⟨_, determinant_closed isz h (by omega), ?_⟩
    rw [show closedDet e 0 = 1 from rfl, (C84_float hp he).1, Matrix.det_isEmpty, sub_self, abs_zero]; exact le_rfl
  · refine ⟨_, determinant_closed isz h (by omega), ?_⟩
    rw [Matrix.det_fin_one, show closedDet e 1 = e 0 0 from rfl]
    show |(e 0 0).val - (e 0 0).val| ≤ _
    rw [sub_self, abs_zero]; exact le_rfl
  · exact C86_two_partial R isz ⟨e, h, rfl⟩
  · exact C86_three_partial R isz ⟨e, h, rfl⟩ fun i j => hm i j i.2 j.2
  · exact C86_four_partial R isz ⟨e, h, rfl⟩ fun i j => hm i j i.2 j.2

include hp he in
theorem one_mul_val (x : Fl K p emin) : (1 * x).val = x.val ∧ (-1 * x).val = -x.val := by
  have h1 := (C84_float (K := K) hp he).1
  have h2 : (-1 : Fl K p emin).val = -1 := by rw [show (-1 : Fl K p emin).val = -(1 : Fl K p emin).val from rfl, h1]
  constructor
  · show rnd p emin ((1 : Fl K p emin).val * x.val) = _
    rw [h1, one_mul]; exact rnd_exact hp x.isFl
  · show rnd p emin ((-1 : Fl K p emin).val * x.val) = _
    rw [h2, neg_one_mul]; exact rnd_exact hp (-x).isFl

include hp he in
/-- `adjoint` up to 5×5: every entry has the error of the determinant of its minor. -/
theorem C113_adjoint_partial (isz : Fl K p emin → Bool) {A : MB (Fl K p emin)} {n : Nat} {M : Matrix (Fin (n + 1)) (Fin (n + 1)) (Fl K p emin)}
    (hA : A.Is M) (hn : n ≤ 4) {m : K} (hm : ∀ i j, |(M i j).val| ≤ m) :
    ∃ M' : Matrix (Fin (n + 1)) (Fin (n + 1)) (Fl K p emin), Yields (adjoint isz A) M' ∧ ∀ i j,
      |(M' i j).val - (M.map Fl.val).adjugate i j| ≤
        detErr (2 ^ (-(p : ℤ))) (2 ^ emin / 2) m n ((M.map (|Fl.val ·|)).submatrix j.succAbove i.succAbove).permanent := by
  obtain ⟨e, h, rfl⟩ := hA
  by_cases h1 : n = 0
  · subst h1
    have : adjoint isz A = .ok (Mat.ofFn 1 1 fun _ _ => 1) := by
      unfold adjoint
      rw [isSquare_eq h.toRepAt, h.cols, beq_self_eq_true, Bool.not_true, if_neg Bool.false_ne_true, if_pos rfl,
        Mat.new_eq h.fits]
    refine ⟨_, Yields.of_eq h.fits this, fun i j => ?_⟩
    obtain rfl : i = j := Fin.ext (by omega)
    rw [Matrix.adjugate_fin_one, Matrix.one_apply_eq]
    show |(1 : Fl K p emin).val - 1| ≤ 0
    rw [(C84_float hp he).1, sub_self, abs_zero]
  have key : ∀ i j, ∃ d, i < n + 1 → j < n + 1 → determinant isz (A.cofactor i j) = .ok d ∧
      |d.val - (toM n n fun r c => (e (skip i r) (skip j c)).val).det| ≤
        detErr (2 ^ (-(p : ℤ))) (2 ^ emin / 2) m n (toM n n fun r c => |(e (skip i r) (skip j c)).val|).permanent := by
    intro i j
    obtain ⟨d, h2, h3⟩ := determinant_err hp he isz (cofactor_rep h.toRepAt (Nat.succ_pos n) i j) (by omega) (m := m)
      (fun r c hr hc => hm ⟨_, skip_lt hr⟩ ⟨_, skip_lt hc⟩)
    exact ⟨d, fun _ _ => ⟨h2, h3⟩⟩
  choose D hD using key
  refine ⟨_, Yields.of_eq h.fits (adjoint_exec h.toRepAt (by omega) fun i j hi hj => (hD i j hi hj).1), fun i j => ?_⟩
  have h2 := (hD j i j.2 i.2).2
  have h3 := adjugate_eq (Nat.succ_pos n) (fun i j => (e i j).val) j.2 i.2
  have hperm : ((toM (n + 1) (n + 1) e).map (|Fl.val ·|)).submatrix j.succAbove i.succAbove =
      toM n n fun r c => |(e (skip j r) (skip i c)).val| := by
    funext r c
    simp only [Matrix.submatrix_apply, Matrix.map_apply, toM_apply]
    rw [skip_succAbove, skip_succAbove]
  rw [hperm]
  rw [show (toM (n + 1) (n + 1) e).map Fl.val = toM (n + 1) (n + 1) fun i j => (e i j).val from rfl]
  rw [show (toM (n + 1) (n + 1) fun i j => (e i j).val).adjugate i j = _ from h3, toM_apply]
  obtain ⟨k1, k2⟩ := one_mul_val hp he (D j i)
  by_cases h4 : (j.1 + i.1) % 2 = 0
  · rw [if_pos h4, Even.neg_one_pow (Nat.even_iff.2 h4), one_mul, k1]
    exact h2
  · rw [if_neg h4, Odd.neg_one_pow (Nat.odd_iff.2 (by omega)), k2, neg_one_mul, ← neg_sub', abs_neg]
    exact h2

include hp he in
/-- `inverse` up to 5×5 when the determinant is known up to `β`. -/
theorem inverse_of_det_err {tol : Fl K p emin} (ht : |tol.val| ≤ 1 / 4) {A : MB (Fl K p emin)} {n : Nat}
    {M : Matrix (Fin (n + 1)) (Fin (n + 1)) (Fl K p emin)} (hA : A.Is M) (hn : n ≤ 4) {m : K} (hm : ∀ i j, |(M i j).val| ≤ m)
    {u η β : K} (hu : u = 2 ^ (-(p : ℤ))) (hη : η = 2 ^ emin / 2) {d : Fl K p emin} (hde : determinant (Feq.approxZero Fl.abs tol) A = .ok d)
    (hdv : |d.val - (M.map Fl.val).det| ≤ β) (hd : β < |(M.map Fl.val).det|) :
    ∃ B : Matrix (Fin (n + 1)) (Fin (n + 1)) (Fl K p emin), Yields (inverse (Feq.approxZero Fl.abs tol) A) B ∧ ∀ i j,
      |(B i j).val - (M.map Fl.val)⁻¹ i j| ≤ u * |(M.map Fl.val)⁻¹ i j| +
        (1 + u) * ((detErr u η m n ((M.map (|Fl.val ·|)).submatrix j.succAbove i.succAbove).permanent + |(M.map Fl.val)⁻¹ i j| * β) /
          (|(M.map Fl.val).det| - β)) + η := by
  subst hu hη
  obtain ⟨M', ha, hav⟩ := C113_adjoint_partial hp he (Feq.approxZero Fl.abs tol) hA hn hm
  obtain ⟨e, h, rfl⟩ := hA
  have h1 : d.val ≠ 0 := by
    intro h0
    rw [h0, zero_sub, abs_neg] at hdv
    exact absurd hdv (not_le.2 hd)
  have hq : ∀ x, cdiv x d = .ok (Fl.of p emin (x.val / d.val)) := fun x => if_neg h1
  have hdq : Divisor d := fun x => by rw [hq x]; unfold quo; rw [hq x]
  refine ⟨_, inverse_exec h.toRepAt hde (by rw [Bool.eq_false_iff]; exact fun hc => h1 ((approxZero_fl hp ht d).1 hc)) hdq ha, fun i j => ?_⟩
  rw [Matrix.map_apply, show quo (M' i j) d = _ by unfold quo; rw [hq]]
  have hinv : ((toM (n + 1) (n + 1) e).map Fl.val)⁻¹ i j =
      ((toM (n + 1) (n + 1) e).map Fl.val).adjugate i j / ((toM (n + 1) (n + 1) e).map Fl.val).det := by
    rw [Matrix.inv_def, Ring.inverse_eq_inv', Matrix.smul_apply, smul_eq_mul, ← div_eq_inv_mul]
  have hq := quotient_err (hav i j) hdv hd
  rw [← hinv] at hq
  show |rnd p emin ((M' i j).val / d.val) - _| ≤ _
  have hr := rnd_err p emin ((M' i j).val / d.val)
  generalize ((toM (n + 1) (n + 1) e).map Fl.val)⁻¹ i j = c at *
  generalize (M' i j).val / d.val = x at *
  generalize (detErr _ _ m n _ + |c| * β) / _ = E at *
  have h2 : |x| ≤ |c| + E := by
    have := abs_sub_abs_le_abs_sub x c
    linarith
  have h3 : (2 : K) ^ (-(p : ℤ)) * |x| ≤ 2 ^ (-(p : ℤ)) * (|c| + E) := mul_le_mul_of_nonneg_left h2 (two_zpow_pos _).le
  have h4 := abs_sub_le (rnd p emin x) x c
  linarith

include hp he in
/-- C113, the part that holds: up to 4×4, if the determinant is larger than the error `determinant` may have (see C86), `inverse` returns a
matrix, and each entry has the error of its minor and its share of the error of the determinant, relative to the determinant, and two
further roundings. Missing: other regular matrices, see `C113_inaccurate_false` and `C86_regular_false`. -/
theorem C113_inverse_partial {tol : Fl K p emin} (ht : |tol.val| ≤ 1 / 4) {A : MB (Fl K p emin)} {n : Nat}
    {M : Matrix (Fin (n + 1)) (Fin (n + 1)) (Fl K p emin)} (hA : A.Is M) (hn : n ≤ 3) {m : K} (hm : ∀ i j, |(M i j).val| ≤ m)
    {u η β : K} (hu : u = 2 ^ (-(p : ℤ))) (hη : η = 2 ^ emin / 2) (hβ : β = detErr u η m (n + 1) (M.map (|Fl.val ·|)).permanent)
    (hd : β < |(M.map Fl.val).det|) :
    ∃ B : Matrix (Fin (n + 1)) (Fin (n + 1)) (Fl K p emin), Yields (inverse (Feq.approxZero Fl.abs tol) A) B ∧ ∀ i j,
      |(B i j).val - (M.map Fl.val)⁻¹ i j| ≤ u * |(M.map Fl.val)⁻¹ i j| +
        (1 + u) * ((detErr u η m n ((M.map (|Fl.val ·|)).submatrix j.succAbove i.succAbove).permanent + |(M.map Fl.val)⁻¹ i j| * β) /
          (|(M.map Fl.val).det| - β)) + η := by
  subst hu hη
  obtain ⟨d, hde, hdv⟩ : ∃ d, determinant (Feq.approxZero Fl.abs tol) A = .ok d ∧ |d.val - (M.map Fl.val).det| ≤ β := by
    obtain ⟨e, h, rfl⟩ := hA
    obtain ⟨d, hde, hdv⟩ := determinant_err hp he (Feq.approxZero Fl.abs tol) h (by omega) (m := m) (fun i j hi hj => hm ⟨i, hi⟩ ⟨j, hj⟩)
    exact ⟨d, hde, by rw [hβ]; exact hdv⟩
  exact inverse_of_det_err hp he ht hA (by omega) hm rfl rfl hde hdv hd

include hp in
/-- C113: the sign of a 2×2 determinant is never reversed. -/
theorem C113_two_sign (isz : Fl K p emin → Bool) {A : MB (Fl K p emin)} {M : Matrix (Fin 2) (Fin 2) (Fl K p emin)} (hA : A.Is M) :
    ∃ d, determinant isz A = .ok d ∧ (0 ≤ (M.map Fl.val).det → 0 ≤ d.val) ∧ ((M.map Fl.val).det ≤ 0 → d.val ≤ 0) := by
  obtain ⟨e, h, rfl⟩ := hA
  refine ⟨_, determinant_closed isz h (by omega), ?_⟩
  rw [Matrix.det_fin_two]
  show (0 ≤ (e 0 0).val * (e 1 1).val - (e 0 1).val * (e 1 0).val →
      0 ≤ rnd p emin (rnd p emin ((e 0 0).val * (e 1 1).val) - rnd p emin ((e 0 1).val * (e 1 0).val))) ∧
    ((e 0 0).val * (e 1 1).val - (e 0 1).val * (e 1 0).val ≤ 0 →
      rnd p emin (rnd p emin ((e 0 0).val * (e 1 1).val) - rnd p emin ((e 0 1).val * (e 1 0).val)) ≤ 0)
  have hz : rnd p emin (0 : K) = 0 := rnd_exact hp (isFl_zero p emin)
  constructor
  · intro h
    have h1 := rnd_mono hp emin (sub_nonneg.1 h)
    have h2 := rnd_mono hp emin (sub_nonneg.2 h1)
    rwa [hz] at h2
  · intro h
    have h1 := rnd_mono hp emin (sub_nonpos.1 h)
    have h2 := rnd_mono hp emin (sub_nonpos.2 h1)
    rwa [hz] at h2

end

/-- C113 is false without the condition: the inverse of this regular matrix is `2^25` times too small. Its determinant is
`2^-78 + 2^-104`, in `double` it is `2^-53`. -/
theorem C113_inaccurate_false :
    ∃ M : Matrix (Fin 2) (Fin 2) ℚ, M = !![1 + 1 / 2 ^ 27, 1 + 1 / 2 ^ 27 + 1 / 2 ^ 52; 1 - 1 / 2 ^ 27 - 1 / 2 ^ 52, 1 - 1 / 2 ^ 27] ∧
    (doubles [M 0 0, M 0 1, M 1 0, M 1 1]).map Fl.val = [M 0 0, M 0 1, M 1 0, M 1 1] ∧ M.det = 1 / 2 ^ 78 + 1 / 2 ^ 104 ∧
    determinant (Feq.approxZero Fl.abs doubleTol) (⟨2, 2, doubles [M 0 0, M 0 1, M 1 0, M 1 1]⟩ : Mat Double).toMB =
      .ok (Fl.of 53 (-1074) (1 / 2 ^ 53)) ∧
    ∃ B : Mat Double, inverse (Feq.approxZero Fl.abs doubleTol) (⟨2, 2, doubles [M 0 0, M 0 1, M 1 0, M 1 1]⟩ : Mat Double).toMB = .ok B ∧
      ∀ x ∈ B.data[0]?, 0 < x.val ∧ 2 ^ 24 * x.val < M⁻¹ 0 0 := by
  refine ⟨_, rfl, by decide +kernel, ?_, by decide +kernel, ⟨2, 2, doubles [2 ^ 53 * (1 - 1 / 2 ^ 27), -2 ^ 53 * (1 + 1 / 2 ^ 27 + 1 / 2 ^ 52),
    -2 ^ 53 * (1 - 1 / 2 ^ 27 - 1 / 2 ^ 52), 2 ^ 53 * (1 + 1 / 2 ^ 27)]⟩, by decide +kernel, ?_⟩
  · rw [Matrix.det_fin_two]; norm_num
  · intro x hx
    have hx' : x = Fl.of 53 (-1074) (2 ^ 53 * (1 - 1 / 2 ^ 27)) := (Option.some.inj hx).symm
    have hv : x.val = 2 ^ 53 * (1 - 1 / 2 ^ 27) := by rw [hx']; decide +kernel
    rw [hv, Matrix.inv_def, Ring.inverse_eq_inv', Matrix.smul_apply, Matrix.adjugate_fin_two, Matrix.det_fin_two]
    norm_num

/-- The condition holds for `[2 1; 1 2]` in `double`. -/
example : detErr (2 ^ (-53 : ℤ)) (2 ^ (-1074 : ℤ) / 2) 2 2 (!![2, 1; 1, 2] : Matrix (Fin 2) (Fin 2) ℚ).permanent <
    |(!![2, 1; 1, 2] : Matrix (Fin 2) (Fin 2) ℚ).det| := by
  rw [permanent_two, Matrix.det_fin_two]
  decide +kernel

end Malg
