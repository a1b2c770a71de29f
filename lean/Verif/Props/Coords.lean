import Verif.Props.Laws
import Verif.Props.Acker
import Verif.Props.Qr
import Verif.Props.ExpmBound
/-!
# Property C150: a change of coordinates of the state
-/
namespace Malg
open Ops Lin Control Polynomial
open scoped Matrix

section
variable {K : Type} {n m p : Nat}

theorem conj_pow [CommRing K] {M S S' : Matrix (Fin n) (Fin n) K} (h : S' * S = 1) (h' : S * S' = 1) (k : Nat) : (S * M * S') ^ k = S * M ^ k * S' := by
  induction k with
  | zero => rw [pow_zero, pow_zero, Matrix.mul_one, h']
  | succ k ih =>
    rw [pow_succ, ih, pow_succ]
    calc S * M ^ k * S' * (S * M * S') = S * M ^ k * (S' * S) * M * S' := by simp only [Matrix.mul_assoc]
      _ = S * (M ^ k * M) * S' := by rw [h, Matrix.mul_one]; simp only [Matrix.mul_assoc]

theorem conj_pow_mul [CommRing K] {M S S' : Matrix (Fin n) (Fin n) K} (h : S' * S = 1) (h' : S * S' = 1) (k : Nat) (N : Matrix (Fin n) (Fin m) K) :
    (S * M * S') ^ k * (S * N) = S * (M ^ k * N) := by
  rw [conj_pow h h']
  calc S * M ^ k * S' * (S * N) = S * M ^ k * (S' * S) * N := by simp only [Matrix.mul_assoc]
    _ = S * (M ^ k * N) := by rw [h, Matrix.mul_one, Matrix.mul_assoc]

theorem conj_mul_pow [CommRing K] {M S S' : Matrix (Fin n) (Fin n) K} (h : S' * S = 1) (h' : S * S' = 1) (k : Nat) (N : Matrix (Fin p) (Fin n) K) :
    N * S' * (S * M * S') ^ k = N * M ^ k * S' := by
  rw [conj_pow h h']
  calc N * S' * (S * M ^ k * S') = N * (S' * S) * M ^ k * S' := by simp only [Matrix.mul_assoc]
    _ = N * M ^ k * S' := by rw [h, Matrix.mul_one]

theorem traj_conj [CommRing K] {A S S' : Matrix (Fin n) (Fin n) K} {B : Matrix (Fin n) (Fin m) K} (h : S' * S = 1) (x0 : Fin n → K) (u : Nat → Fin m → K) (k : Nat) :
    traj (S * A * S') (S * B) (S *ᵥ x0) u k = S *ᵥ traj A B x0 u k := by
  induction k with
  | zero => rfl
  | succ k ih =>
    show (S * A * S') *ᵥ traj (S * A * S') (S * B) (S *ᵥ x0) u k + (S * B) *ᵥ u k = S *ᵥ (A *ᵥ traj A B x0 u k + B *ᵥ u k)
    rw [ih, Matrix.mulVec_mulVec, Matrix.mul_assoc, h, Matrix.mul_one, ← Matrix.mulVec_mulVec, ← Matrix.mulVec_mulVec, Matrix.mulVec_add]

/-- C150: if the state is written in other coordinates, `x' = S x`, with `A' = S A S⁻¹`, `B' = S B`, `C' = C S⁻¹` and `D' = D`, a simulation computes the same times and
outputs, and the states in the new coordinates. -/
theorem C150_simulate [CommRing K] [CDiv K] {toSize : K → Res Nat} {sys sys' : DiscreteStateSpace K} {A S S' : Matrix (Fin n) (Fin n) K} {B : Matrix (Fin n) (Fin m) K}
    {C : Matrix (Fin p) (Fin n) K} {D : Matrix (Fin p) (Fin m) K} (hS : S' * S = 1) (h : sys.toStateSpace.Is A B C D)
    (h' : sys'.toStateSpace.Is (S * A * S') (S * B) (C * S') D) (hdt : sys'.sampleTime = sys.sampleTime) (hn : n < allocMax) (hp : p < allocMax) (us : List (Fin m → K)) (x0 : Fin n → K)
    {st q : K} {k : Nat} (hq : cdiv st sys.sampleTime = .ok q) (hk : toSize q = .ok k) :
    ∃ t y, ∃ x : List (Fin n → K), simulate toSize sys (us.map List.ofFn) st (List.ofFn x0) = .ok (t, x.map List.ofFn, y) ∧
      simulate toSize sys' (us.map List.ofFn) st (List.ofFn (S *ᵥ x0)) = .ok (t, x.map fun v => List.ofFn (S *ᵥ v), y) := by
  have e1 := simulate_eq h hn hp us x0 hq hk
  have e2 := simulate_eq h' hn hp us (S *ᵥ x0) (hdt ▸ hq) hk
  rw [hdt] at e2
  refine ⟨vtab (min us.length k + 1) fun i => if i < min us.length k then (i : K) * sys.sampleTime else 0,
    vtab (min us.length k) fun i => List.ofFn (C *ᵥ traj A B x0 (fun j => us.getD j 0) i + D *ᵥ us.getD i 0), (List.range (min us.length k + 1)).map (traj A B x0 fun j => us.getD j 0), e1.trans ?_, e2.trans ?_⟩
  · rw [List.map_map]; rfl
  · rw [List.map_map]
    congr 3
    · exact List.map_congr_left fun i _ => by rw [traj_conj hS]; rfl
    · exact vtab_congr fun i _ => by
        rw [traj_conj hS, Matrix.mulVec_mulVec, Matrix.mul_assoc, hS, Matrix.mul_one]

/-- C150: controllability and observability matrices, and powers. -/
theorem C150_ctrb [CommRing K] {A B C A' B' C' : MB K} {M S S' : Matrix (Fin n) (Fin n) K} {N : Matrix (Fin n) (Fin m) K} {O : Matrix (Fin p) (Fin n) K} (hS : S' * S = 1) (hn : 0 < n)
    (hf : Fits n (n * m)) (hf' : Fits (n * p) n) (hA : A.Is M) (hB : B.Is N) (hC : C.Is O) (hA' : A'.Is (S * M * S')) (hB' : B'.Is (S * N)) (hC' : C'.Is (O * S')) :
    (∃ X : Matrix (Fin n) (Fin (n * m)) K, Yields (ctrb A B) X ∧ Yields (ctrb A' B') (S * X)) ∧ (∃ X : Matrix (Fin (n * p)) (Fin n) K, Yields (obsv A C) X ∧ Yields (obsv A' C') (X * S')) ∧
      ∀ k, ∃ X, Yields (powm A k) X ∧ Yields (powm A' k) (S * X * S') := by
  have hS' : S * S' = 1 := _root_.mul_eq_one_comm.1 hS
  refine ⟨⟨_, C59_ctrb hA hB hn hf, (C59_ctrb hA' hB' hn hf).congr ?_⟩, ⟨blockCol M O n, C89_obsv hA hC hn hf', (C89_obsv hA' hC' hn hf').congr ?_⟩, fun k =>
    ⟨_, C49_powm_partial hA hn k, (C49_powm_partial hA' hn k).congr (conj_pow hS hS' k)⟩⟩
  · funext i j
    unfold blockRow
    rw [conj_pow_mul hS hS']
    rfl
  · funext i j
    unfold blockCol
    rw [conj_mul_pow hS hS']
    rfl
end

section
variable {K R : Type} [Field K] [DecidableEq K] [Field R] [LinearOrder R] [IsStrictOrderedRing R] (abs : AbsoluteValue K R) {tol : R} (ht : tol < 1) {n : Nat}

/-- C150: the characteristic polynomial and the trace do not depend on the coordinates. -/
theorem C150_poly [CharZero K] {A A' : MB K} {M S S' : Matrix (Fin n) (Fin n) K} (hS : S' * S = 1) (hA : A.Is M) (hA' : A'.Is (S * M * S')) :
    polyMat A' = polyMat A ∧ trace A' = trace A := by
  have hS' : S * S' = 1 := _root_.mul_eq_one_comm.1 hS
  constructor
  · obtain ⟨c, h1, h2, h3⟩ := C61_charpoly hA
    obtain ⟨c', h1', h2', h3'⟩ := C61_charpoly hA'
    rw [h1, h1']
    congr 1
    refine polyOf_inj (h2'.trans h2.symm) ?_
    rw [h3, h3']
    rw [Matrix.charpoly_mul_comm, ← Matrix.mul_assoc, hS, Matrix.one_mul]
  · rw [C41_trace_square_partial hA, C41_trace_square_partial hA', Matrix.trace_mul_comm, ← Matrix.mul_assoc, hS, Matrix.one_mul]

include ht in
/-- C150: the determinant, if it is computed correctly (C50). Missing: singular matrices with more than four rows. -/
theorem C150_determinant_partial {A A' : MB K} {M S S' : Matrix (Fin n) (Fin n) K} (hS : S' * S = 1) (hA : A.Is M) (hA' : A'.Is (S * M * S')) (hM : n ≤ 4 ∨ M.det ≠ 0) :
    determinant (isZ abs tol) A' = determinant (isZ abs tol) A := by
  have hd : (S * M * S').det = M.det := by rw [Matrix.det_mul, Matrix.det_mul, mul_right_comm, ← Matrix.det_mul, _root_.mul_eq_one_comm.1 hS, Matrix.det_one, one_mul]
  rw [determinant_right abs ht hA hM, determinant_right abs ht hA' (by rwa [hd]), hd]

omit [DecidableEq K] in
theorem ctrbMatrix_conj {M S S' : Matrix (Fin n) (Fin n) K} {N : Matrix (Fin n) (Fin 1) K} (hS : S' * S = 1) : ctrbMatrix (S * M * S') (S * N) = S * ctrbMatrix M N := by
  funext i j
  unfold ctrbMatrix
  rw [conj_pow_mul hS (_root_.mul_eq_one_comm.1 hS)]
  rfl

include ht in
/-- C150: the gain that `acker` computes belongs to the new coordinates, `G' = G S⁻¹`, so that the feedback is the same. Missing: systems with more than five states
whose inverse controllability matrix has a zero entry, see C52 and C63. -/
theorem C150_acker_partial {A B P A' B' : MB K} {M S S' : Matrix (Fin n) (Fin n) K} {N : Matrix (Fin n) (Fin 1) K} {e : Nat → Nat → K} (hS : S' * S = 1)
    (hA : A.Is M) (hB : B.Is N) (hA' : A'.Is (S * M * S')) (hB' : B'.Is (S * N)) (hP : Rep P 1 n e) (hPe : P.empty = false) (hn : 0 < n) (hka : n + 1 < allocMax)
    (hctrl : (ctrbMatrix M N).det ≠ 0) (hi : n ≤ 5 ∨ ((∀ i j, (ctrbMatrix M N)⁻¹ i j ≠ 0) ∧ ∀ i j, ((ctrbMatrix M N)⁻¹ * S') i j ≠ 0)) :
    ∃ G : Matrix (Fin 1) (Fin n) K, Yields (acker (isZ abs tol) A B P) G ∧ Yields (acker (isZ abs tol) A' B' P) (G * S') := by
  have hS' : S * S' = 1 := _root_.mul_eq_one_comm.1 hS
  have hdS : S.det ≠ 0 := fun h0 => by
    have := congrArg Matrix.det hS'
    rw [Matrix.det_mul, h0, zero_mul, Matrix.det_one] at this
    exact zero_ne_one this
  have hinv : (S * ctrbMatrix M N)⁻¹ = (ctrbMatrix M N)⁻¹ * S' := by
    rw [Matrix.mul_inv_rev, Matrix.inv_eq_right_inv hS']
  have hct' : (ctrbMatrix (S * M * S') (S * N)).det ≠ 0 := by
    rw [ctrbMatrix_conj hS, Matrix.det_mul]
    exact mul_ne_zero hdS hctrl
  have hz : ∀ {x : K}, x ≠ 0 → isZ abs tol x = false := fun hx => by rw [← Bool.not_eq_true, isZ_iff abs ht]; exact hx
  refine ⟨_, acker_exec _ hA hB hP hPe hn (Nat.le_refl n) hka (fun ct _ h => C50_large_partial abs ht h hctrl) (hz hctrl)
    (fun ct _ h => C52_large_partial abs ht h hctrl (hi.imp_right And.left)), ?_⟩
  refine (acker_exec _ hA' hB' hP hPe hn (Nat.le_refl n) hka (fun ct _ h => C50_large_partial abs ht h hct') (hz hct')
    (fun ct _ h => C52_large_partial abs ht h hct' ?_)).congr ?_
  · rw [ctrbMatrix_conj hS, hinv]
    exact hi.imp_right And.right
  · have hp : ackerPoly (S * M * S') (∏ j : Fin n, (X - C (e 0 j))) n = S * ackerPoly M (∏ j : Fin n, (X - C (e 0 j))) n * S' := by
      unfold ackerPoly
      rw [Finset.mul_sum, Finset.sum_mul]
      refine Finset.sum_congr rfl fun i _ => ?_
      rw [conj_pow hS hS', Matrix.mul_smul, Matrix.smul_mul]
    rw [ctrbMatrix_conj hS, hinv, hp]
    generalize ackerPoly M _ n = Q
    generalize (lastRow n : Matrix (Fin 1) (Fin n) K) = L
    generalize (ctrbMatrix M N)⁻¹ = V
    calc L * (V * S') * (S * Q * S') = L * V * (S' * S) * Q * S' := by simp only [Matrix.mul_assoc]
      _ = L * V * Q * S' := by rw [hS, Matrix.mul_one]
end

/-! ## Cases -/

/-- A double integrator, and the same with the sum and the difference of its states as coordinates: the gains for the poles -1 and -2 are `2 3` and `5/2 -1/2`. -/
example : acker (isZ (AbsoluteValue.abs (S := ℚ)) (1/1000000000)) (⟨2, 2, [0, 1, 0, 0]⟩ : Mat ℚ).toMB (⟨2, 1, [0, 1]⟩ : Mat ℚ).toMB
      (⟨1, 2, [-1, -2]⟩ : Mat ℚ).toMB = .ok ⟨1, 2, [2, 3]⟩ ∧
    acker (isZ (AbsoluteValue.abs (S := ℚ)) (1/1000000000)) (⟨2, 2, [1/2, -1/2, 1/2, -1/2]⟩ : Mat ℚ).toMB (⟨2, 1, [1, -1]⟩ : Mat ℚ).toMB
      (⟨1, 2, [-1, -2]⟩ : Mat ℚ).toMB = .ok ⟨1, 2, [5/2, -1/2]⟩ := by decide +kernel

/-- The same outputs in both coordinates. -/
example : simulate floorSize (⟨⟨⟨2, 2, [1, 1/2, 0, 1]⟩, ⟨2, 1, [0, 1/2]⟩, ⟨1, 2, [1, 0]⟩, ⟨1, 1, [0]⟩⟩, 1/2⟩ : DiscreteStateSpace ℚ)
      [[1], [1], [2]] 2 [0, 0] = .ok ([0, 1/2, 1, 0], [[0, 0], [0, 1/2], [1/4, 1], [3/4, 2]], [[0], [0], [1/4]]) ∧
    simulate floorSize (⟨⟨⟨2, 2, [5/4, -1/4, 1/4, 3/4]⟩, ⟨2, 1, [1/2, -1/2]⟩, ⟨1, 2, [1/2, 1/2]⟩, ⟨1, 1, [0]⟩⟩, 1/2⟩ : DiscreteStateSpace ℚ)
      [[1], [1], [2]] 2 [0, 0] = .ok ([0, 1/2, 1, 0], [[0, 0], [1/2, -1/2], [5/4, -3/4], [11/4, -5/4]], [[0], [0], [1/4]]) := by
  decide +kernel

/-- C150 does not hold for `expm`, even without rounding: `A' = S A S⁻¹` with `S = (1 2 / 0 1)`, but the first entries of `expm(A)` and of `S⁻¹ expm(A') S`, which is the first
entry of `expm(A')` here, are different because the norms of `A` and `A'` are. -/
theorem C150_expm_false : ∃ X Y : Mat ℚ, expm (fun x : ℚ => decide (x = 0)) (|·|) (fun x => x) (1/2) (⟨2, 2, [1, 0, 0, 0]⟩ : Mat ℚ).toMB 1 10 = .ok X ∧
    expm (fun x : ℚ => decide (x = 0)) (|·|) (fun x => x) (1/2) (⟨2, 2, [1, -2, 0, 0]⟩ : Mat ℚ).toMB 1 10 = .ok Y ∧
    X.data.getD 0 0 = 65 / 24 ∧ Y.data.getD 0 0 = 3873359651615041 / 1424967069597696 :=
  ⟨⟨2, 2, [65 / 24, 0, 0, 1]⟩, ⟨2, 2, [3873359651615041 / 1424967069597696, -2448392582017345 / 712483534798848, 0, 1]⟩, by decide +kernel, by decide +kernel, rfl, rfl⟩

theorem tail_factor_anti {p q : Nat} (h : p ≤ q) : ((q + 2 : Nat) : ℝ) / (((q + 1).factorial : ℝ) * (q + 1 : Nat)) ≤ ((p + 2 : Nat) : ℝ) / (((p + 1).factorial : ℝ) * (p + 1 : Nat)) := by
  have e : ∀ r : Nat, ((r + 2 : Nat) : ℝ) / (((r + 1).factorial : ℝ) * (r + 1 : Nat)) = (1 + 1 / ((r + 1 : Nat) : ℝ)) * (1 / ((r + 1).factorial : ℝ)) := fun r => by
    have h1 : ((r + 1 : Nat) : ℝ) ≠ 0 := by positivity
    have h2 : ((r + 1).factorial : ℝ) ≠ 0 := by positivity
    field_simp
    push_cast; ring
  rw [e, e]
  have h1 : ((p + 1 : Nat) : ℝ) ≤ (q + 1 : Nat) := by exact_mod_cast Nat.succ_le_succ h
  have h2 : ((p + 1).factorial : ℝ) ≤ (q + 1).factorial := by exact_mod_cast Nat.factorial_le (Nat.succ_le_succ h)
  gcongr

/-- How far `expm` is at most from the exponential of an `n × n` matrix with the largest absolute row sum `x`, whatever the accuracy that is asked for. -/
noncomputable def expmErr (n : Nat) (x : ℝ) : ℝ :=
  x * min 1 x ^ (n * n) * Real.exp x * ((n * n + 2 : Nat) / (((n * n + 1).factorial : ℝ) * (n * n + 1 : Nat)))

/-- C75 with a bound that does not depend on the number of terms. -/
theorem expm_near_rows {isz : ℝ → Bool} (hz : ∀ x, isz x = true ↔ x = 0) {sqrt : ℝ → ℝ} {A : Mat ℝ} {n : Nat} (hn : 0 < n) {e : Nat → Nat → ℝ} (h : A.Holds n n e)
    {accuracy : ℝ} {fuel : Nat} {R : Mat ℝ} (hr : expm isz (|·|) sqrt (1/2) A.toMB accuracy fuel = .ok R) {x : ℝ} (hx : ∀ i, i < n → ∑ j : Fin n, |e i j| ≤ x) :
    ∃ E, R.Holds n n E ∧ ∀ i : Fin n, ∑ j : Fin n, |E i j - (NormedSpace.exp (toM n n e)) i j| ≤ expmErr n x := by
  obtain ⟨t, ht, E, hE, y, ⟨i0, hi0, hy0⟩, _, hb⟩ := C75_error_partial hz hn h hr
  refine ⟨E, hE, fun i => (hb i).trans ?_⟩
  have hyx : y ≤ x := hy0 ▸ hx i0 hi0
  have h0 : 0 ≤ y := hy0 ▸ Finset.sum_nonneg fun j _ => abs_nonneg _
  have hq : n * n ≤ t * (n * n) := Nat.le_mul_of_pos_left _ ht
  have hm : min 1 y ^ (t * (n * n)) ≤ min 1 x ^ (n * n) :=
    (pow_le_pow_of_le_one (le_min zero_le_one h0) (min_le_left _ _) hq).trans (pow_le_pow_left₀ (le_min zero_le_one h0) (min_le_min le_rfl hyx) _)
  have hx0 := h0.trans hyx
  have hm0 : 0 ≤ min 1 x := le_min zero_le_one hx0
  have hm1 : 0 ≤ min 1 y := le_min zero_le_one h0
  have hf := tail_factor_anti hq
  unfold expmErr
  gcongr

section
open scoped Matrix.Norms.Operator

set_option backward.isDefEq.respectTransparency false in
/-- C150, what holds for `expm` over the real numbers: with row sums of at most `x` and `x'` in both coordinates and `s`, `s'` the largest row sums of `S` and its inverse, the results
are the same up to `d(x') + s d(x) s'`, where `d` is the distance `expmErr` from the exponential. -/
theorem C150_expm_partial {isz : ℝ → Bool} (hz : ∀ x, isz x = true ↔ x = 0) {sqrt : ℝ → ℝ} {A A' : Mat ℝ} {n : Nat} (hn : 0 < n) {e e' : Nat → Nat → ℝ} (h : A.Holds n n e)
    (h' : A'.Holds n n e') {S S' : Matrix (Fin n) (Fin n) ℝ} (hS : S' * S = 1) (hc : toM n n e' = S * toM n n e * S') {acc acc' : ℝ} {fuel fuel' : Nat} {R R' : Mat ℝ}
    (hr : expm isz (|·|) sqrt (1/2) A.toMB acc fuel = .ok R) (hr' : expm isz (|·|) sqrt (1/2) A'.toMB acc' fuel' = .ok R') {x x' s s' : ℝ}
    (hx : ∀ i, i < n → ∑ j : Fin n, |e i j| ≤ x) (hx' : ∀ i, i < n → ∑ j : Fin n, |e' i j| ≤ x') (hs : ∀ i, ∑ j, |S i j| ≤ s) (hs' : ∀ i, ∑ j, |S' i j| ≤ s') :
    ∃ E E', R.Holds n n E ∧ R'.Holds n n E' ∧ ∀ i, ∑ j, |toM n n E' i j - (S * toM n n E * S') i j| ≤ expmErr n x' + s * expmErr n x * s' := by
  obtain ⟨E, hE, hb⟩ := expm_near_rows hz hn h hr hx
  obtain ⟨E', hE', hb'⟩ := expm_near_rows hz hn h' hr' hx'
  refine ⟨E, E', hE, hE', fun i => ?_⟩
  have hS' : S * S' = 1 := _root_.mul_eq_one_comm.1 hS
  let U : (Matrix (Fin n) (Fin n) ℝ)ˣ := ⟨S, S', hS', hS⟩
  have hexp : NormedSpace.exp (toM n n e') = S * NormedSpace.exp (toM n n e) * S' := by
    rw [hc]; exact Matrix.exp_units_conj U (toM n n e)
  have nn : ∀ {y : ℝ} {M : Matrix (Fin n) (Fin n) ℝ}, (∀ i, ∑ j, |M i j| ≤ y) → 0 ≤ y := fun {y M} hM => (Finset.sum_nonneg fun j _ => abs_nonneg (M ⟨0, hn⟩ j)).trans (hM ⟨0, hn⟩)
  have b1 : ‖toM n n E - NormedSpace.exp (toM n n e)‖ ≤ expmErr n x := norm_le_of_rows (nn (M := toM n n E - NormedSpace.exp (toM n n e)) hb) hb
  have b2 : ‖toM n n E' - NormedSpace.exp (toM n n e')‖ ≤ expmErr n x' := norm_le_of_rows (nn (M := toM n n E' - NormedSpace.exp (toM n n e')) hb') hb'
  have bs : ‖S‖ ≤ s := norm_le_of_rows (nn hs) hs
  have bs' : ‖S'‖ ≤ s' := norm_le_of_rows (nn hs') hs'
  refine (row_sum_le_norm (toM n n E' - S * toM n n E * S') i).trans ?_
  have e1 : toM n n E' - S * toM n n E * S' = (toM n n E' - NormedSpace.exp (toM n n e')) - S * (toM n n E - NormedSpace.exp (toM n n e)) * S' := by
    rw [hexp, Matrix.mul_sub, Matrix.sub_mul]; abel
  rw [e1]
  refine (norm_sub_le _ _).trans (add_le_add b2 ?_)
  have d0 : 0 ≤ expmErr n x := (norm_nonneg _).trans b1
  exact (norm_mul_le _ _).trans (mul_le_mul ((norm_mul_le _ _).trans (mul_le_mul bs b1 (norm_nonneg _) (nn hs))) bs' (norm_nonneg _) (mul_nonneg (nn hs) d0))
end

/-- The distance from the exponential is at most 0.03 for 2 × 2 matrices with row sums of at most one. -/
example : expmErr 2 1 ≤ 0.03 := by
  unfold expmErr
  have := Real.exp_one_lt_d9
  norm_num [Nat.factorial]
  linarith
end Malg
