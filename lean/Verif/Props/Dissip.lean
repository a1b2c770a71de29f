import Verif.Props.Stable
import Verif.Props.SampleErr
import Verif.Props.IeeeC2d
import Mathlib.LinearAlgebra.Matrix.Gershgorin
import Mathlib.Analysis.Calculus.MeanValue
/-!
# Property C154: systems that lose what they exchange
-/
namespace Malg
open Ops Lin Control Ieee Feq
open scoped Matrix

/-- In every row the diagonal is negative and outweighs the rest by `α`. -/
def Dissipates {n : Nat} (A : Matrix (Fin n) (Fin n) ℝ) (α : ℝ) : Prop := ∀ i, A i i + ∑ j ∈ Finset.univ.erase i, |A i j| ≤ -α

section
open scoped Matrix.Norms.Operator

set_option backward.isDefEq.respectTransparency false in
/-- The exponential of a dissipative matrix is a contraction. -/
theorem exp_dissipates {n : Nat} {A : Matrix (Fin n) (Fin n) ℝ} {α : ℝ} (h : Dissipates A α) {t : ℝ} (ht : 0 ≤ t) (i : Fin n) : ∑ j, |NormedSpace.exp (t • A) i j| ≤ Real.exp (-(α * t)) := by
  have : Nonempty (Fin n) := ⟨i⟩
  let s : ℝ := ∑ i, |A i i|
  have hs : ∀ i, |A i i| ≤ s := fun i => Finset.single_le_sum (f := fun i => |A i i|) (fun _ _ => abs_nonneg _) (Finset.mem_univ i)
  have h1 : ∀ i, ∑ j, |(A + s • (1 : Matrix (Fin n) (Fin n) ℝ)) i j| ≤ s - α := fun i => by
    rw [← Finset.add_sum_erase _ _ (Finset.mem_univ i)]
    have e1 : |(A + s • (1 : Matrix (Fin n) (Fin n) ℝ)) i i| = A i i + s := by
      rw [Matrix.add_apply, Matrix.smul_apply, Matrix.one_apply_eq, smul_eq_mul, mul_one, abs_of_nonneg]
      linarith [neg_abs_le (A i i), hs i]
    have e2 : ∑ j ∈ Finset.univ.erase i, |(A + s • (1 : Matrix (Fin n) (Fin n) ℝ)) i j| = ∑ j ∈ Finset.univ.erase i, |A i j| :=
      Finset.sum_congr rfl fun j hj => by
        rw [Matrix.add_apply, Matrix.smul_apply, Matrix.one_apply_ne (Finset.ne_of_mem_erase hj).symm, smul_zero, add_zero]
    rw [e1, e2]
    linarith [h i]
  have h0 : 0 ≤ s - α := (Finset.sum_nonneg fun _ _ => abs_nonneg _).trans (h1 i)
  have h2 : ‖t • (A + s • (1 : Matrix (Fin n) (Fin n) ℝ))‖ ≤ t * (s - α) := by
    rw [norm_smul, Real.norm_eq_abs, abs_of_nonneg ht]
    exact mul_le_mul_of_nonneg_left (norm_le_of_rows h0 h1) ht
  have h3 : t • A = algebraMap ℝ (Matrix (Fin n) (Fin n) ℝ) (-(s * t)) + t • (A + s • (1 : Matrix (Fin n) (Fin n) ℝ)) := by
    rw [Algebra.algebraMap_eq_smul_one, smul_add, smul_smul, neg_smul, mul_comm t s]
    abel
  have h4 : NormedSpace.exp (t • A) = Real.exp (-(s * t)) • NormedSpace.exp (t • (A + s • (1 : Matrix (Fin n) (Fin n) ℝ))) := by
    rw [h3, NormedSpace.exp_add_of_commute (Algebra.commutes _ _), ← NormedSpace.algebraMap_exp_comm, ← Real.exp_eq_exp_ℝ, Algebra.algebraMap_eq_smul_one, smul_mul_assoc, one_mul]
  refine (row_sum_le_norm _ i).trans ?_
  rw [h4, norm_smul, Real.norm_eq_abs, abs_of_pos (Real.exp_pos _)]
  refine (mul_le_mul_of_nonneg_left ((norm_exp_le' _).trans (Real.exp_le_exp.2 h2)) (Real.exp_pos _).le).trans (le_of_eq ?_)
  rw [← Real.exp_add]
  congr 1
  ring
end

/-- C154 for `expm` without rounding: whenever it returns, the rows of the result are at most `e^(-α dt)`, up to the error of the Taylor sum. -/
theorem C154_expm {isz : ℝ → Bool} (hz : ∀ x, isz x = true ↔ x = 0) {sqrt : ℝ → ℝ} {n : Nat} (hn : 0 < n) {A : Matrix (Fin n) (Fin n) ℝ} {α : ℝ} (h : Dissipates A α) {dt : ℝ} (hdt : 0 ≤ dt) {Z : Mat ℝ}
    (hw : Z.WF) (hZ : Z.toMB.Is (dt • A)) {accuracy : ℝ} {fuel : Nat} {R : Mat ℝ} (hr : expm isz (|·|) sqrt (1/2) Z.toMB accuracy fuel = .ok R) {a : ℝ} (ha : ∀ i, ∑ j, |dt * A i j| ≤ a) :
    ∃ E : Matrix (Fin n) (Fin n) ℝ, R.WF ∧ R.toMB.Is E ∧ ∀ i, ∑ j, |E i j| ≤ Real.exp (-(α * dt)) + expErr n a := by
  obtain ⟨E, h1, h2, h3⟩ := expm_expErr hz hn hw hZ hr ha
  refine ⟨E, h1, h2, fun i => ?_⟩
  have e : ∀ j, |E i j| ≤ |NormedSpace.exp (dt • A) i j| + |E i j - NormedSpace.exp (dt • A) i j| := fun j => by
    have := abs_add_le (NormedSpace.exp (dt • A) i j) (E i j - NormedSpace.exp (dt • A) i j)
    rwa [add_sub_cancel] at this
  refine (Finset.sum_le_sum fun j _ => e j).trans ?_
  rw [Finset.sum_add_distrib]
  exact add_le_add (exp_dissipates h hdt i) (h3 i)

section
variable {n m p : Nat} {sys : StateSpace IDouble} {A : Matrix (Fin n) (Fin n) IDouble} {B : Matrix (Fin n) (Fin m) IDouble} {C : Matrix (Fin p) (Fin n) IDouble} {D : Matrix (Fin p) (Fin m) IDouble}

/-- C154 in `double`: if the system is dissipative and the sample time is such that the error of the exponential does not eat up what is lost in one step, `c2d` gives a contraction, and no simulation of it ever overflows
or leaves the bound `M`, as long as this bound leaves room for the input. -/
theorem C154_ieee (h : sys.Is A B C D) (hn0 : 0 < n) (hn : n ≤ 2 ^ 10) (hm : 0 < m) (hma : m < allocMax) (hp : 0 < p) (hpa : p < allocMax) (hA : ∀ i j, (A i j).Finite) {sqrt : IDouble → IDouble} {accuracy : IDouble} (hacc : accuracy.Finite)
    (hacc1 : |accuracy.val| ≤ 1) {fuel : Nat} (hf : 1076 ≤ fuel) {dt : IDouble} (hdt : dt.Finite) (hdt0 : 0 ≤ rval dt)
    {E : Mat IDouble} (hE : (mulS sys.A.toMB dt >>= fun Z => expm dIsZero Ieee.abs sqrt dhalf Z.toMB accuracy fuel) = .ok E) {V : Matrix (Fin n) (Fin n) IDouble} (hV : Yields (Lin.inverse dIsZero sys.A.toMB) V)
    {α x y ε : ℝ} (hα : Dissipates (A.map rval) α) (hx : ∀ i, ∑ j, |rval (A i j)| * |rval dt| ≤ x) (hy : y = (1 + 1 / 2 ^ 53) * x + n / 2 ^ 1075) (hy7 : y ≤ 700)
    (hε : ∀ k p, (n * n ≤ p ∨ p = 177) → p ≤ 177 → (0 < k → 2 ^ k < 2 * y * (1 + 1 / 2 ^ 40)) → expFlErr n k p y ≤ ε) {q : ℚ} (hq : Real.exp (-(α * rval dt)) + ε ≤ q) (hq1 : q < 1) :
    ∃ (d : DiscreteStateSpace IDouble) (Ad : Matrix (Fin n) (Fin n) IDouble) (Bd : Matrix (Fin n) (Fin m) IDouble),
      c2d dIsZero (fun Z => expm dIsZero Ieee.abs sqrt dhalf Z accuracy fuel) sys dt = .ok d ∧ d.toStateSpace.Is Ad Bd C D ∧ d.sampleTime = dt ∧
      (∀ i, (∀ j, (Ad i j).Finite) ∧ ∑ j, |(Ad i j).val| ≤ q) ∧
      ∀ (toSize : IDouble → Res Nat) (N k : Nat) (r st : IDouble) (_ : cdiv st dt = .ok r) (_ : toSize r = .ok k) (x0 : Nat → IDouble) (w : Nat → Nat → IDouble) (β γ ζ σ M : ℚ)
        (_ : ∀ i j, (Bd i j).Finite) (_ : ∀ i j, (C i j).Finite) (_ : ∀ i j, (D i j).Finite) (_ : ∀ i j, j < m → (w i j).Finite) (_ : ∀ j, j < n → (x0 j).Finite)
        (_ : ∀ k i, ∑ j : Fin m, |(Bd i j).val| * |(w k j).val| ≤ β) (_ : ∀ i, ∑ j, |(C i j).val| ≤ γ) (_ : ∀ k i, ∑ j : Fin m, |(D i j).val| * |(w k j).val| ≤ ζ) (_ : ∀ j, j < n → |(x0 j).val| ≤ M)
        (_ : stepUnder (1 / 2 ^ 53) (1 / 2 ^ 1075) n m ≤ σ) (_ : (1 + 1 / 2 ^ 53) ^ (max n m + 1) * (q * M + β) + σ ≤ M) (_ : M < 2 ^ 1024)
        (_ : (1 + 1 / 2 ^ 53) ^ (max n m + 1) * (γ * M + ζ) + stepUnder (1 / 2 ^ 53) (1 / 2 ^ 1075) n m < 2 ^ 1024),
      ∃ (t : List IDouble) (x y : Nat → Nat → IDouble), simulate toSize d (vtab N fun j => vtab m (w j)) st (vtab n x0) =
          .ok (t, vtab (min N k + 1) fun i => vtab n (x i), vtab (min N k) fun i => vtab p (y i)) ∧
        (∀ i (j : Fin n), (x i j).Finite ∧ |(x i j).val| ≤ M) ∧ ∀ i (j : Fin p), (y i j).Finite := by
  obtain ⟨k, r, Ad, h1, h2, h3, h4, h5, h6, h7⟩ := C128_exponential h.a hn0 hn hA hacc hacc1 hf hdt hE hx hy hy7
  obtain ⟨d, Bd, e1, e2, e3, -⟩ := C128_c2d dIsZero (ex := fun Z => expm dIsZero Ieee.abs sqrt dhalf Z accuracy fuel) h hn0 hm hp (dt := dt) (E := Ad) ⟨E, hE, h1, h2⟩ hV
  have hrow : ∀ i, ∑ j, |(Ad i j).val| ≤ q := fun i => by
    have e : ∀ j, |rval (Ad i j)| ≤ |NormedSpace.exp (rval dt • A.map rval) i j| + |rval (Ad i j) - NormedSpace.exp (rval dt • A.map rval) i j| := fun j => by
      have := abs_add_le (NormedSpace.exp (rval dt • A.map rval) i j) (rval (Ad i j) - NormedSpace.exp (rval dt • A.map rval) i j)
      rwa [add_sub_cancel] at this
    have e' : ∑ j, |rval (Ad i j)| ≤ (q : ℝ) := by
      refine (Finset.sum_le_sum fun j _ => e j).trans ?_
      rw [Finset.sum_add_distrib]
      exact (add_le_add (exp_dissipates hα hdt0 i) ((h7 i).trans (hε k r h4 h5 h6))).trans hq
    unfold rval at e'
    exact_mod_cast e'
  refine ⟨d, Ad, Bd, e1, e2, e3, fun i => ⟨h3 i, hrow i⟩, ?_⟩
  intro toSize N k r st hr hk x0 w β γ ζ σ M fb fc fd fw f0 hb hc hd h0 hσ hM hM1 hy1
  obtain ⟨a, ra, rfl⟩ := e2.a
  obtain ⟨b, rb, rfl⟩ := e2.b
  obtain ⟨c, rc, rfl⟩ := e2.c
  obtain ⟨g, rg, rfl⟩ := e2.d
  have hna : n < allocMax := by rw [allocMax_eq]; exact lt_of_le_of_lt hn (by norm_num)
  have hu : (1 / 2 ^ 53 : ℚ) = 2 ^ (-((53 : ℕ) : ℤ)) := by decide +kernel
  have hη : (1 / 2 ^ 1075 : ℚ) = 2 ^ (-1074 : ℤ) / 2 := by decide +kernel
  rw [hη] at hσ hy1
  obtain ⟨t, x, y, s1, s2, s3⟩ := C151_ieee_partial (K := ℚ) (f := 53) (emin := -1074) (emax := 1024) ra.toRepAt rb.toRepAt rc.toRepAt rg.toRepAt hna hma hpa (by omega) (by omega) (by omega)
    (toSize := toSize) (N := N) (k := k) (r := r) (st := st) (by rw [e3]; exact hr) hk hn0 (x0 := x0) (w := w) (v := fun _ => 1) (q := q) (β := β) (γ := γ) (ζ := ζ) (σ := σ) (M := M) hu hq1
    (fun _ _ => one_pos) (fun i j hi hj => h3 ⟨i, hi⟩ ⟨j, hj⟩) (fun i j hi hj => fb ⟨i, hi⟩ ⟨j, hj⟩) (fun i j hi hj => fc ⟨i, hi⟩ ⟨j, hj⟩) (fun i j hi hj => fd ⟨i, hi⟩ ⟨j, hj⟩) fw f0
    (fun i hi => by
      have := hrow ⟨i, hi⟩
      rw [mul_one]
      simp only [mul_one]
      rw [Finset.sum_range]
      exact this)
    (fun k i hi => by
      rw [mul_one, Finset.sum_range]
      exact hb k ⟨i, hi⟩)
    (fun i hi => by
      simp only [mul_one]
      rw [Finset.sum_range]
      exact hc ⟨i, hi⟩)
    (fun k i hi => by
      rw [Finset.sum_range]
      exact hd k ⟨i, hi⟩)
    (fun j hj => by rw [mul_one]; exact h0 j hj) (fun _ _ => by rw [mul_one]; exact hσ) hM (fun _ _ => by rw [mul_one]; exact hM1) hy1
  refine ⟨t, x, y, s1, fun i j => ⟨(s2 i j).1, ?_⟩, fun i j => (s3 i j).1⟩
  have := (s2 i j).2.1
  rwa [mul_one] at this
end

/-- Two tanks that leak and are connected. -/
def tankA (i j : Nat) : IDouble := dbl (if i = j then -2 else 1)

def tankS : StateSpace IDouble := ⟨Mat.ofFn 2 2 tankA, Mat.ofFn 2 1 fun _ _ => 1, Mat.ofFn 1 2 fun _ _ => 1, Mat.ofFn 1 1 fun _ _ => 0⟩

set_option maxRecDepth 100000 in
theorem tank_exp : (match mulS tankS.A.toMB (dbl (1 / 4)) >>= fun Z => ioscExp Z.toMB with | .ok _ => true | _ => false) = true := by decide +kernel

set_option exponentiation.threshold 3000 in
/-- Sampled four times per second, they lose at least a fifth of the highest level between samples, in `double`. -/
example : ∃ (d : DiscreteStateSpace IDouble) (Ad : Matrix (Fin 2) (Fin 2) IDouble), c2d dIsZero ioscExp tankS (dbl (1 / 4)) = .ok d ∧ d.A.toMB.Is Ad ∧ ∀ i, (∀ j, (Ad i j).Finite) ∧ ∑ j, |(Ad i j).val| ≤ 4 / 5 := by
  have s : ∀ n m, n ≤ 2 → m ≤ 2 → Fits n m := fun n m h1 h2 => fits_small (by omega) (by omega)
  have h : tankS.Is (toM 2 2 tankA) (toM 2 1 fun _ _ => (1 : IDouble)) (toM 1 2 fun _ _ => (1 : IDouble)) (toM 1 1 fun _ _ => (0 : IDouble)) :=
    ⟨⟨_, ofFn_rep (s 2 2 (by omega) (by omega)) _, rfl⟩, ⟨_, ofFn_rep (s 2 1 (by omega) (by omega)) _, rfl⟩, ⟨_, ofFn_rep (s 1 2 (by omega) (by omega)) _, rfl⟩, ⟨_, ofFn_rep (s 1 1 (by omega) (by omega)) _, rfl⟩⟩
  have hinv : Lin.inverse dIsZero tankS.A.toMB = .ok (Mat.ofFn 2 2 fun i j => Ieee.div (adjTable 1 tankA i j) (closedDet tankA 2)) := inverse_table (by norm_num) (by decide +kernel)
  obtain ⟨X, hX⟩ : ∃ X, (mulS tankS.A.toMB (dbl (1 / 4)) >>= fun Z => ioscExp Z.toMB) = .ok X := by
    have := tank_exp
    split at this
    · exact ⟨_, ‹_›⟩
    · cases this
  have hdt : rval (dbl (1 / 4)) = 1 / 4 := by
    rw [rval, show (dbl (1 / 4)).val = 1 / 4 by decide +kernel]; norm_num
  have hv : ∀ i j : Fin 2, rval (toM 2 2 tankA i j) = if i = j then -2 else 1 := fun i j => by
    have : ∀ i j : Fin 2, (toM 2 2 tankA i j).val = if i = j then -2 else 1 := by decide +kernel
    rw [rval, this]
    split <;> norm_num
  have hfin : ∀ i j : Fin 2, (tankA i j).Finite := fun i j => by fin_cases i <;> fin_cases j <;> (show (Ieee.fl _).isSome = true; decide +kernel)
  obtain ⟨y, hy⟩ : ∃ y : ℝ, y = (1 + 1 / 2 ^ 53) * (3 / 4) + (2 : ℕ) / 2 ^ 1075 := ⟨_, rfl⟩
  have hsm : ((2 : ℕ) / 2 ^ 1075 : ℝ) ≤ 1 / 2 ^ 53 := by
    rw [div_le_div_iff₀ (by positivity) (by positivity), show 1075 = 1 + (53 + 1021) by norm_num, pow_add, pow_add, one_mul, Nat.cast_ofNat, pow_one]
    have : (1 : ℝ) ≤ 2 ^ 1021 := one_le_pow₀ (by norm_num)
    generalize (2 : ℝ) ^ 1021 = z at this
    nlinarith
  have hy1 : y ≤ 76 / 100 := by rw [hy]; linarith
  have hy0 : 0 ≤ y := by rw [hy]; positivity
  have hε : ∀ k p, (2 * 2 ≤ p ∨ p = 177) → p ≤ 177 → (0 < k → 2 ^ k < 2 * y * (1 + 1 / 2 ^ 40)) → expFlErr 2 k p y ≤ 1 / 100 := by
    intro k p hp hp1 hk
    have hk0 : k = 0 := by
      by_contra hne
      have h2k := hk (Nat.pos_of_ne_zero hne)
      have : (2 : ℝ) ^ 1 ≤ 2 ^ k := pow_le_pow_right₀ (by norm_num) (Nat.pos_of_ne_zero hne)
      nlinarith
    have hp4 : 4 ≤ p := by omega
    subst hk0
    unfold expFlErr
    have b1 : (((2 + 5) * p + 2 + 4 : Nat) : ℝ) / 2 ^ 52 ≤ 1 / 10 ^ 6 := by
      have : (((2 + 5) * p + 2 + 4 : Nat) : ℝ) ≤ 1245 := by exact_mod_cast (by omega : (2 + 5) * p + 2 + 4 ≤ 1245)
      rw [div_le_div_iff₀ (by positivity) (by positivity)]
      nlinarith
    have b2 : ((1 + 1 / 2 ^ 40) * min 1 y) ^ (p + 1) / (p + 1).factorial ≤ (77 / 100) ^ 5 / 120 := by
      have c1 : (1 + 1 / 2 ^ 40) * min 1 y ≤ 77 / 100 := by
        have := min_le_right 1 y
        nlinarith
      have c0 : 0 ≤ (1 + 1 / 2 ^ 40) * min 1 y := mul_nonneg (by norm_num) (le_min zero_le_one hy0)
      refine div_le_div₀ (by norm_num) ((pow_le_pow_left₀ c0 c1 _).trans (pow_le_pow_of_le_one (by norm_num) (by norm_num) (by omega))) (by norm_num) ?_
      have := Nat.factorial_le (show 5 ≤ p + 1 by omega)
      rw [show Nat.factorial 5 = 120 by decide] at this
      exact_mod_cast this
    have b3 : Real.exp y ≤ 272 / 100 := (Real.exp_le_exp.mpr (hy1.trans (by norm_num : (76 / 100 : ℝ) ≤ 1))).trans (Real.exp_one_lt_d9.le.trans (by norm_num))
    have b4 : y / 2 ^ 53 + (2 : ℕ) / 2 ^ 1075 ≤ 1 / 10 ^ 6 := by
      refine (add_le_add (div_le_div_of_nonneg_right (hy1.trans (by norm_num : (76 / 100 : ℝ) ≤ 1)) (by positivity)) hsm).trans ?_
      norm_num
    refine (mul_le_mul (add_le_add (mul_le_mul_of_nonneg_left (add_le_add b1 b2) (by positivity)) b4) b3 (Real.exp_pos _).le (by positivity)).trans ?_
    norm_num
  have hq : Real.exp (-(1 * rval (dbl (1 / 4)))) + 1 / 100 ≤ (4 / 5 : ℚ) := by
    rw [hdt]
    have e1 := Real.quadratic_le_exp_of_nonneg (x := 1 / 4) (by norm_num)
    have e2 : Real.exp (-(1 * (1 / 4))) ≤ 79 / 100 := by
      rw [Real.exp_neg, inv_le_comm₀ (Real.exp_pos _) (by norm_num), one_mul]
      refine le_trans ?_ e1
      norm_num
    refine (add_le_add_left e2 _).trans ?_
    norm_num
  obtain ⟨d, Ad, Bd, h1, h2, -, h4, -⟩ := C154_ieee (α := 1) (x := 3 / 4) (y := y) (ε := 1 / 100) (q := 4 / 5) h (by norm_num) (by norm_num) (by norm_num) (by rw [allocMax_eq]; norm_num) (by norm_num) (by rw [allocMax_eq]; norm_num)
    hfin (accuracy := dbl (1 / 100000)) (by decide +kernel) (by decide +kernel) (fuel := 1076) le_rfl (dt := dbl (1 / 4)) (by decide +kernel) (by rw [hdt]; norm_num)
    hX (Yields.of_eq (s 2 2 (by omega) (by omega)) hinv)
    (fun i => by
      show rval (toM 2 2 tankA i i) + ∑ j ∈ Finset.univ.erase i, |rval (toM 2 2 tankA i j)| ≤ -1
      simp only [hv]
      revert i
      rw [Fin.forall_fin_two, show (Finset.univ.erase (0 : Fin 2)) = {1} by decide, show (Finset.univ.erase (1 : Fin 2)) = {0} by decide]
      norm_num)
    (fun i => by rw [hdt]; fin_cases i <;> simp [hv, Fin.sum_univ_two] <;> norm_num)
    hy (hy1.trans (by norm_num)) hε hq (by norm_num)
  exact ⟨d, Ad, h1, h2.a, fun i => ⟨(h4 i).1, (h4 i).2⟩⟩


section
open scoped Matrix.Norms.Operator
variable {n : Nat} {A : Matrix (Fin n) (Fin n) ℝ} {α : ℝ}

theorem Dissipates.det_ne (h : Dissipates A α) (hα : 0 < α) : A.det ≠ 0 :=
  det_ne_zero_of_sum_row_lt_diag fun k => by
    have h1 := h k
    have h2 : 0 ≤ ∑ j ∈ Finset.univ.erase k, |A k j| := Finset.sum_nonneg fun _ _ => abs_nonneg _
    simp only [Real.norm_eq_abs]
    rw [abs_of_neg (a := A k k) (by linarith)]
    linarith

set_option backward.isDefEq.respectTransparency false in
/-- What the input adds within the time `t`. -/
theorem Dissipates.integral (h : Dissipates A α) (hα : 0 < α) {t : ℝ} (ht : 0 ≤ t) : ‖A⁻¹ * (NormedSpace.exp (t • A) - 1)‖ ≤ (1 - Real.exp (-(α * t))) / α := by
  have hu : IsUnit A.det := isUnit_iff_ne_zero.2 (h.det_ne hα)
  have hd : ∀ s : ℝ, HasDerivAt (fun s : ℝ => A⁻¹ * (NormedSpace.exp (s • A) - 1)) (NormedSpace.exp (s • A)) s := fun s => by
    have h1 : HasDerivAt (fun s : ℝ => NormedSpace.exp (s • A)) (A * NormedSpace.exp (s • A)) s := hasDerivAt_exp_smul_const' (𝕂 := ℝ) A s
    have h2 := (h1.sub_const 1).const_mul A⁻¹
    rwa [← mul_assoc, Matrix.nonsing_inv_mul _ hu, one_mul] at h2
  have hB : ∀ s : ℝ, HasDerivAt (fun s : ℝ => (1 - Real.exp (-(α * s))) / α) (Real.exp (-(α * s))) s := fun s => by
    have h1 : HasDerivAt (fun s : ℝ => -(α * s)) (-(α * 1)) s := ((hasDerivAt_id s).const_mul α).neg
    have h2 := ((h1.exp).const_sub 1).div_const α
    rwa [mul_one, mul_neg, neg_neg, mul_div_cancel_right₀ _ hα.ne'] at h2
  refine image_norm_le_of_norm_deriv_right_le_deriv_boundary (a := 0) (b := t) (f := fun s : ℝ => A⁻¹ * (NormedSpace.exp (s • A) - 1)) (f' := fun s => NormedSpace.exp (s • A))
    (fun s _ => (hd s).continuousAt.continuousWithinAt) (fun s _ => (hd s).hasDerivWithinAt) (by simp) hB (fun s hs => ?_) ⟨ht, le_rfl⟩
  exact norm_le_of_rows (Real.exp_pos _).le (exp_dissipates h hs.1)

set_option backward.isDefEq.respectTransparency false in
/-- The inverse of a dissipative matrix. -/
theorem Dissipates.inv (h : Dissipates A α) (hα : 0 < α) : ‖A⁻¹‖ ≤ 1 / α := by
  have h1 := h.integral hα zero_le_one
  have h2 : ‖NormedSpace.exp ((1 : ℝ) • A)‖ ≤ Real.exp (-(α * 1)) := norm_le_of_rows (Real.exp_pos _).le (exp_dissipates h zero_le_one)
  have h3 : Real.exp (-(α * 1)) < 1 := by rw [Real.exp_lt_one_iff]; linarith
  generalize Real.exp (-(α * 1)) = φ at h1 h2 h3
  generalize NormedSpace.exp ((1 : ℝ) • A) = E at h1 h2
  have h4 : ‖A⁻¹‖ ≤ (1 - φ) / α + ‖A⁻¹‖ * φ := by
    have e : A⁻¹ = A⁻¹ * E - A⁻¹ * (E - 1) := by rw [mul_sub, mul_one]; abel
    calc ‖A⁻¹‖ = ‖A⁻¹ * E - A⁻¹ * (E - 1)‖ := by rw [← e]
      _ ≤ ‖A⁻¹ * E‖ + ‖A⁻¹ * (E - 1)‖ := norm_sub_le _ _
      _ ≤ ‖A⁻¹‖ * φ + (1 - φ) / α := add_le_add ((norm_mul_le _ _).trans (mul_le_mul_of_nonneg_left h2 (norm_nonneg _))) h1
      _ = _ := add_comm _ _
  rw [le_div_iff₀ hα]
  have h5 : (1 - φ) * (‖A⁻¹‖ * α) ≤ (1 - φ) * 1 := by
    have := mul_le_mul_of_nonneg_right h4 hα.le
    rw [add_mul, div_mul_cancel₀ _ hα.ne'] at this
    linarith
  exact le_of_mul_le_mul_left h5 (by linarith)

set_option backward.isDefEq.respectTransparency false in
/-- The samples of a solution stay below what they start with and what the input can hold. -/
theorem Dissipates.solution {m : Nat} {B : Matrix (Fin n) (Fin m) ℝ} (h : Dissipates A α) (hα : 0 < α) {us : List (Fin m → ℝ)} {dt : ℝ} (hdt : 0 < dt) {x : ℝ → Fin n → ℝ}
    (hx : Solves A B us dt x) {M β : ℝ} (hM : ∀ i, |x 0 i| ≤ M) (hβ : ∀ k i, |(B *ᵥ us.getD k 0) i| ≤ β) (k : Nat) (i : Fin n) : |x (k * dt) i| ≤ max M (β / α) := by
  have β0 : 0 ≤ β := (abs_nonneg _).trans (hβ 0 i)
  have hm0 : 0 ≤ max M (β / α) := le_max_of_le_right (by positivity)
  rw [solves_traj (h.det_ne hα) hdt hx k]
  induction k generalizing i with
  | zero => exact (hM i).trans (le_max_left _ _)
  | succ k ih =>
    rw [traj, Pi.add_apply]
    have h1 := mulVec_bound (exp_dissipates h hdt.le) ih hm0 i
    have h2 := mulVec_bound (M := A⁻¹ * (NormedSpace.exp (dt • A) - 1)) (fun i => (row_sum_le_norm _ i).trans (h.integral hα hdt.le)) (hβ k) β0 i
    rw [Matrix.mulVec_mulVec] at h2
    have h3 : (1 - Real.exp (-(α * dt))) / α * β = (1 - Real.exp (-(α * dt))) * (β / α) := by ring
    have h4 : Real.exp (-(α * dt)) ≤ 1 := by rw [Real.exp_le_one_iff]; nlinarith
    rw [h3] at h2
    have h5 := mul_le_mul_of_nonneg_left (le_max_right M (β / α)) (sub_nonneg.2 h4)
    refine (abs_add_le _ _).trans ((add_le_add h1 (h2.trans h5)).trans (le_of_eq ?_))
    ring
end

/-- C154, the simulation and the system that it simulates: with the accuracy of the library, the discretisation returns, and the states of the simulation stay near those of the system, however long it is simulated:
the bound does not depend on the number of steps. -/
theorem C154_follows {n m p : Nat} {tol : ℝ} (ht : tol < 1) {sys : StateSpace ℝ} {A : Matrix (Fin n) (Fin n) ℝ} {B : Matrix (Fin n) (Fin m) ℝ} {C : Matrix (Fin p) (Fin n) ℝ} {D : Matrix (Fin p) (Fin m) ℝ}
    (h : sys.Is A B C D) (hn : 0 < n) (hm : 0 < m) (hp : 0 < p) (hpa : p < allocMax) {α : ℝ} (hα : 0 < α) (hA : Dissipates A α) (hi : n ≤ 5 ∨ n ≤ 5000 ∧ ∀ i j, A⁻¹ i j ≠ 0) {dt : ℝ} (hdt : 0 < dt) {a : ℝ}
    (ha : ∀ i, ∑ j, |dt * A i j| ≤ a) (h1 : Real.exp (-(α * dt)) + expErr n a < 1) (us : List (Fin m → ℝ)) {x : ℝ → Fin n → ℝ} (hx : Solves A B us dt x) {T : ℝ} (hT : -1 < T / dt) (hW : ⌊T / dt⌋₊ < W)
    {M β : ℝ} (hM : ∀ i, |x 0 i| ≤ M) (hβ : ∀ k i, |(B *ᵥ us.getD k 0) i| ≤ β) :
    ∃ N, ∀ fuel, N ≤ fuel → ∃ d t X Y,
      c2d (isZ AbsoluteValue.abs tol) (fun X => Lin.expm (isZ AbsoluteValue.abs tol) (|·|) Real.sqrt (1/2) X (1/100000) fuel) sys dt = .ok d ∧
      simulate floorSize d (us.map List.ofFn) T (List.ofFn (x 0)) = .ok (t, X, Y) ∧
      X.length = min us.length ⌊T / dt⌋₊ + 1 ∧
      ∀ k, k < X.length → ∃ v : Fin n → ℝ, X[k]? = some (List.ofFn v) ∧
        ∀ i, |x (k * dt) i| ≤ max M (β / α) ∧ |v i - x (k * dt) i| ≤ 2 * expErr n a * max M (β / α) / (1 - (Real.exp (-(α * dt)) + expErr n a)) := by
  have β0 : 0 ≤ β := (abs_nonneg _).trans (hβ 0 ⟨0, hn⟩)
  have hm0 : 0 ≤ max M (β / α) := le_max_of_le_right (by positivity)
  obtain ⟨N, hN⟩ := C117_stable AbsoluteValue.abs ht h hn hm hp hpa hdt (hA.det_ne hα) hi us hx hT hW ha (exp_dissipates hA hdt.le) (fun i => (row_sum_le_norm _ i).trans (hA.inv hα))
    (fun k _ i => hA.solution hα hdt hx hM hβ k i) (fun k _ i => hβ k i) (γ := ∑ i, ∑ j, |C i j|)
    (fun i => Finset.single_le_sum (f := fun i => ∑ j, |C i j|) (fun _ _ => Finset.sum_nonneg fun _ _ => abs_nonneg _) (Finset.mem_univ i)) hm0 β0 h1
  refine ⟨N, fun fuel hf => ?_⟩
  obtain ⟨d, t, X, Y, e1, e2, e3, -, e5, -⟩ := hN fuel hf
  refine ⟨d, t, X, Y, e1, e2, e3, fun k hk => ?_⟩
  obtain ⟨v, v1, v2⟩ := e5 k hk
  refine ⟨v, v1, fun i => ⟨hA.solution hα hdt hx hM hβ k i, (v2 i).trans ?_⟩⟩
  have a0 : 0 ≤ a := (Finset.sum_nonneg fun j _ => abs_nonneg _).trans (ha ⟨0, hn⟩)
  have am : 0 ≤ min 1 a := le_min zero_le_one a0
  have ε0 : 0 ≤ expErr n a := by unfold expErr; positivity
  refine div_le_div_of_nonneg_right ?_ (by linarith)
  have : 1 / α * β ≤ max M (β / α) := by rw [one_div_mul_eq_div]; exact le_max_right _ _
  nlinarith

/-- The two tanks, without inflow and with at most one litre at the beginning, sampled four times per second: the simulation is never off by more than a twelfth of a litre. -/
example {sys : StateSpace ℝ} {B : Matrix (Fin 2) (Fin 1) ℝ} {C : Matrix (Fin 1) (Fin 2) ℝ} {D : Matrix (Fin 1) (Fin 1) ℝ} (h : sys.Is !![-2, 1; 1, -2] B C D) (K : Nat) {x : ℝ → Fin 2 → ℝ}
    (hx : Solves !![-2, 1; 1, -2] B (List.replicate K 0) (1 / 4) x) (hM : ∀ i, |x 0 i| ≤ 1) {T : ℝ} (hT : 0 ≤ T) (hW : ⌊T / (1 / 4)⌋₊ < W) :
    ∃ N, ∀ fuel, N ≤ fuel → ∃ d t X Y,
      c2d (isZ AbsoluteValue.abs (1/1000)) (fun X => Lin.expm (isZ AbsoluteValue.abs (1/1000)) (|·|) Real.sqrt (1/2) X (1/100000) fuel) sys (1 / 4) = .ok d ∧
      simulate floorSize d ((List.replicate K (0 : Fin 1 → ℝ)).map List.ofFn) T (List.ofFn (x 0)) = .ok (t, X, Y) ∧
      ∀ k, k < X.length → ∃ v : Fin 2 → ℝ, X[k]? = some (List.ofFn v) ∧ ∀ i, |v i - x (k * (1 / 4)) i| ≤ 1 / 12 := by
  have hA : Dissipates (!![-2, 1; 1, -2] : Matrix (Fin 2) (Fin 2) ℝ) 1 := by
    unfold Dissipates
    rw [Fin.forall_fin_two, show (Finset.univ.erase (0 : Fin 2)) = {1} by decide, show (Finset.univ.erase (1 : Fin 2)) = {0} by decide]
    norm_num
  have b3 : Real.exp (3 / 4) ≤ 272 / 100 := (Real.exp_le_exp.mpr (by norm_num : (3 / 4 : ℝ) ≤ 1)).trans (Real.exp_one_lt_d9.le.trans (by norm_num))
  have b1 : expErr 2 (3 / 4) ≤ 1 / 150 := by
    unfold expErr
    rw [min_eq_right (by norm_num)]
    norm_num [Nat.factorial]
    linarith
  have b2 : Real.exp (-(1 * (1 / 4))) ≤ 79 / 100 := by
    rw [Real.exp_neg, inv_le_comm₀ (Real.exp_pos _) (by norm_num), one_mul]
    refine le_trans ?_ (Real.quadratic_le_exp_of_nonneg (x := 1 / 4) (by norm_num))
    norm_num
  have hu : ∀ k i, |(B *ᵥ (List.replicate K (0 : Fin 1 → ℝ)).getD k 0) i| ≤ 0 := fun k i => by
    have : (List.replicate K (0 : Fin 1 → ℝ)).getD k 0 = 0 := by
      rw [List.getD_eq_getElem?_getD, List.getElem?_replicate]
      split <;> rfl
    rw [this, Matrix.mulVec_zero, Pi.zero_apply, abs_zero]
  obtain ⟨N, hN⟩ := C154_follows (tol := 1/1000) (by norm_num) h (by norm_num) (by norm_num) (by norm_num) (by rw [allocMax_eq]; norm_num) one_pos hA (.inl (by norm_num)) (by norm_num : (0 : ℝ) < 1 / 4) (a := 3 / 4)
    (fun i => by fin_cases i <;> norm_num [Fin.sum_univ_two]) (by linarith) _ hx (lt_of_lt_of_le (by norm_num) (div_nonneg hT (by norm_num))) hW hM hu
  refine ⟨N, fun fuel hf => ?_⟩
  obtain ⟨d, t, X, Y, e1, e2, -, e4⟩ := hN fuel hf
  refine ⟨d, t, X, Y, e1, e2, fun k hk => ?_⟩
  obtain ⟨v, v1, v2⟩ := e4 k hk
  refine ⟨v, v1, fun i => (v2 i).2.trans ?_⟩
  rw [zero_div, max_eq_left zero_le_one, mul_one, div_le_iff₀ (by linarith)]
  linarith

end Malg
