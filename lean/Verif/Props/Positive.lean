import Verif.Props.StableC2d
/-!
# Property C155: what cannot become negative does not become negative
-/
namespace Malg
open Ops Lin Control Feq Ieee
open scoped Matrix

section
variable {n m p : Nat}

/-- No entry is negative. -/
def Nonneg {n m : Nat} (A : Matrix (Fin n) (Fin m) ℝ) : Prop := ∀ i j, 0 ≤ A i j

/-- Only entries of the diagonal are negative: the parts of the system take nothing from each other. -/
def Exchanges {n : Nat} (A : Matrix (Fin n) (Fin n) ℝ) : Prop := ∀ i j, i ≠ j → 0 ≤ A i j

theorem Nonneg.mul {l : Nat} {A : Matrix (Fin n) (Fin m) ℝ} {B : Matrix (Fin m) (Fin l) ℝ} (hA : Nonneg A) (hB : Nonneg B) : Nonneg (A * B) := fun i j => by
  rw [Matrix.mul_apply]
  exact Finset.sum_nonneg fun k _ => mul_nonneg (hA i k) (hB k j)

theorem Nonneg.one : Nonneg (1 : Matrix (Fin n) (Fin n) ℝ) := fun i j => by
  rw [Matrix.one_apply]
  split <;> norm_num

theorem Nonneg.pow {A : Matrix (Fin n) (Fin n) ℝ} (hA : Nonneg A) (k : Nat) : Nonneg (A ^ k) := by
  induction k with
  | zero => rw [pow_zero]; exact Nonneg.one
  | succ k ih => rw [pow_succ]; exact ih.mul hA

theorem Nonneg.smul {A : Matrix (Fin n) (Fin m) ℝ} (hA : Nonneg A) {c : ℝ} (hc : 0 ≤ c) : Nonneg (c • A) := fun i j => mul_nonneg hc (hA i j)

theorem Nonneg.sum {ι : Type} {s : Finset ι} {A : ι → Matrix (Fin n) (Fin m) ℝ} (hA : ∀ k ∈ s, Nonneg (A k)) : Nonneg (∑ k ∈ s, A k) := fun i j => by
  rw [Matrix.sum_apply]
  exact Finset.sum_nonneg fun k hk => hA k hk i j

theorem Nonneg.mulVec {A : Matrix (Fin n) (Fin m) ℝ} (hA : Nonneg A) {v : Fin m → ℝ} (hv : ∀ j, 0 ≤ v j) (i : Fin n) : 0 ≤ (A *ᵥ v) i := by
  rw [Matrix.mulVec, dotProduct]
  exact Finset.sum_nonneg fun j _ => mul_nonneg (hA i j) (hv j)

/-- A polynomial of `P - 1` whose expansion at minus one has no negative coefficient. -/
theorem poly_nonneg {P : Matrix (Fin n) (Fin n) ℝ} (hP : Nonneg P) (c : Nat → ℝ) (q : Nat) (h : ∀ k, 0 ≤ ∑ i ∈ Finset.range (q - k), c (k + i) * (k + i).choose k * (-1) ^ i) :
    Nonneg (∑ j ∈ Finset.range q, c j • (P - 1) ^ j) := by
  have e : ∀ j, (P - 1) ^ j = ∑ k ∈ Finset.range (j + 1), ((-1) ^ (j - k) * (j.choose k : ℝ)) • P ^ k := fun j => by
    rw [sub_eq_add_neg, ((Commute.one_right P).neg_right).add_pow]
    refine Finset.sum_congr rfl fun k _ => ?_
    have e1 : (-1 : Matrix (Fin n) (Fin n) ℝ) = algebraMap ℝ _ (-1) := by rw [map_neg, map_one]
    rw [e1, ← map_pow, ← map_natCast (algebraMap ℝ (Matrix (Fin n) (Fin n) ℝ)), mul_assoc, ← map_mul, ← Algebra.commutes, ← Algebra.smul_def]
  have e2 : ∑ j ∈ Finset.range q, c j • (P - 1) ^ j = ∑ k ∈ Finset.range q, (∑ i ∈ Finset.range (q - k), c (k + i) * (k + i).choose k * (-1) ^ i) • P ^ k := by
    simp only [e, Finset.smul_sum, Finset.sum_smul, smul_smul]
    rw [Finset.sum_comm' (t' := Finset.range q) (s' := fun k => Finset.Ico k q) (by intro x y; simp only [Finset.mem_range, Finset.mem_Ico]; omega)]
    refine Finset.sum_congr rfl fun k _ => ?_
    rw [Finset.sum_Ico_eq_sum_range]
    refine Finset.sum_congr rfl fun i _ => ?_
    rw [Nat.add_sub_cancel_left]
    congr 1
    ring
  rw [e2]
  exact Nonneg.sum fun k _ => (hP.pow k).smul (h k)

theorem taylor_nonneg {S : Matrix (Fin n) (Fin n) ℝ} (hS : Exchanges S) (h1 : ∀ i, -1 ≤ S i i) (q : Nat) : Nonneg (taylor S q) ∧ Nonneg (∑ j ∈ Finset.range q, ((j + 1).factorial : ℝ)⁻¹ • S ^ j) := by
  have hP : Nonneg (S + 1) := fun i j => by
    rw [Matrix.add_apply, Matrix.one_apply]
    split
    · subst ‹i = j›; linarith [h1 i]
    · linarith [hS i j ‹_›]
  have e : S = (S + 1) - 1 := by rw [add_sub_cancel_right]
  constructor
  · unfold taylor
    rw [e]
    refine poly_nonneg hP _ _ fun k => ?_
    have := (alternating_sum (a := fun i => ((k.factorial : ℝ) * i.factorial)⁻¹) (fun _ => by positivity)
      (fun i => by
        have : (i.factorial : ℝ) ≤ (i + 1).factorial := by exact_mod_cast Nat.factorial_le (by omega)
        gcongr) (q + 1 - k) 0).1
    refine this.trans (le_of_eq (Finset.sum_congr rfl fun i _ => ?_))
    have e1 : (((k + i).choose k * k.factorial * i.factorial : Nat) : ℝ) = (k + i).factorial := by
      rw [Nat.choose_symm_add]
      exact_mod_cast Nat.add_choose_mul_factorial_mul_factorial k i
    push_cast at e1
    have e2 : ((k + i).factorial : ℝ) ≠ 0 := by positivity
    rw [zero_add, mul_comm]
    congr 1
    rw [inv_eq_iff_eq_inv, mul_inv, inv_inv, ← div_eq_mul_inv, eq_div_iff (by have := Nat.choose_pos (Nat.le_add_right k i); positivity), ← e1]
    ring
  · rw [e]
    refine poly_nonneg hP _ _ fun k => ?_
    have := (alternating_sum (a := fun i => ((k.factorial : ℝ) * i.factorial * (k + i + 1))⁻¹) (fun _ => by positivity)
      (fun i => by
        have : (i.factorial : ℝ) ≤ (i + 1).factorial := by exact_mod_cast Nat.factorial_le (by omega)
        push_cast at this ⊢
        gcongr
        linarith) (q - k) 0).1
    refine this.trans (le_of_eq (Finset.sum_congr rfl fun i _ => ?_))
    have e1 : (((k + i).choose k * k.factorial * i.factorial : Nat) : ℝ) = (k + i).factorial := by
      rw [Nat.choose_symm_add]
      exact_mod_cast Nat.add_choose_mul_factorial_mul_factorial k i
    push_cast at e1
    rw [zero_add, mul_comm, Nat.factorial_succ (k + i)]
    congr 1
    rw [inv_eq_iff_eq_inv, mul_inv, inv_inv, ← div_eq_mul_inv, eq_div_iff (by have := Nat.choose_pos (Nat.le_add_right k i); positivity)]
    push_cast
    rw [← e1]
    ring

theorem taylor_sub_one (S : Matrix (Fin n) (Fin n) ℝ) (q : Nat) : taylor S q - 1 = S * ∑ j ∈ Finset.range q, ((j + 1).factorial : ℝ)⁻¹ • S ^ j := by
  unfold taylor
  rw [Finset.sum_range_succ', pow_zero, Nat.factorial_zero, Nat.cast_one, inv_one, one_smul, add_sub_cancel_right, Finset.mul_sum]
  refine Finset.sum_congr rfl fun j _ => ?_
  rw [pow_succ', mul_smul_comm]

theorem taylor_sub_one' (S : Matrix (Fin n) (Fin n) ℝ) (q : Nat) : taylor S q - 1 = (∑ j ∈ Finset.range q, ((j + 1).factorial : ℝ)⁻¹ • S ^ j) * S := by
  unfold taylor
  rw [Finset.sum_range_succ', pow_zero, Nat.factorial_zero, Nat.cast_one, inv_one, one_smul, add_sub_cancel_right, Finset.sum_mul]
  refine Finset.sum_congr rfl fun j _ => ?_
  rw [pow_succ, smul_mul_assoc]

/-- What `expm` computes. -/
theorem expm_scaled {isz : ℝ → Bool} (hz : ∀ x, isz x = true ↔ x = 0) {sqrt : ℝ → ℝ} {Z : Mat ℝ} {A : Matrix (Fin n) (Fin n) ℝ} (hn : 0 < n) (hZ : Z.toMB.Is A) (hwf : Z.WF)
    {accuracy : ℝ} {fuel : Nat} {R : Mat ℝ} (hr : expm isz (|·|) sqrt (1/2) Z.toMB accuracy fuel = .ok R) :
    ∃ k q : Nat, R.WF ∧ R.toMB.Is (taylor ((1/2 : ℝ) ^ k • A) q ^ 2 ^ k) ∧ ∀ i, -1 ≤ ((1/2 : ℝ) ^ k • A) i i := by
  obtain ⟨k, t, hlog, ht, hwR, hR⟩ := C55_taylor hz hZ hr
  refine ⟨k, _, hwR, hR, fun i => ?_⟩
  obtain ⟨e, hrep, rfl⟩ := hZ
  obtain ⟨x, ⟨hxi, hx⟩, k', N, h1, h2, h3⟩ := C45_matrix_partial (fun x => abs_nonneg x) ⟨hwf, hrep⟩ hn hn
  have hkk : k = k' := by
    have a1 := h1 (max N fuel) (le_max_left _ _)
    have a2 := log2Ceil_mono hlog (le_max_right N fuel)
    rw [a1] at a2; injection a2 with a2; exact (Prod.mk.inj a2).1.symm
  subst hkk
  have h4 : |toM n n e i i| ≤ x := (Finset.single_le_sum (f := fun j => |toM n n e i j|) (fun _ _ => abs_nonneg _) (Finset.mem_univ i)).trans (hx i i.2)
  have hs : (0 : ℝ) < (1/2) ^ k := by positivity
  have h5 := mul_le_mul_of_nonneg_left ((neg_le_abs _).trans h4) hs.le
  rw [Matrix.smul_apply, smul_eq_mul]
  linarith [mul_comm x ((1/2) ^ k)]

/-- C155 for `expm`: whenever it returns for a matrix with no negative entry beside the diagonal, no entry of the result is negative. -/
theorem C155_expm {isz : ℝ → Bool} (hz : ∀ x, isz x = true ↔ x = 0) {sqrt : ℝ → ℝ} {Z : Mat ℝ} {A : Matrix (Fin n) (Fin n) ℝ} (hn : 0 < n) (hZ : Z.toMB.Is A) (hwf : Z.WF) (hA : Exchanges A)
    {accuracy : ℝ} {fuel : Nat} {R : Mat ℝ} (hr : expm isz (|·|) sqrt (1/2) Z.toMB accuracy fuel = .ok R) :
    ∃ E : Matrix (Fin n) (Fin n) ℝ, R.WF ∧ R.toMB.Is E ∧ Nonneg E ∧
      (∀ v : Fin n → ℝ, A *ᵥ v = 0 → E *ᵥ v = v) ∧ ∀ v : Fin n → ℝ, v ᵥ* A = 0 → v ᵥ* E = v := by
  obtain ⟨k, q, h1, h2, h3⟩ := expm_scaled hz hn hZ hwf hr
  refine ⟨_, h1, h2, (taylor_nonneg (fun i j hij => mul_nonneg (by positivity) (hA i j hij)) h3 q).1.pow _, fun v hv => ?_, fun v hv => ?_⟩
  · have e : taylor ((1/2 : ℝ) ^ k • A) q *ᵥ v = v := by
      rw [← sub_add_cancel (taylor ((1/2 : ℝ) ^ k • A) q) 1, taylor_sub_one', Matrix.add_mulVec, ← Matrix.mulVec_mulVec, Matrix.smul_mulVec, hv, smul_zero, Matrix.mulVec_zero, Matrix.one_mulVec, zero_add]
    generalize 2 ^ k = l
    induction l with
    | zero => rw [pow_zero, Matrix.one_mulVec]
    | succ l ih => rw [pow_succ, ← Matrix.mulVec_mulVec, e, ih]
  · have e : v ᵥ* taylor ((1/2 : ℝ) ^ k • A) q = v := by
      rw [← sub_add_cancel (taylor ((1/2 : ℝ) ^ k • A) q) 1, taylor_sub_one, Matrix.vecMul_add, ← Matrix.vecMul_vecMul, Matrix.vecMul_smul, hv, smul_zero, Matrix.zero_vecMul, Matrix.vecMul_one, zero_add]
    generalize 2 ^ k = l
    induction l with
    | zero => rw [pow_zero, Matrix.vecMul_one]
    | succ l ih => rw [pow_succ, ← Matrix.vecMul_vecMul, ih, e]

/-- C155 for the rates of a Markov chain: their exponential is a matrix of probabilities. -/
theorem C155_probabilities {isz : ℝ → Bool} (hz : ∀ x, isz x = true ↔ x = 0) {sqrt : ℝ → ℝ} {Z : Mat ℝ} {A : Matrix (Fin n) (Fin n) ℝ} (hn : 0 < n) (hZ : Z.toMB.Is A) (hwf : Z.WF) (hA : Exchanges A)
    (h0 : ∀ i, ∑ j, A i j = 0) {accuracy : ℝ} {fuel : Nat} {R : Mat ℝ} (hr : expm isz (|·|) sqrt (1/2) Z.toMB accuracy fuel = .ok R) :
    ∃ E : Matrix (Fin n) (Fin n) ℝ, R.WF ∧ R.toMB.Is E ∧ ∀ i, (∀ j, 0 ≤ E i j ∧ E i j ≤ 1) ∧ ∑ j, E i j = 1 := by
  obtain ⟨E, h1, h2, h3, h4, -⟩ := C155_expm hz hn hZ hwf hA hr
  have h5 : ∀ i, ∑ j, E i j = 1 := fun i => by
    have := congrFun (h4 (fun _ => 1) (funext fun i => by simpa [Matrix.mulVec, dotProduct] using h0 i)) i
    simpa [Matrix.mulVec, dotProduct] using this
  refine ⟨E, h1, h2, fun i => ⟨fun j => ⟨h3 i j, ?_⟩, h5 i⟩⟩
  rw [← h5 i]
  exact Finset.single_le_sum (f := fun j => E i j) (fun j _ => h3 i j) (Finset.mem_univ j)

variable {sys : StateSpace ℝ} {A : Matrix (Fin n) (Fin n) ℝ} {B : Matrix (Fin n) (Fin m) ℝ} {C : Matrix (Fin p) (Fin n) ℝ} {D : Matrix (Fin p) (Fin m) ℝ}

/-- C155 for `c2d`: the discrete system has no negative entry in `A` and `B`. Missing: as in `C64_equations_partial`. -/
theorem C155_c2d_partial {tol : ℝ} (ht : tol < 1) {sqrt : ℝ → ℝ} {accuracy : ℝ} {fuel : Nat} (h : sys.Is A B C D) (hn : 0 < n) (hm : 0 < m) (hp : 0 < p) (hA : Exchanges A) (hB : Nonneg B) {dt : ℝ} (hdt : 0 ≤ dt)
    (hd0 : A.det ≠ 0) (hi : n ≤ 5 ∨ ∀ i j, A⁻¹ i j ≠ 0) {d : DiscreteStateSpace ℝ}
    (hd : c2d (isZ AbsoluteValue.abs tol) (fun X => expm (isZ AbsoluteValue.abs tol) (|·|) sqrt (1/2) X accuracy fuel) sys dt = .ok d) :
    ∃ (Ad : Matrix (Fin n) (Fin n) ℝ) (Bd : Matrix (Fin n) (Fin m) ℝ), d.toStateSpace.Is Ad Bd C D ∧ d.sampleTime = dt ∧ Nonneg Ad ∧ Nonneg Bd := by
  obtain ⟨X, eX, wX, iX⟩ := (C33_field h.a dt).1
  have hd' := hd
  unfold c2d at hd'
  rw [eX, Res.ok_bind] at hd'
  obtain ⟨E, eE, -⟩ := Res.bind_eq_ok.1 hd'
  obtain ⟨k, q, h2, h3, h4⟩ := expm_scaled (isZ_iff AbsoluteValue.abs ht) hn iX wX eE
  obtain ⟨d', Bd, e1, e2, e3, e4, -⟩ := C64_equations_partial AbsoluteValue.abs ht (dt := dt)
    (ex := fun X => expm (isZ AbsoluteValue.abs tol) (|·|) sqrt (1/2) X accuracy fuel) h hn hm hp (E := _)
    (by rw [eX, Res.ok_bind]; exact ⟨E, eE, h2, h3⟩) hd0 hi
  rw [hd] at e1
  injection e1 with e1
  subst e1
  obtain ⟨t1, t2⟩ := taylor_nonneg (S := (1/2 : ℝ) ^ k • dt • A) (fun i j hij => mul_nonneg (by positivity) (mul_nonneg hdt (hA i j hij))) h4 q
  refine ⟨_, Bd, e2, e3, t1.pow _, ?_⟩
  have e5 : A⁻¹ * (taylor ((1/2 : ℝ) ^ k • dt • A) q ^ 2 ^ k - 1) = ((1/2 : ℝ) ^ k * dt) • ((∑ j ∈ Finset.range q, ((j + 1).factorial : ℝ)⁻¹ • ((1/2 : ℝ) ^ k • dt • A) ^ j) *
      ∑ i ∈ Finset.range (2 ^ k), taylor ((1/2 : ℝ) ^ k • dt • A) q ^ i) := by
    rw [← mul_geom_sum, taylor_sub_one, smul_smul, ← mul_assoc, ← mul_assoc, Matrix.mul_smul, Matrix.nonsing_inv_mul _ (IsUnit.mk0 _ hd0), Matrix.smul_mul, Matrix.one_mul, Matrix.smul_mul]
  rw [e4, e5]
  exact ((t2.mul (Nonneg.sum fun i _ => t1.pow i)).smul (by positivity)).mul hB

/-- C155 for the whole way from the continuous system to its simulation: with inputs and initial states that are not negative, no state and no output is ever negative. Missing: as in `C155_c2d_partial`. -/
theorem C155_simulate_partial {tol : ℝ} (ht : tol < 1) {sqrt : ℝ → ℝ} {accuracy : ℝ} {fuel : Nat} (h : sys.Is A B C D) (hn : 0 < n) (hm : 0 < m) (hp : 0 < p) (hna : n < allocMax) (hpa : p < allocMax)
    (hA : Exchanges A) (hB : Nonneg B) (hC : Nonneg C) (hD : Nonneg D) {dt : ℝ} (hdt : 0 < dt) (hd0 : A.det ≠ 0) (hi : n ≤ 5 ∨ ∀ i j, A⁻¹ i j ≠ 0) {d : DiscreteStateSpace ℝ}
    (hd : c2d (isZ AbsoluteValue.abs tol) (fun X => expm (isZ AbsoluteValue.abs tol) (|·|) sqrt (1/2) X accuracy fuel) sys dt = .ok d)
    {toSize : ℝ → Res Nat} {us : List (Fin m → ℝ)} (hu : ∀ w ∈ us, ∀ j, 0 ≤ w j) {x0 : Fin n → ℝ} (hx : ∀ i, 0 ≤ x0 i) {st : ℝ} {k : Nat} (hk : toSize (st / dt) = .ok k) :
    ∃ t X Y, simulate toSize d (us.map List.ofFn) st (List.ofFn x0) = .ok (t, X, Y) ∧ X.length = min us.length k + 1 ∧ Y.length = min us.length k ∧
      (∀ x ∈ X, x.length = n ∧ ∀ v ∈ x, 0 ≤ v) ∧ ∀ y ∈ Y, y.length = p ∧ ∀ v ∈ y, 0 ≤ v := by
  obtain ⟨Ad, Bd, h1, h2, h3, h4⟩ := C155_c2d_partial ht h hn hm hp hA hB hdt.le hd0 hi hd
  have hu' : ∀ i j, 0 ≤ us.getD i 0 j := fun i j => by
    rw [List.getD_eq_getElem?_getD]
    rcases e : us[i]? with _ | w
    · exact le_rfl
    · exact hu w (List.mem_of_getElem? e) j
  have ht' : ∀ k i, 0 ≤ traj Ad Bd x0 (fun j => us.getD j 0) k i := fun k => by
    induction k with
    | zero => exact hx
    | succ k ih =>
      intro i
      rw [traj, Pi.add_apply]
      exact add_nonneg (h3.mulVec ih i) (h4.mulVec (hu' k) i)
  refine ⟨_, _, _, simulate_eq h1 hna hpa us x0 (q := st / dt) (by rw [h2]; exact cdiv_ok st hdt.ne') hk, by simp [vtab], by simp [vtab], fun x hx => ?_, fun y hy => ?_⟩
  · simp only [vtab, List.mem_map, List.mem_range] at hx
    obtain ⟨i, -, rfl⟩ := hx
    refine ⟨List.length_ofFn, fun v hv => ?_⟩
    obtain ⟨j, rfl⟩ := List.mem_ofFn.1 hv
    exact ht' i j
  · simp only [vtab, List.mem_map, List.mem_range] at hy
    obtain ⟨i, -, rfl⟩ := hy
    refine ⟨List.length_ofFn, fun v hv => ?_⟩
    obtain ⟨j, rfl⟩ := List.mem_ofFn.1 hv
    rw [Pi.add_apply]
    exact add_nonneg (hC.mulVec (ht' i) j) (hD.mulVec (hu' i) j)
end

/-- Two states between which the chain changes once and twice per unit of time. -/
example {sqrt : ℝ → ℝ} {accuracy : ℝ} {fuel : Nat} {Z R : Mat ℝ} (hwf : Z.WF) (hZ : Z.toMB.Is !![-1, 1; 2, -2]) (hr : expm (isZ AbsoluteValue.abs (1/1000)) (|·|) sqrt (1/2) Z.toMB accuracy fuel = .ok R) :
    ∃ E : Matrix (Fin 2) (Fin 2) ℝ, R.toMB.Is E ∧ 0 ≤ E 0 1 ∧ E 0 0 + E 0 1 = 1 ∧ 2 * E 0 0 + E 1 0 = 2 := by
  have hA : Exchanges (!![-1, 1; 2, -2] : Matrix (Fin 2) (Fin 2) ℝ) := fun i j hij => by fin_cases i <;> fin_cases j <;> first | exact absurd rfl hij | norm_num
  obtain ⟨E, -, h2, h3, h4, h5⟩ := C155_expm (isZ_iff AbsoluteValue.abs (by norm_num)) (by norm_num) hZ hwf hA hr
  have e1 := congrFun (h4 ![1, 1] (by ext i; fin_cases i <;> norm_num [Matrix.mulVec, dotProduct, Fin.sum_univ_two])) 0
  have e2 := congrFun (h5 ![2, 1] (by ext i; fin_cases i <;> norm_num [Matrix.vecMul, dotProduct, Fin.sum_univ_two])) 0
  simp [Matrix.mulVec, Matrix.vecMul, dotProduct, Fin.sum_univ_two] at e1 e2
  exact ⟨E, h2, h3 0 1, by linarith, by linarith⟩

/-- A slow tank that feeds another one. -/
def slowS : StateSpace IDouble := ⟨⟨2, 2, [dbl (-1 / 1000), 0, 1, dbl (-1 / 10000)]⟩, ⟨2, 1, [1, 0]⟩, ⟨1, 2, [0, 1]⟩, ⟨1, 1, [0]⟩⟩

set_option maxRecDepth 100000 in
/-- C155 in `double` is false for `c2d`: in the difference of the exponential and the identity so much is lost that an entry of the discrete `B` is negative. Filled from the outside, the second tank has less than
nothing in it after the first step. -/
theorem C155_c2d_false : ∃ x y : IDouble,
    (do let d ← c2d dIsZero ioscExp slowS (dbl (1 / 50000))
        let r ← simulate Ieee.toSize d [[1]] (dbl (1 / 25000)) [0, 0]
        return r.2.1) = .ok [[0, 0], [x, y]] ∧ x.Finite ∧ y.Finite ∧ 0 < x.val ∧ y.val < 0 :=
  ⟨dbl (22517997875/1125899906842624), dbl (-4529441/36028797018963968), by decide +kernel, by decide +kernel, by decide +kernel, by decide +kernel, by decide +kernel⟩

/-- A matrix without negative entries beside the diagonal, two of which are a few times the smallest positive `double`. -/
def tinyM : Mat IDouble :=
  ⟨4, 4, [dbl (-1 / 2), 0, dbl (4 / 2 ^ 1074), 0, 0, dbl (-3 / 8), dbl (1 / 4), 0, 0, 0, dbl (-3 / 4), 0, dbl (1 / 8), dbl (5 / 2 ^ 1074), 0, dbl (-3 / 4)]⟩

set_option exponentiation.threshold 3000 in
set_option maxRecDepth 100000 in
/-- C155 in `double` is false for `expm` where numbers underflow: products with the smallest numbers are rounded by as much as they are large, and the sum of the series has a negative entry. -/
theorem C155_expm_false : (∀ r c, r < 4 → c < 4 → r ≠ c → ∃ x, tinyM.toMB.at_ r c = .ok x ∧ x.Finite ∧ 0 ≤ x.val) ∧
    (do let R ← ioscExp tinyM.toMB
        R.at_ 3 2) = .ok (dbl (-1 / 2 ^ 1074)) ∧ (dbl (-1 / 2 ^ 1074)).Finite ∧ (dbl (-1 / 2 ^ 1074)).val < 0 := by
  refine ⟨fun r c hr hc _ => ?_, by decide +kernel, by decide +kernel, by decide +kernel⟩
  have h : ∀ r, r < 4 → ∀ c, c < 4 → r ≠ c → (match tinyM.toMB.at_ r c with | .ok x => decide x.Finite && decide (0 ≤ x.val) | _ => false) = true := by decide +kernel
  have h' := h r hr c hc ‹_›
  revert h'
  cases tinyM.toMB.at_ r c with
  | ok x => exact fun h => ⟨x, rfl, by simpa using h⟩
  | _ => exact fun h => absurd h Bool.false_ne_true

end Malg
