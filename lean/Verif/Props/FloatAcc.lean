import Verif.Props.FloatDetErr
import Verif.Props.FloatPoly
import Verif.Props.FloatSim
/-!
# Property C116: rounding errors that add up over many steps
-/
namespace Malg
open Ops Lin Control Polynomial Matrix

section
variable {T K : Type} [Zero T] [One T] [Add T] [Sub T] [Mul T] [CDiv T] [Field K] [LinearOrder K] [IsStrictOrderedRing K]
  {val : T → K} {u η : K} (R : Rounds val u η)
include R

omit [One T] in
/-- A scalar product with a vector that carries errors already. -/
theorem Near.of_dot {n a : Nat} {v : T} {x : Nat → T} {ξ X b ε : Nat → K} (hx : ∀ i, i < n → Near val u a (ε i) (x i) (ξ i) (X i))
    (h : |val v - ∑ i ∈ Finset.range n, val (x i) * b i| ≤
      ((1 + u) ^ n - 1) * ∑ i ∈ Finset.range n, |val (x i)| * |b i| + n * (1 + u) ^ (n - 1) * η) :
    Near val u (a + n) ((1 + u) ^ n * (∑ i ∈ Finset.range n, ε i * |b i|) + n * (1 + u) ^ (n - 1) * η) v
      (∑ i ∈ Finset.range n, ξ i * b i) (∑ i ∈ Finset.range n, X i * |b i|) := by
  have hu := R.u_nonneg
  have h1 : (1 : K) ≤ 1 + u := by linarith
  have hg : 0 ≤ (1 + u) ^ n - 1 := by have := one_le_pow₀ (n := n) h1; linarith
  refine ⟨?_, ?_, ?_⟩
  · have h2 : ∑ i ∈ Finset.range n, |val (x i)| * |b i| ≤
        (1 + u) ^ a * ∑ i ∈ Finset.range n, X i * |b i| + ∑ i ∈ Finset.range n, ε i * |b i| := by
      rw [Finset.mul_sum, ← Finset.sum_add_distrib]
      refine Finset.sum_le_sum fun i hi => ?_
      have hi := hx i (Finset.mem_range.1 hi)
      have : |val (x i)| ≤ (1 + u) ^ a * X i + ε i := by
        have e : val (x i) = (val (x i) - ξ i) + ξ i := by ring
        rw [e]
        have := (abs_add_le (val (x i) - ξ i) (ξ i)).trans (add_le_add hi.err hi.size)
        linarith
      have := mul_le_mul_of_nonneg_right this (abs_nonneg (b i))
      linarith
    have h3 : |∑ i ∈ Finset.range n, val (x i) * b i - ∑ i ∈ Finset.range n, ξ i * b i| ≤
        ((1 + u) ^ a - 1) * ∑ i ∈ Finset.range n, X i * |b i| + ∑ i ∈ Finset.range n, ε i * |b i| := by
      rw [← Finset.sum_sub_distrib, Finset.mul_sum, ← Finset.sum_add_distrib]
      refine (Finset.abs_sum_le_sum_abs _ _).trans (Finset.sum_le_sum fun i hi => ?_)
      rw [← sub_mul, abs_mul]
      have := mul_le_mul_of_nonneg_right (hx i (Finset.mem_range.1 hi)).err (abs_nonneg (b i))
      linarith
    have e : val v - ∑ i ∈ Finset.range n, ξ i * b i = (val v - ∑ i ∈ Finset.range n, val (x i) * b i) +
        (∑ i ∈ Finset.range n, val (x i) * b i - ∑ i ∈ Finset.range n, ξ i * b i) := by ring
    rw [e]
    refine (abs_add_le _ _).trans ((add_le_add (h.trans (add_le_add_left (mul_le_mul_of_nonneg_left h2 hg) _)) h3).trans (le_of_eq ?_))
    rw [pow_add]
    ring
  · refine (Finset.abs_sum_le_sum_abs _ _).trans (Finset.sum_le_sum fun i hi => ?_)
    rw [abs_mul]
    exact mul_le_mul_of_nonneg_right (hx i (Finset.mem_range.1 hi)).size (abs_nonneg _)
  · have := Finset.sum_nonneg fun i hi => mul_nonneg (hx i (Finset.mem_range.1 hi)).nonneg (abs_nonneg (b i))
    have := R.η_nonneg
    positivity

omit [One T] in
theorem Near.lsum_mul {n a : Nat} {x y : Nat → T} {ξ X ε : Nat → K} (hx : ∀ i, i < n → Near val u a (ε i) (x i) (ξ i) (X i)) :
    Near val u (a + n) ((1 + u) ^ n * (∑ i ∈ Finset.range n, ε i * |val (y i)|) + n * (1 + u) ^ (n - 1) * η) (lsum n fun i => x i * y i)
      (∑ i ∈ Finset.range n, ξ i * val (y i)) (∑ i ∈ Finset.range n, X i * |val (y i)|) :=
  Near.of_dot R hx (lsum_mul_err R x y n)

omit [One T] in
theorem Near.lsum_mul' {n a : Nat} {x y : Nat → T} {ξ X ε : Nat → K} (hx : ∀ i, i < n → Near val u a (ε i) (x i) (ξ i) (X i)) :
    Near val u (a + n) ((1 + u) ^ n * (∑ i ∈ Finset.range n, |val (y i)| * ε i) + n * (1 + u) ^ (n - 1) * η) (lsum n fun i => y i * x i)
      (∑ i ∈ Finset.range n, val (y i) * ξ i) (∑ i ∈ Finset.range n, |val (y i)| * X i) := by
  have h := lsum_mul_err R y x n
  have := Near.of_dot R (v := lsum n fun i => y i * x i) (b := fun i => val (y i)) hx (by simpa only [mul_comm] using h)
  simpa only [mul_comm] using this

/-! ## Powers -/

/-- The effect of underflow on the `k`-th power of an `n × n` matrix with the absolute values `A`. -/
def powUnder (u η : K) {n : Nat} (A : Matrix (Fin n) (Fin n) K) (k : Nat) : Matrix (Fin n) (Fin n) K :=
  ∑ l ∈ Finset.range k, ((1 + u) ^ (n * l) * (n * (1 + u) ^ (n - 1) * η)) • (Matrix.of (fun _ _ => (1 : K)) * A ^ l)

omit R [LinearOrder K] [IsStrictOrderedRing K] in
theorem powUnder_succ {n : Nat} (A : Matrix (Fin n) (Fin n) K) (k : Nat) (i j : Fin n) :
    powUnder u η A (k + 1) i j = (1 + u) ^ n * (powUnder u η A k * A) i j + n * (1 + u) ^ (n - 1) * η := by
  unfold powUnder
  rw [Finset.sum_range_succ', Matrix.add_apply, Finset.sum_mul, Matrix.sum_apply, Matrix.sum_apply, Finset.mul_sum]
  congr 1
  · refine Finset.sum_congr rfl fun l _ => ?_
    rw [Matrix.smul_mul, Matrix.smul_apply, Matrix.smul_apply, smul_eq_mul, smul_eq_mul, Matrix.mul_assoc, ← pow_succ, Nat.mul_succ, pow_add]
    ring
  · rw [pow_zero, Matrix.mul_one, Matrix.smul_apply, smul_eq_mul]
    simp

theorem powm_near (one : val 1 = 1) {A : MB T} {n : Nat} {e : Nat → Nat → T} (hA : Rep A n n e) (hn : 0 < n) (N : Nat) :
    ∃ E, powm A N = .ok (Mat.ofFn n n E) ∧ ∀ i j : Fin n,
      Near val u (n * N) (powUnder u η ((toM n n e).map (|val ·|)) N i j) (E i j) (((toM n n e).map val ^ N) i j)
        (((toM n n e).map (|val ·|) ^ N) i j) := by
  have hu := R.u_nonneg
  unfold powm
  rw [hA.rows, hA.cols, Util.eye_eq hn hn hA.fits, Res.ok_bind]
  induction N with
  | zero =>
    refine ⟨_, rfl, fun i j => ?_⟩
    rw [pow_zero, pow_zero, Matrix.one_apply]
    by_cases h : i = j
    · rw [if_pos h, if_pos (by rw [h])]
      exact ⟨by simp [one, powUnder], by simp, by simp [powUnder]⟩
    · rw [if_neg h, if_neg (fun h' => h (Fin.ext h'))]
      exact ⟨by simp [R.zero, powUnder], by simp, by simp [powUnder]⟩
  | succ N ih =>
    obtain ⟨E, h1, h2⟩ := ih
    rw [forRange_succ_last (Nat.zero_le N), h1, Res.ok_bind, mulAssign_self hA.fits hA.toRepAt]
    refine ⟨_, rfl, fun i j => ?_⟩
    have := Near.lsum_mul R (n := n) (a := n * N) (x := fun k => E i k) (y := fun k => e k j)
      (ξ := fun k => tab ((toM n n e).map val ^ N) i k) (X := fun k => tab ((toM n n e).map (|val ·|) ^ N) i k)
      (ε := fun k => tab (powUnder u η ((toM n n e).map (|val ·|)) N) i k)
      (fun k hk => by rw [tab_lt _ i.2 hk, tab_lt _ i.2 hk, tab_lt _ i.2 hk]; exact h2 i ⟨k, hk⟩)
    rw [Finset.sum_range, Finset.sum_range, Finset.sum_range] at this
    simp only [tab_lt _ i.2 (Fin.is_lt _)] at this
    rw [pow_succ, pow_succ, powUnder_succ, Nat.mul_succ]
    exact this

/-- C116: `powm(A, N)` differs from the power by at most `(1 + u)^(n N) - 1` times the power of the absolute values, and an underflow term. -/
theorem C116_powm (one : val 1 = 1) {A : MB T} {n : Nat} {M : Matrix (Fin n) (Fin n) T} (hA : A.Is M) (hn : 0 < n) (N : Nat) :
    ∃ E : Matrix (Fin n) (Fin n) T, Yields (powm A N) E ∧ ∀ i j,
      |val (E i j) - (M.map val ^ N) i j| ≤
        ((1 + u) ^ (n * N) - 1) * (M.map (|val ·|) ^ N) i j + powUnder u η (M.map (|val ·|)) N i j := by
  obtain ⟨e, hA, rfl⟩ := hA
  obtain ⟨E, h1, h2⟩ := powm_near R one hA hn N
  exact ⟨_, Yields.of_eq hA.fits h1, fun i j => (h2 i j).err⟩

/-- C116: so for the block `A^l B` of `ctrb(A, B)`. -/
theorem C116_ctrb (one : val 1 = 1) {A B : MB T} {n m : Nat} {M : Matrix (Fin n) (Fin n) T} {N : Matrix (Fin n) (Fin m) T} (hA : A.Is M)
    (hB : B.Is N) (hn : 0 < n) (hf : Fits n (n * m)) :
    ∃ E : Matrix (Fin n) (Fin (n * m)) T, Yields (ctrb A B) E ∧ ∀ (i : Fin n) (l : Fin n) (j : Fin m) (h : l.1 * m + j.1 < n * m),
      |val (E i ⟨l * m + j, h⟩) - (M.map val ^ l.1 * N.map val) i j| ≤
        ((1 + u) ^ (n * (l + 1)) - 1) * (M.map (|val ·|) ^ l.1 * N.map (|val ·|)) i j +
          ((1 + u) ^ n * (powUnder u η (M.map (|val ·|)) l * N.map (|val ·|)) i j + n * (1 + u) ^ (n - 1) * η) := by
  have hu := R.u_nonneg
  have hη := R.η_nonneg
  obtain ⟨e, hA, rfl⟩ := hA
  obtain ⟨f, hB, rfl⟩ := hB
  choose P hP using fun N => powm_near R one hA hn N
  refine ⟨_, Yields.of_eq hf (ctrb_exec hA hB hn hf fun i _ => (hP i).1), fun i l j h => ?_⟩
  have hm : 0 < m := lt_of_le_of_lt (Nat.zero_le _) j.2
  have hd : (l.1 * m + j.1) / m = l := by
    rw [Nat.mul_comm, Nat.mul_add_div hm, Nat.div_eq_of_lt j.2, Nat.add_zero]
  have hr : (l.1 * m + j.1) % m = j := by
    rw [Nat.mul_comm, Nat.mul_add_mod, Nat.mod_eq_of_lt j.2]
  rw [toM_apply]
  dsimp only
  rw [hd, hr]
  have hnear := Near.lsum_mul R (n := n) (a := n * l) (x := fun k => P l i k) (y := fun k => f k j)
      (ξ := fun k => tab ((toM n n e).map val ^ l.1) i k) (X := fun k => tab ((toM n n e).map (|val ·|) ^ l.1) i k)
      (ε := fun k => tab (powUnder u η ((toM n n e).map (|val ·|)) l) i k)
      (fun k hk => by rw [tab_lt _ i.2 hk, tab_lt _ i.2 hk, tab_lt _ i.2 hk]; exact (hP l).2 i ⟨k, hk⟩)
  rw [Finset.sum_range, Finset.sum_range, Finset.sum_range] at hnear
  simp only [tab_lt _ i.2 (Fin.is_lt _)] at hnear
  by_cases h0 : l.1 = 0
  · rw [if_pos h0, h0, pow_zero, pow_zero, Matrix.one_mul, Matrix.one_mul, Matrix.map_apply, toM_apply, sub_self, abs_zero, powUnder,
      Finset.sum_range_zero, Matrix.zero_mul, Matrix.zero_apply, mul_zero, zero_add, Matrix.map_apply]
    have : 0 ≤ (1 + u) ^ (n * (0 + 1)) - 1 := by
      have := one_le_pow₀ (n := n * (0 + 1)) (by linarith : (1 : K) ≤ 1 + u); linarith
    positivity
  · rw [if_neg h0, Nat.mul_succ]
    exact hnear.err

/-- C116: and for the block `C A^l` of `obsv(A, C)`. -/
theorem C116_obsv (one : val 1 = 1) {A C : MB T} {n m : Nat} {M : Matrix (Fin n) (Fin n) T} {N : Matrix (Fin m) (Fin n) T} (hA : A.Is M)
    (hC : C.Is N) (hn : 0 < n) (hf : Fits (n * m) n) :
    ∃ E : Matrix (Fin (n * m)) (Fin n) T, Yields (obsv A C) E ∧ ∀ (i : Fin m) (l : Fin n) (j : Fin n) (h : l.1 * m + i.1 < n * m),
      |val (E ⟨l * m + i, h⟩ j) - (N.map val * M.map val ^ l.1) i j| ≤
        ((1 + u) ^ (n * (l + 1)) - 1) * (N.map (|val ·|) * M.map (|val ·|) ^ l.1) i j +
          ((1 + u) ^ n * (N.map (|val ·|) * powUnder u η (M.map (|val ·|)) l) i j + n * (1 + u) ^ (n - 1) * η) := by
  have hu := R.u_nonneg
  have hη := R.η_nonneg
  obtain ⟨e, hA, rfl⟩ := hA
  obtain ⟨f, hC, rfl⟩ := hC
  choose P hP using fun N => powm_near R one hA hn N
  refine ⟨_, Yields.of_eq hf (obsv_exec hA hC hn hf fun i _ => (hP i).1), fun i l j h => ?_⟩
  have hm : 0 < m := lt_of_le_of_lt (Nat.zero_le _) i.2
  have hd : (l.1 * m + i.1) / m = l := by
    rw [Nat.mul_comm, Nat.mul_add_div hm, Nat.div_eq_of_lt i.2, Nat.add_zero]
  have hr : (l.1 * m + i.1) % m = i := by
    rw [Nat.mul_comm, Nat.mul_add_mod, Nat.mod_eq_of_lt i.2]
  rw [toM_apply]
  dsimp only
  rw [hd, hr]
  have hnear := Near.lsum_mul' R (n := n) (a := n * l) (x := fun k => P l k j) (y := fun k => f i k)
      (ξ := fun k => tab ((toM n n e).map val ^ l.1) k j) (X := fun k => tab ((toM n n e).map (|val ·|) ^ l.1) k j)
      (ε := fun k => tab (powUnder u η ((toM n n e).map (|val ·|)) l) k j)
      (fun k hk => by rw [tab_lt _ hk j.2, tab_lt _ hk j.2, tab_lt _ hk j.2]; exact (hP l).2 ⟨k, hk⟩ j)
  rw [Finset.sum_range, Finset.sum_range, Finset.sum_range] at hnear
  simp only [tab_lt _ (Fin.is_lt _) j.2] at hnear
  by_cases h0 : l.1 = 0
  · rw [if_pos h0, h0, pow_zero, pow_zero, Matrix.mul_one, Matrix.mul_one, Matrix.map_apply, toM_apply, sub_self, abs_zero, powUnder,
      Finset.sum_range_zero, Matrix.mul_zero, Matrix.zero_apply, mul_zero, zero_add, Matrix.map_apply]
    have : 0 ≤ (1 + u) ^ (n * (0 + 1)) - 1 := by
      have := one_le_pow₀ (n := n * (0 + 1)) (by linarith : (1 : K) ≤ 1 + u); linarith
    positivity
  · rw [if_neg h0, Nat.mul_succ]
    exact hnear.err

/-! ## Simulations -/

/-- The effect of underflow on the states of a simulation. -/
def simUnder (u η : K) {n : Nat} (m : Nat) (A : Matrix (Fin n) (Fin n) K) (k : Nat) : Fin n → K :=
  ∑ l ∈ Finset.range k, ((1 + u) ^ ((n + 1) * l) * ((1 + u) * ((n * (1 + u) ^ (n - 1) + m * (1 + u) ^ (m - 1)) * η))) • (A ^ l *ᵥ fun _ => 1)

omit R [LinearOrder K] [IsStrictOrderedRing K] in
theorem simUnder_succ {n m : Nat} (A : Matrix (Fin n) (Fin n) K) (k : Nat) (i : Fin n) :
    simUnder u η m A (k + 1) i = (1 + u) * ((1 + u) ^ n * (A *ᵥ simUnder u η m A k) i + n * (1 + u) ^ (n - 1) * η + m * (1 + u) ^ (m - 1) * η) := by
  unfold simUnder
  rw [Finset.sum_range_succ', Pi.add_apply, Finset.sum_apply, ← Matrix.mulVecLin_apply A, map_sum, Finset.sum_apply, Finset.mul_sum]
  rw [show ∀ x y z : K, (1 + u) * (x + y + z) = (1 + u) * x + (1 + u) * (y + z) from fun x y z => by ring, Finset.mul_sum]
  congr 1
  · refine Finset.sum_congr rfl fun l _ => ?_
    rw [Matrix.mulVecLin_apply, Matrix.mulVec_smul, Matrix.mulVec_mulVec, Pi.smul_apply, Pi.smul_apply, smul_eq_mul, smul_eq_mul, ← pow_succ',
      Nat.mul_succ, pow_add, pow_succ]
    ring
  · rw [pow_zero, Matrix.one_mulVec, Pi.smul_apply, smul_eq_mul]
    rw [Nat.mul_zero, pow_zero, one_mul, mul_one, ← add_mul]

omit [One T] in
/-- One line of the state equation, or of the output equation. -/
theorem Near.line {n m k : Nat} {x y z w : Nat → T} {ξ X ε : Nat → K} (hx : ∀ j, j < n → Near val u (k * (max n m + 1)) (ε j) (x j) (ξ j) (X j)) :
    Near val u ((k + 1) * (max n m + 1))
      ((1 + u) * ((1 + u) ^ n * (∑ j ∈ Finset.range n, |val (y j)| * ε j) + n * (1 + u) ^ (n - 1) * η + m * (1 + u) ^ (m - 1) * η))
      ((lsum n fun j => y j * x j) + lsum m fun j => z j * w j)
      (∑ j ∈ Finset.range n, val (y j) * ξ j + ∑ j ∈ Finset.range m, val (z j) * val (w j))
      (∑ j ∈ Finset.range n, |val (y j)| * X j + ∑ j ∈ Finset.range m, |val (z j)| * |val (w j)|) := by
  have hu := R.u_nonneg
  have h1 := Near.lsum_mul' R (y := y) hx
  have h2 := Near.lsum_mul R (n := m) (y := w) (fun i _ => Near.exact (val := val) (u := u) (z i))
  simp only [zero_mul, Finset.sum_const_zero, mul_zero, zero_add] at h2
  have h1' := h1.mono hu (l := k * (max n m + 1) + max n m) (by omega) le_rfl le_rfl
  have h2' := h2.mono hu (l := k * (max n m + 1) + max n m) (le_trans (le_max_right n m) (Nat.le_add_left _ _)) le_rfl le_rfl
  have := h1'.add R h2'
  rw [show k * (max n m + 1) + max n m + 1 = (k + 1) * (max n m + 1) by rw [Nat.add_mul, Nat.one_mul, Nat.add_assoc]] at this
  exact this

omit [One T] in
theorem stateSeq_near {n m : Nat} (a b : Nat → Nat → T) (x0 : Nat → T) (w : Nat → Nat → T) (k : Nat) (i : Fin n) :
    Near val u (k * (max n m + 1)) (simUnder u η m ((toM n n a).map (|val ·|)) k i) (stateSeq n m a b x0 w k i)
      (traj ((toM n n a).map val) ((toM n m b).map val) (fun j => val (x0 j)) (fun l j => val (w l j)) k i)
      (traj ((toM n n a).map (|val ·|)) ((toM n m b).map (|val ·|)) (fun j => |val (x0 j)|) (fun l j => |val (w l j)|) k i) := by
  induction k generalizing i with
  | zero => exact ⟨by simp [stateSeq, traj, simUnder], by simp [traj], by simp [simUnder]⟩
  | succ k ih =>
    have := Near.line R (n := n) (m := m) (k := k) (x := stateSeq n m a b x0 w k) (y := fun j => a i j) (z := fun j => b i j) (w := w k)
      (ξ := fun j => if h : j < n then traj ((toM n n a).map val) ((toM n m b).map val) (fun j => val (x0 j)) (fun l j => val (w l j)) k ⟨j, h⟩ else 0)
      (X := fun j => if h : j < n then traj ((toM n n a).map (|val ·|)) ((toM n m b).map (|val ·|)) (fun j => |val (x0 j)|)
        (fun l j => |val (w l j)|) k ⟨j, h⟩ else 0)
      (ε := fun j => if h : j < n then simUnder u η m ((toM n n a).map (|val ·|)) k ⟨j, h⟩ else 0)
      (fun j hj => by rw [dif_pos hj, dif_pos hj, dif_pos hj]; exact ih ⟨j, hj⟩)
    simp only [Finset.sum_range, Fin.is_lt, dif_pos, Fin.eta] at this
    rw [simUnder_succ]
    exact this

omit [One T] in
/-- C116: after `i` steps the computed states and outputs of a simulation differ from those of the exact simulation by at most
`(1 + u)^(i (max n m + 1)) - 1` times the state of the simulation with absolute values, and an underflow term. (The number of steps and the time
stamps are those of C83.) -/
theorem C116_simulate {n m q : Nat} {sys : DiscreteStateSpace T} {a b c d : Nat → Nat → T} (hA : RepAt sys.A.toMB n n a)
    (hB : RepAt sys.B.toMB n m b) (hC : RepAt sys.C.toMB q n c) (hD : RepAt sys.D.toMB q m d) (hn : n < allocMax) (hm : m < allocMax)
    (hq : q < allocMax) {toSize : T → Res Nat} {N k : Nat} {r st : T} (w : Nat → Nat → T) (x0 : Nat → T)
    (hr : cdiv st sys.sampleTime = .ok r) (hk : toSize r = .ok k) :
    ∃ (t : List T) (x y : Nat → Nat → T),
      simulate toSize sys (vtab N fun j => vtab m (w j)) st (vtab n x0) =
        .ok (t, vtab (min N k + 1) fun i => vtab n (x i), vtab (min N k) fun i => vtab q (y i)) ∧
      (∀ i (j : Fin n),
        |val (x i j) - traj ((toM n n a).map val) ((toM n m b).map val) (fun j => val (x0 j)) (fun l j => val (w l j)) i j| ≤
          ((1 + u) ^ (i * (max n m + 1)) - 1) *
            traj ((toM n n a).map (|val ·|)) ((toM n m b).map (|val ·|)) (fun j => |val (x0 j)|) (fun l j => |val (w l j)|) i j +
          simUnder u η m ((toM n n a).map (|val ·|)) i j) ∧
      (∀ i (j : Fin q),
        |val (y i j) - ((toM q n c).map val *ᵥ traj ((toM n n a).map val) ((toM n m b).map val) (fun j => val (x0 j)) (fun l j => val (w l j)) i +
            (toM q m d).map val *ᵥ fun l => val (w i l)) j| ≤
          ((1 + u) ^ ((i + 1) * (max n m + 1)) - 1) *
            ((toM q n c).map (|val ·|) *ᵥ traj ((toM n n a).map (|val ·|)) ((toM n m b).map (|val ·|)) (fun j => |val (x0 j)|)
              (fun l j => |val (w l j)|) i + (toM q m d).map (|val ·|) *ᵥ fun l => |val (w i l)|) j +
          (1 + u) * ((1 + u) ^ n * ((toM q n c).map (|val ·|) *ᵥ simUnder u η m ((toM n n a).map (|val ·|)) i) j +
            n * (1 + u) ^ (n - 1) * η + m * (1 + u) ^ (m - 1) * η)) := by
  refine ⟨_, _, _, simulate_exec hA hB hC hD hn hm hq w x0 hr hk, fun i j => (stateSeq_near R a b x0 w i j).err, fun i j => ?_⟩
  have := Near.line R (n := n) (m := m) (k := i) (x := stateSeq n m a b x0 w i) (y := fun l => c j l) (z := fun l => d j l) (w := w i)
      (ξ := fun j => if h : j < n then traj ((toM n n a).map val) ((toM n m b).map val) (fun j => val (x0 j)) (fun l j => val (w l j)) i ⟨j, h⟩ else 0)
      (X := fun j => if h : j < n then traj ((toM n n a).map (|val ·|)) ((toM n m b).map (|val ·|)) (fun j => |val (x0 j)|)
        (fun l j => |val (w l j)|) i ⟨j, h⟩ else 0)
      (ε := fun j => if h : j < n then simUnder u η m ((toM n n a).map (|val ·|)) i ⟨j, h⟩ else 0)
      (fun j hj => by rw [dif_pos hj, dif_pos hj, dif_pos hj]; exact stateSeq_near R a b x0 w i ⟨j, hj⟩)
  simp only [Finset.sum_range, Fin.is_lt, dif_pos, Fin.eta] at this
  exact this.err

/-! ## Polynomials from their roots -/

theorem polyLoop_near (one : val 1 = 1) {n : Nat} {a : Nat → Res T} {f : Nat → T} (ha : ∀ j, j < n → a j = .ok (f j)) :
    ∃ g : Nat → T, polyLoop n a (vtab (n + 1) fun i => if i = 0 then 1 else 0) = .ok (vtab (n + 1) g) ∧
      ∀ i, i ≤ n → Near val u (2 * n) (n * (1 + u) ^ (2 * n) * (∏ l ∈ Finset.range n, (1 + |val (f l)|)) * η) (g i)
        ((linProd (fun l => val (f l)) n).coeff (n - i)) ((linProd (fun l => -|val (f l)|) n).coeff (n - i)) := by
  have hu := R.u_nonneg
  have hη := R.η_nonneg
  have h1u : (1 : K) ≤ 1 + u := by linarith
  set φ : Nat → K := fun l => val (f l) with hφ
  set ψ : Nat → K := fun l => -|val (f l)| with hψ
  set H : Nat → K := fun j => j * (1 + u) ^ (2 * j) * (∏ l ∈ Finset.range j, (1 + |val (f l)|)) * η with hH
  have hpr : ∀ j, 0 ≤ ∏ l ∈ Finset.range j, (1 + |val (f l)|) := fun j => Finset.prod_nonneg fun l _ => by positivity
  have hpr1 : ∀ j, 1 ≤ ∏ l ∈ Finset.range j, (1 + |val (f l)|) := fun j => by
    induction j with
    | zero => simp
    | succ j ih => rw [Finset.prod_range_succ]; have := abs_nonneg (val (f j)); nlinarith
  have hH0 : ∀ j, 0 ≤ H j := fun j => by have := hpr j; simp only [hH]; positivity
  have hstep : ∀ j, (1 + u) * (H j + ((1 + u) * (H j * |val (f j)|) + η)) ≤ H (j + 1) := by
    intro j
    have e : H (j + 1) = (1 + u) ^ 2 * (1 + |val (f j)|) * H j +
        (1 + u) * ((1 + u) ^ (2 * j + 1) * ((∏ l ∈ Finset.range j, (1 + |val (f l)|)) * (1 + |val (f j)|)) * η) := by
      simp only [hH]
      rw [Finset.prod_range_succ, show 2 * (j + 1) = 2 * j + 1 + 1 by ring, pow_succ, pow_succ]
      push_cast
      ring
    rw [e]
    have hx := abs_nonneg (val (f j))
    have h2 : η ≤ (1 + u) ^ (2 * j + 1) * ((∏ l ∈ Finset.range j, (1 + |val (f l)|)) * (1 + |val (f j)|)) * η := by
      apply le_mul_of_one_le_left hη
      have h3 : 1 ≤ (1 + u) ^ (2 * j + 1) := one_le_pow₀ h1u
      have h4 : 1 ≤ (∏ l ∈ Finset.range j, (1 + |val (f l)|)) * (1 + |val (f j)|) := by have := hpr1 j; nlinarith
      nlinarith
    have h3 := mul_le_mul_of_nonneg_left h2 (by linarith : 0 ≤ 1 + u)
    have h4 := hH0 j
    have h5 : 0 ≤ u * (1 + u) * H j := by positivity
    nlinarith
  have hmono : ∀ j, H j ≤ H (j + 1) := fun j => by
    refine le_trans ?_ (hstep j)
    have := hH0 j
    have := abs_nonneg (val (f j))
    have : 0 ≤ (1 + u) * (H j * |val (f j)|) + η := by positivity
    nlinarith
  unfold polyLoop
  obtain ⟨s, h1, g, rfl, h2⟩ := forRange_inv (lo := 0) (hi := n) (Nat.zero_le n)
    (fun j (c : List T) => ∃ g, c = vtab (n + 1) g ∧ ∀ i, i ≤ n → Near val u (2 * j) (H j) (g i) (partialCoeff φ j i) (partialCoeff ψ j i))
    (s := vtab (n + 1) fun i => if i = 0 then 1 else 0)
    (body := fun j c => forRange 0 (j + 1) c fun k c => do
      let i := j + 1 - k
      let z ← vget c i
      let x ← a j
      let y ← vget c (i - 1)
      vset c i (z - x * y))
    (by
      refine ⟨_, rfl, fun i hi => ?_⟩
      unfold partialCoeff linProd
      by_cases h : i = 0
      · subst h
        exact ⟨by simp [one, hH], by simp, hH0 0⟩
      · rw [if_neg h, if_neg (by omega), if_neg (by omega)]
        exact ⟨by simp [R.zero, hH], by simp, hH0 0⟩)
    (by
      rintro j c - hj ⟨g, rfl, hg⟩
      obtain ⟨s, h1, g', rfl, h2⟩ := forRange_inv (lo := 0) (hi := j + 1) (Nat.zero_le _)
        (fun k (c : List T) => ∃ g, c = vtab (n + 1) g ∧ ∀ i, i ≤ n →
          if j + 1 - k < i ∧ i ≤ j + 1 then Near val u (2 * (j + 1)) (H (j + 1)) (g i) (partialCoeff φ (j + 1) i) (partialCoeff ψ (j + 1) i)
          else Near val u (2 * j) (H j) (g i) (partialCoeff φ j i) (partialCoeff ψ j i))
        (s := vtab (n + 1) g)
        (body := fun k c => do
          let i := j + 1 - k
          let z ← vget c i
          let x ← a j
          let y ← vget c (i - 1)
          vset c i (z - x * y))
        (by refine ⟨_, rfl, fun i hi => ?_⟩; rw [if_neg (by omega)]; exact hg i hi)
        (by
          rintro k c - hk ⟨g, rfl, hg⟩
          obtain ⟨i, hi⟩ : ∃ i, j + 1 - k = i + 1 := ⟨j - k, by omega⟩
          dsimp only
          rw [hi, Nat.add_sub_cancel, vget_vtab (by omega), Res.ok_bind, ha j hj, Res.ok_bind, vget_vtab (by omega), Res.ok_bind,
            vset_vtab (by omega)]
          refine ⟨_, rfl, _, rfl, fun l hl => ?_⟩
          by_cases h : l = i + 1
          · subst h
            have e1 := hg (i + 1) hl
            have e2 := hg i (by omega)
            rw [if_neg (by omega)] at e1 e2
            rw [Function.update_self, if_pos ⟨by omega, by omega⟩, partialCoeff_step φ (by omega), partialCoeff_step ψ (by omega)]
            have := (e1.mono hu (l := 2 * j + 1) (by omega) le_rfl le_rfl).sub R (Near.mul' R (y := f j) e2)
            refine this.mono hu (by omega) (hstep j) (le_of_eq ?_)
            simp only [hψ]
            ring
          · rw [Function.update_of_ne h]
            have e := hg l hl
            by_cases h2 : i + 1 < l ∧ l ≤ j + 1
            · rw [if_pos ⟨by omega, h2.2⟩] at e; rw [if_pos ⟨by omega, h2.2⟩]; exact e
            · rw [if_neg (by omega)] at e; rw [if_neg (by omega)]; exact e)
      refine ⟨_, h1, _, rfl, fun i hi => ?_⟩
      have e := h2 i hi
      rw [Nat.sub_self] at e
      by_cases h0 : i = 0
      · subst h0; rw [if_neg (by omega)] at e; rw [partialCoeff_first, partialCoeff_first]
        exact e.mono hu (by omega) (hmono j) le_rfl
      · by_cases h1 : i ≤ j + 1
        · rw [if_pos ⟨by omega, h1⟩] at e; exact e
        · rw [if_neg (by omega)] at e
          have h3 : ∀ θ : Nat → K, partialCoeff θ (j + 1) i = partialCoeff θ j i := fun θ => by
            unfold partialCoeff; rw [if_neg (by omega), if_neg (by omega)]
          rw [h3, h3]
          exact e.mono hu (by omega) (hmono j) le_rfl)
  refine ⟨g, h1, fun i hi => ?_⟩
  have := h2 i hi
  unfold partialCoeff at this
  rw [if_pos hi, if_pos hi] at this
  exact this

/-- C116: the coefficients that `poly` computes from the roots `a` have errors of at most `(1 + u)^(2 n) - 1` times those of the polynomial with the roots
`-|a|`, and an underflow term. -/
theorem C116_roots (one : val 1 = 1) (a : List T) (h : 1 + a.length < allocMax) :
    ∃ c : List T, polyRoots a = .ok c ∧ c.length = a.length + 1 ∧ ∀ i x, c[i]? = some x →
      |val x - ((a.map fun r => (X - C (val r) : K[X])).prod).coeff (a.length - i)| ≤
        ((1 + u) ^ (2 * a.length) - 1) * ((a.map fun r => (X + C |val r| : K[X])).prod).coeff (a.length - i) +
          a.length * (1 + u) ^ (2 * a.length) * (a.map fun r => 1 + |val r|).prod * η := by
  unfold polyRoots
  rw [initCoeff' h]
  obtain ⟨g, h1, h2⟩ := polyLoop_near R one (n := a.length) (a := vget a) (f := fun i => a.getD i 0)
    (fun j hj => by rw [vget_lt hj, List.getD_eq_getElem?_getD, List.getElem?_eq_getElem hj]; rfl)
  refine ⟨_, h1, by simp, fun i x hx => ?_⟩
  have hi : i < a.length + 1 := by
    by_contra hc
    rw [List.getElem?_eq_none (by simp; omega)] at hx
    cases hx
  rw [vtab, List.getElem?_map, List.getElem?_range hi] at hx
  injection hx with hx
  subst hx
  have hl : ∀ {L : Type} [CommMonoid L] (F : T → L), ∏ l ∈ Finset.range a.length, F (a.getD l 0) = (a.map F).prod := by
    intro L _ F
    rw [Finset.prod_range, ← List.prod_ofFn]
    congr 1
    apply List.ext_getElem (by simp)
    intro l h1 h2
    simp only [List.length_map] at h2
    simp
  have := (h2 i (by omega)).err
  unfold linProd at this
  rw [hl (fun r => (X - C (val r) : K[X])), hl (fun r => (X - C (-|val r|) : K[X])), hl (fun r => 1 + |val r|)] at this
  simpa only [C_neg, sub_neg_eq_add] using this

end

/-- C116 for `double` (without overflow and underflow): after `i` steps the error of a state is at most `i (max n m + 1) / 2^52` of the state of the
simulation with absolute values. -/
theorem C116_double {n m q : Nat} {sys : DiscreteStateSpace Double} {a b c d : Nat → Nat → Double} (hA : RepAt sys.A.toMB n n a)
    (hB : RepAt sys.B.toMB n m b) (hC : RepAt sys.C.toMB q n c) (hD : RepAt sys.D.toMB q m d) (hn : n < allocMax) (hm : m < allocMax)
    (hq : q < allocMax) {toSize : Double → Res Nat} {N k : Nat} {r st : Double} (w : Nat → Nat → Double) (x0 : Nat → Double)
    (hr : cdiv st sys.sampleTime = .ok r) (hk : toSize r = .ok k) :
    ∃ (t : List Double) (x y : Nat → Nat → Double),
      simulate toSize sys (vtab N fun j => vtab m (w j)) st (vtab n x0) =
        .ok (t, vtab (min N k + 1) fun i => vtab n (x i), vtab (min N k) fun i => vtab q (y i)) ∧
      ∀ i, i * (max n m + 1) ≤ 2 ^ 52 → ∀ j : Fin n,
        |(x i j).val - traj ((toM n n a).map Fl.val) ((toM n m b).map Fl.val) (fun j => (x0 j).val) (fun l j => (w l j).val) i j| ≤
          (i * (max n m + 1) : ℕ) / 2 ^ 52 *
            traj ((toM n n a).map (|Fl.val ·|)) ((toM n m b).map (|Fl.val ·|)) (fun j => |(x0 j).val|) (fun l j => |(w l j).val|) i j +
          simUnder (1 / 2 ^ 53) (1 / 2 ^ 1075) m ((toM n n a).map (|Fl.val ·|)) i j := by
  have R := Fl.rounds ℚ (p := 53) (by norm_num) (-1074)
  obtain ⟨t, x, y, h1, h2, -⟩ := C116_simulate R hA hB hC hD hn hm hq (N := N) w x0 hr hk
  refine ⟨t, x, y, h1, fun i hi j => (h2 i j).trans ?_⟩
  have hu : (2 : ℚ) ^ (-((53 : ℕ) : ℤ)) = 1 / 2 ^ 53 := by norm_num
  have hη : (2 : ℚ) ^ (-1074 : ℤ) / 2 = 1 / 2 ^ 1075 := by rw [two_zpow_emin, pow_succ 2 1074, div_div]
  rw [hu, hη]
  have hpos : 0 ≤ traj ((toM n n a).map (|Fl.val ·|)) ((toM n m b).map (|Fl.val ·|)) (fun j => |(x0 j).val|) (fun l j => |(w l j).val|) i j :=
    le_trans (abs_nonneg _) (stateSeq_near R a b x0 w i j).size
  exact add_le_add_left (mul_le_mul_of_nonneg_right (double_factor hi) hpos) _

/-- The state `0.1`, halved and increased by `0.1` five times, in `double`: from the stored value of `0.1` the exact state after five steps would be
`226981421219473011 / 2^60`; the computed state is `13 / 2^60` more, within the bound of `10 / 2^52` of it. -/
example : (simulate doubleSize (⟨⟨⟨1, 1, doubles [1/2]⟩, ⟨1, 1, doubles [1]⟩, ⟨1, 1, doubles [1]⟩, ⟨1, 1, doubles [0]⟩⟩, 1⟩ : DiscreteStateSpace Double)
      (List.replicate 5 (doubles [1/10])) (Fl.of 53 (-1074) 5) (doubles [1/10]) >>= fun r => .ok (r.2.1.map (List.map Fl.val))) =
    .ok [[3602879701896397/2^55], [1351079888211149/2^53], [6305039478318695/2^55], [3/2^4], [6980579422424269/2^55],
      [(226981421219473011 + 13)/2^60]] ∧
    traj !![(1/2 : ℚ)] !![1] ![3602879701896397/2^55] (fun _ => ![3602879701896397/2^55]) 5 0 = 226981421219473011/2^60 ∧
    (13/2^60 : ℚ) ≤ (5 * (max 1 1 + 1) : ℕ) / 2 ^ 52 * (226981421219473011/2^60) := by decide +kernel

/-- `poly({0.1, 0.2, 0.3})`: the linear coefficient is rounded. -/
example : (polyRoots (doubles [1/10, 2/10, 3/10]) >>= fun c => .ok (c.map Fl.val)) =
    .ok [1, -1351079888211149/2^51, 3963167672086037/2^55, -6917529027641083/2^60] ∧
    (doubles [1/10, 2/10, 3/10]).map (fun x : Double => x.val) = [3602879701896397/2^55, 3602879701896397/2^54, 5404319552844595/2^54] ∧
    (3602879701896397/2^55 + 3602879701896397/2^54 + 5404319552844595/2^54 : ℚ) ≠ 1351079888211149/2^51 := by decide +kernel

/-- `powm` of `[0.1]`: the square is rounded. -/
example : (powm (⟨1, 1, doubles [1/10]⟩ : Mat Double).toMB 2 >>= fun c => .ok (c.data.map Fl.val)) = .ok [1441151880758559/2^57] ∧
    ((3602879701896397/2^55)^2 : ℚ) ≠ 1441151880758559/2^57 := by decide +kernel

end Malg
