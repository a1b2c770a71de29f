import Verif.Props.IeeeAcc
/-!
# Property C151: contracting systems stay bounded, and rounding errors do not add up
-/
namespace Malg
open Ops Lin Control Ieee
open scoped Matrix

/-- What underflow in one step of a simulation contributes at most. -/
def stepUnder {K : Type} [Field K] (u η : K) (n m : Nat) : K := (1 + u) * ((n * (1 + u) ^ (n - 1) + m * (1 + u) ^ (m - 1)) * η)

section
variable {T K : Type} [Zero T] [Add T] [Sub T] [Mul T] [CDiv T] [Field K] [LinearOrder K] [IsStrictOrderedRing K]
  {val : T → K} {u η : K} (R : Rounds val u η)
include R

theorem stepUnder_nonneg (n m : Nat) : 0 ≤ stepUnder u η n m := by
  have := R.u_nonneg
  have := R.η_nonneg
  unfold stepUnder
  positivity

/-- The size of a sum of two scalar products. -/
theorem two_sums_le (x y z w : Nat → T) (n m : Nat) :
    |val ((lsum n fun j => x j * y j) + lsum m fun j => z j * w j)| ≤
      (1 + u) ^ (max n m + 1) * (∑ j ∈ Finset.range n, |val (x j)| * |val (y j)| + ∑ j ∈ Finset.range m, |val (z j)| * |val (w j)|) + stepUnder u η n m := by
  have h := two_sums_err R x y z w n m
  have h1 : |∑ j ∈ Finset.range n, val (x j) * val (y j) + ∑ j ∈ Finset.range m, val (z j) * val (w j)| ≤
      ∑ j ∈ Finset.range n, |val (x j)| * |val (y j)| + ∑ j ∈ Finset.range m, |val (z j)| * |val (w j)| := by
    refine (abs_add_le _ _).trans (add_le_add ?_ ?_)
    · simpa only [abs_mul] using Finset.abs_sum_le_sum_abs (fun j => val (x j) * val (y j)) (Finset.range n)
    · simpa only [abs_mul] using Finset.abs_sum_le_sum_abs (fun j => val (z j) * val (w j)) (Finset.range m)
  have h2 := abs_sub_abs_le_abs_sub (val ((lsum n fun j => x j * y j) + lsum m fun j => z j * w j))
    (∑ j ∈ Finset.range n, val (x j) * val (y j) + ∑ j ∈ Finset.range m, val (z j) * val (w j))
  unfold stepUnder
  linarith

omit R [Zero T] [Add T] [Sub T] [Mul T] [CDiv T] in
theorem weighted_le {n : Nat} {a x v : Nat → K} {q M : K} (h0 : ∀ j, j < n → 0 ≤ a j) (ha : ∑ j ∈ Finset.range n, a j * v j ≤ q) (hx : ∀ j, j < n → x j ≤ M * v j) (hM : 0 ≤ M) :
    ∑ j ∈ Finset.range n, a j * x j ≤ q * M := by
  refine le_trans (Finset.sum_le_sum fun j hj => (mul_le_mul_of_nonneg_left (hx j (Finset.mem_range.1 hj)) (h0 j (Finset.mem_range.1 hj))).trans
    (mul_left_comm (a j) M (v j)).le) ?_
  rw [← Finset.mul_sum, mul_comm]
  exact mul_le_mul_of_nonneg_right ha hM

variable {n m : Nat} {a b : Nat → Nat → T} {x0 : Nat → T} {w : Nat → Nat → T} {q β σ M : K} {v : Nat → K}

/-- Bounded states, for all times. -/
theorem stateSeq_bounded (hv : ∀ i, i < n → 0 < v i) (ha : ∀ i, i < n → ∑ j ∈ Finset.range n, |val (a i j)| * v j ≤ q * v i) (hb : ∀ k i, i < n → ∑ j ∈ Finset.range m, |val (b i j)| * |val (w k j)| ≤ β * v i)
    (h0 : ∀ j, j < n → |val (x0 j)| ≤ M * v j) (hσ : ∀ i, i < n → stepUnder u η n m ≤ σ * v i) (hM : (1 + u) ^ (max n m + 1) * (q * M + β) + σ ≤ M) (k : Nat) :
    ∀ i, i < n → |val (stateSeq n m a b x0 w k i)| ≤ M * v i := by
  have hu := R.u_nonneg
  induction k with
  | zero => exact h0
  | succ k ih =>
    intro i hi
    have hM0 : 0 ≤ M := nonneg_of_mul_nonneg_left ((abs_nonneg _).trans (h0 i hi)) (hv i hi)
    refine (two_sums_le R (fun j => a i j) (stateSeq n m a b x0 w k) (fun j => b i j) (w k) n m).trans (le_trans ?_ (mul_le_mul_of_nonneg_right hM (hv i hi).le))
    have h1 := weighted_le (fun j _ => abs_nonneg (val (a i j))) (ha i hi) ih hM0
    have h2 := hb k i hi
    have h3 := hσ i hi
    calc _ ≤ (1 + u) ^ (max n m + 1) * (q * v i * M + β * v i) + σ * v i := by gcongr
      _ = _ := by ring

/-- Errors that do not depend on the number of steps. -/
theorem stateSeq_error (hq : q < 1) (hv : ∀ i, i < n → 0 < v i) (ha : ∀ i, i < n → ∑ j ∈ Finset.range n, |val (a i j)| * v j ≤ q * v i)
    (hb : ∀ k i, i < n → ∑ j ∈ Finset.range m, |val (b i j)| * |val (w k j)| ≤ β * v i)
    (h0 : ∀ j, j < n → |val (x0 j)| ≤ M * v j) (hσ : ∀ i, i < n → stepUnder u η n m ≤ σ * v i) (hM : (1 + u) ^ (max n m + 1) * (q * M + β) + σ ≤ M) (k : Nat) (i : Fin n) :
    |val (stateSeq n m a b x0 w k i) - traj ((toM n n a).map val) ((toM n m b).map val) (fun j => val (x0 j)) (fun l j => val (w l j)) k i| ≤
      (((1 + u) ^ (max n m + 1) - 1) * (q * M + β) + σ) / (1 - q) * v i := by
  have hu := R.u_nonneg
  have hvi := hv i i.2
  have hM0 : 0 ≤ M := nonneg_of_mul_nonneg_left ((abs_nonneg _).trans (h0 i i.2)) hvi
  have hq0 : 0 ≤ q := nonneg_of_mul_nonneg_left ((Finset.sum_nonneg fun j hj => mul_nonneg (abs_nonneg _) (hv j (Finset.mem_range.1 hj)).le).trans (ha i i.2)) hvi
  have hβ0 : 0 ≤ β := nonneg_of_mul_nonneg_left ((Finset.sum_nonneg fun _ _ => mul_nonneg (abs_nonneg _) (abs_nonneg _)).trans (hb 0 i i.2)) hvi
  have hσ0 : 0 ≤ σ := nonneg_of_mul_nonneg_left ((stepUnder_nonneg R n m).trans (hσ i i.2)) hvi
  have hg : 0 ≤ (1 + u) ^ (max n m + 1) - 1 := sub_nonneg.2 (one_le_pow₀ (by linarith))
  have h1q : 0 < 1 - q := by linarith
  clear hvi
  set δ := ((1 + u) ^ (max n m + 1) - 1) * (q * M + β) + σ with hδ
  have hδ0 : 0 ≤ δ := by positivity
  have hD : 0 ≤ δ / (1 - q) := by positivity
  have hstep : q * (δ / (1 - q)) + δ = δ / (1 - q) := by field_simp; ring
  induction k generalizing i with
  | zero =>
    show |val (x0 i) - val (x0 i)| ≤ _
    rw [sub_self, abs_zero]
    exact mul_nonneg hD (hv i i.2).le
  | succ k ih =>
    have hvi := hv i i.2
    have e1 := two_sums_err R (fun j => a i j) (stateSeq n m a b x0 w k) (fun j => b i j) (w k) n m
    have e2 : traj ((toM n n a).map val) ((toM n m b).map val) (fun j => val (x0 j)) (fun l j => val (w l j)) (k + 1) i =
        ∑ j : Fin n, val (a i j) * traj ((toM n n a).map val) ((toM n m b).map val) (fun j => val (x0 j)) (fun l j => val (w l j)) k j +
          ∑ j : Fin m, val (b i j) * val (w k j) := rfl
    have hs := weighted_le (fun j _ => abs_nonneg (val (a i j))) (ha i i.2) (stateSeq_bounded R hv ha hb h0 hσ hM k) hM0
    have hs2 := hb k i i.2
    have e3 : |val (stateSeq n m a b x0 w (k + 1) i) - (∑ j ∈ Finset.range n, val (a i j) * val (stateSeq n m a b x0 w k j) + ∑ j ∈ Finset.range m, val (b i j) * val (w k j))| ≤ δ * v i := by
      refine e1.trans ?_
      have h3 := hσ i i.2
      unfold stepUnder at h3
      calc _ ≤ ((1 + u) ^ (max n m + 1) - 1) * (q * v i * M + β * v i) + σ * v i := by gcongr
        _ = _ := by rw [hδ]; ring
    have e4 : |∑ j : Fin n, val (a i j) * val (stateSeq n m a b x0 w k j) -
        ∑ j : Fin n, val (a i j) * traj ((toM n n a).map val) ((toM n m b).map val) (fun j => val (x0 j)) (fun l j => val (w l j)) k j| ≤ q * (δ / (1 - q)) * v i := by
      rw [← Finset.sum_sub_distrib]
      refine (Finset.abs_sum_le_sum_abs _ _).trans ?_
      have h3 : ∑ j : Fin n, |val (a i j)| * v j ≤ q * v i := by
        have := ha i i.2
        rwa [Finset.sum_range] at this
      refine le_trans (Finset.sum_le_sum fun j _ => ?_) ((Finset.sum_mul _ _ (δ / (1 - q))).symm.le.trans ((mul_le_mul_of_nonneg_right h3 hD).trans (mul_right_comm _ _ _).le))
      rw [← mul_sub, abs_mul, mul_assoc, mul_comm (v j)]
      exact mul_le_mul_of_nonneg_left (ih j) (abs_nonneg _)
    rw [Finset.sum_range, Finset.sum_range] at e3
    rw [e2, ← hstep]
    have e5 := abs_add_le (∑ j : Fin n, val (a i j) * val (stateSeq n m a b x0 w k j) -
        ∑ j : Fin n, val (a i j) * traj ((toM n n a).map val) ((toM n m b).map val) (fun j => val (x0 j)) (fun l j => val (w l j)) k j)
      (val (stateSeq n m a b x0 w (k + 1) i) - (∑ j : Fin n, val (a i j) * val (stateSeq n m a b x0 w k j) + ∑ j : Fin m, val (b i j) * val (w k j)))
    rw [add_mul]
    refine le_trans (le_of_eq ?_) (e5.trans (add_le_add e4 e3))
    congr 1
    ring

/-- Without input the state decays. -/
theorem stateSeq_decay (hv : ∀ i, i < n → 0 < v i) (ha : ∀ i, i < n → ∑ j ∈ Finset.range n, |val (a i j)| * v j ≤ q * v i) (hq : (1 + u) ^ (max n m + 1) * q < 1)
    (hw : ∀ k j, j < m → val (w k j) = 0) (h0 : ∀ j, j < n → |val (x0 j)| ≤ M * v j) (hσ : ∀ i, i < n → stepUnder u η n m ≤ σ * v i) (k : Nat) :
    ∀ i, i < n → |val (stateSeq n m a b x0 w k i)| ≤ (((1 + u) ^ (max n m + 1) * q) ^ k * M + σ / (1 - (1 + u) ^ (max n m + 1) * q)) * v i := by
  have hu := R.u_nonneg
  have h1 : 0 < 1 - (1 + u) ^ (max n m + 1) * q := by linarith
  have hσ0 : ∀ i, i < n → 0 ≤ σ := fun i hi => nonneg_of_mul_nonneg_left ((stepUnder_nonneg R n m).trans (hσ i hi)) (hv i hi)
  induction k with
  | zero =>
    intro i hi
    have := hσ0 i hi
    rw [pow_zero, one_mul, add_mul]
    exact (h0 i hi).trans (le_add_of_nonneg_right (mul_nonneg (by positivity) (hv i hi).le))
  | succ k ih =>
    intro i hi
    have hvi := hv i hi
    have := hσ0 i hi
    have hM0 : 0 ≤ M := nonneg_of_mul_nonneg_left ((abs_nonneg _).trans (h0 i hi)) hvi
    have hq0 : 0 ≤ q := nonneg_of_mul_nonneg_left ((Finset.sum_nonneg fun j hj => mul_nonneg (abs_nonneg _) (hv j (Finset.mem_range.1 hj)).le).trans (ha i hi)) hvi
    refine (two_sums_le R (fun j => a i j) (stateSeq n m a b x0 w k) (fun j => b i j) (w k) n m).trans ?_
    have h3 : ∑ j ∈ Finset.range m, |val (b i j)| * |val (w k j)| = 0 :=
      Finset.sum_eq_zero fun j hj => by rw [hw k j (Finset.mem_range.1 hj), abs_zero, mul_zero]
    have h4 := weighted_le (fun j _ => abs_nonneg (val (a i j))) (ha i hi) ih (by positivity)
    rw [h3, add_zero]
    refine (add_le_add (mul_le_mul_of_nonneg_left h4 (by positivity)) (hσ i hi)).trans (le_of_eq ?_)
    generalize (1 + u) ^ (max n m + 1) = g at *
    rw [pow_succ]
    field_simp
    ring

variable {p : Nat} {c d : Nat → Nat → T} {γ ζ : K}

/-- Outputs whose errors do not depend on the number of steps. -/
theorem outputSeq_error (hq : q < 1) (hv : ∀ i, i < n → 0 < v i) (ha : ∀ i, i < n → ∑ j ∈ Finset.range n, |val (a i j)| * v j ≤ q * v i)
    (hb : ∀ k i, i < n → ∑ j ∈ Finset.range m, |val (b i j)| * |val (w k j)| ≤ β * v i)
    (hc : ∀ i, i < p → ∑ j ∈ Finset.range n, |val (c i j)| * v j ≤ γ) (hd : ∀ k i, i < p → ∑ j ∈ Finset.range m, |val (d i j)| * |val (w k j)| ≤ ζ)
    (hM0 : 0 ≤ M) (h0 : ∀ j, j < n → |val (x0 j)| ≤ M * v j) (hσ : ∀ i, i < n → stepUnder u η n m ≤ σ * v i) (hM : (1 + u) ^ (max n m + 1) * (q * M + β) + σ ≤ M)
    {D : K} (hD0 : 0 ≤ D) (hD : (((1 + u) ^ (max n m + 1) - 1) * (q * M + β) + σ) / (1 - q) ≤ D) (k : Nat) (i : Fin p) :
    |val ((lsum n fun j => c i j * stateSeq n m a b x0 w k j) + lsum m fun j => d i j * w k j) -
        ((toM p n c).map val *ᵥ traj ((toM n n a).map val) ((toM n m b).map val) (fun j => val (x0 j)) (fun l j => val (w l j)) k +
          (toM p m d).map val *ᵥ fun j => val (w k j)) i| ≤
      γ * D + (((1 + u) ^ (max n m + 1) - 1) * (γ * M + ζ) + stepUnder u η n m) := by
  have hu := R.u_nonneg
  have hg : 0 ≤ (1 + u) ^ (max n m + 1) - 1 := sub_nonneg.2 (one_le_pow₀ (by linarith))
  have e1 := two_sums_err R (fun j => c i j) (stateSeq n m a b x0 w k) (fun j => d i j) (w k) n m
  have hs := weighted_le (fun j _ => abs_nonneg (val (c i j))) (hc i i.2) (stateSeq_bounded R hv ha hb h0 hσ hM k) hM0
  have hs2 := hd k i i.2
  have e3 : |val ((lsum n fun j => c i j * stateSeq n m a b x0 w k j) + lsum m fun j => d i j * w k j) -
      (∑ j ∈ Finset.range n, val (c i j) * val (stateSeq n m a b x0 w k j) + ∑ j ∈ Finset.range m, val (d i j) * val (w k j))| ≤
      ((1 + u) ^ (max n m + 1) - 1) * (γ * M + ζ) + stepUnder u η n m := e1.trans (by unfold stepUnder; gcongr)
  have e4 : |∑ j : Fin n, val (c i j) * val (stateSeq n m a b x0 w k j) -
      ∑ j : Fin n, val (c i j) * traj ((toM n n a).map val) ((toM n m b).map val) (fun j => val (x0 j)) (fun l j => val (w l j)) k j| ≤ γ * D := by
    rw [← Finset.sum_sub_distrib]
    refine (Finset.abs_sum_le_sum_abs _ _).trans ?_
    have h3 : ∑ j : Fin n, |val (c i j)| * v j ≤ γ := by
      have := hc i i.2
      rwa [Finset.sum_range] at this
    refine le_trans (Finset.sum_le_sum fun j _ => ?_) ((Finset.sum_mul _ _ D).symm.le.trans (mul_le_mul_of_nonneg_right h3 hD0))
    rw [← mul_sub, abs_mul, mul_assoc, mul_comm (v j)]
    exact mul_le_mul_of_nonneg_left ((stateSeq_error R hq hv ha hb h0 hσ hM k j).trans (mul_le_mul_of_nonneg_right hD (hv j j.2).le)) (abs_nonneg _)
  rw [Finset.sum_range, Finset.sum_range] at e3
  have e2 : ((toM p n c).map val *ᵥ traj ((toM n n a).map val) ((toM n m b).map val) (fun j => val (x0 j)) (fun l j => val (w l j)) k +
          (toM p m d).map val *ᵥ fun j => val (w k j)) i =
      ∑ j : Fin n, val (c i j) * traj ((toM n n a).map val) ((toM n m b).map val) (fun j => val (x0 j)) (fun l j => val (w l j)) k j +
        ∑ j : Fin m, val (d i j) * val (w k j) := rfl
  rw [e2]
  have e5 := abs_add_le (∑ j : Fin n, val (c i j) * val (stateSeq n m a b x0 w k j) -
      ∑ j : Fin n, val (c i j) * traj ((toM n n a).map val) ((toM n m b).map val) (fun j => val (x0 j)) (fun l j => val (w l j)) k j)
    (val ((lsum n fun j => c i j * stateSeq n m a b x0 w k j) + lsum m fun j => d i j * w k j) -
      (∑ j : Fin n, val (c i j) * val (stateSeq n m a b x0 w k j) + ∑ j : Fin m, val (d i j) * val (w k j)))
  refine le_trans (le_of_eq ?_) (e5.trans (add_le_add e4 e3))
  congr 1
  ring

variable {sys : DiscreteStateSpace T} (hA : RepAt sys.A.toMB n n a) (hB : RepAt sys.B.toMB n m b)
  (hC : RepAt sys.C.toMB p n c) (hD : RepAt sys.D.toMB p m d) (hn : n < allocMax) (hm : m < allocMax) (hp : p < allocMax)
include hA hB hC hD hn hm hp

/-- C151: with arithmetic that rounds, if `|A|` contracts, `|A| v ≤ q v` for some positive vector `v` and `q < 1`, the inputs contribute at most `β v` to a state and the
initial state is at most `M v`, where `M` is so large that `(1+u)^(max n m + 1) (q M + β)` and what underflow contributes do not exceed it, then all states of a simulation, however
many, are at most `M v`. Their distance from the states without rounding is at most `δ / (1 - q) v`, with `δ` the error of a single step, whatever the number of steps: errors do not
add up. The same for the outputs. Missing: systems that are stable although `|A|` is not, see `C151_stable_false`. -/
theorem C151_rounded_partial {toSize : T → Res Nat} {N k : Nat} {r st : T} (hr : cdiv st sys.sampleTime = .ok r) (hk : toSize r = .ok k) (hn0 : 0 < n) (hq : q < 1)
    (hv : ∀ i, i < n → 0 < v i) (ha : ∀ i, i < n → ∑ j ∈ Finset.range n, |val (a i j)| * v j ≤ q * v i) (hb : ∀ k i, i < n → ∑ j ∈ Finset.range m, |val (b i j)| * |val (w k j)| ≤ β * v i)
    (hc : ∀ i, i < p → ∑ j ∈ Finset.range n, |val (c i j)| * v j ≤ γ) (hd : ∀ k i, i < p → ∑ j ∈ Finset.range m, |val (d i j)| * |val (w k j)| ≤ ζ)
    (h0 : ∀ j, j < n → |val (x0 j)| ≤ M * v j) (hσ : ∀ i, i < n → stepUnder u η n m ≤ σ * v i) (hM : (1 + u) ^ (max n m + 1) * (q * M + β) + σ ≤ M) :
    ∃ (t : List T) (x y : Nat → Nat → T),
      simulate toSize sys (vtab N fun j => vtab m (w j)) st (vtab n x0) =
        .ok (t, vtab (min N k + 1) fun i => vtab n (x i), vtab (min N k) fun i => vtab p (y i)) ∧
      (∀ i (j : Fin n), |val (x i j)| ≤ M * v j ∧
        |val (x i j) - traj ((toM n n a).map val) ((toM n m b).map val) (fun j => val (x0 j)) (fun l j => val (w l j)) i j| ≤
          (((1 + u) ^ (max n m + 1) - 1) * (q * M + β) + σ) / (1 - q) * v j) ∧
      ∀ i (j : Fin p), |val (y i j)| ≤ (1 + u) ^ (max n m + 1) * (γ * M + ζ) + stepUnder u η n m ∧
        |val (y i j) - ((toM p n c).map val *ᵥ traj ((toM n n a).map val) ((toM n m b).map val) (fun j => val (x0 j)) (fun l j => val (w l j)) i +
          (toM p m d).map val *ᵥ fun j => val (w i j)) j| ≤
        γ * ((((1 + u) ^ (max n m + 1) - 1) * (q * M + β) + σ) / (1 - q)) + (((1 + u) ^ (max n m + 1) - 1) * (γ * M + ζ) + stepUnder u η n m) := by
  have hu := R.u_nonneg
  have hM0 : 0 ≤ M := nonneg_of_mul_nonneg_left ((abs_nonneg _).trans (h0 0 hn0)) (hv 0 hn0)
  have herr := stateSeq_error R hq hv ha hb h0 hσ hM
  refine ⟨_, _, _, simulate_exec hA hB hC hD hn hm hp w x0 hr hk, fun i j => ⟨stateSeq_bounded R hv ha hb h0 hσ hM i j j.2, herr i j⟩, fun i j => ⟨?_, ?_⟩⟩
  · refine (two_sums_le R (fun l => c j l) (stateSeq n m a b x0 w i) (fun l => d j l) (w i) n m).trans ?_
    have h1 := weighted_le (fun l _ => abs_nonneg (val (c j l))) (hc j j.2) (stateSeq_bounded R hv ha hb h0 hσ hM i) hM0
    have h2 := hd i j j.2
    gcongr
  · exact outputSeq_error R hq hv ha hb hc hd hM0 h0 hσ hM (nonneg_of_mul_nonneg_left ((abs_nonneg _).trans (herr 0 ⟨0, hn0⟩)) (hv 0 hn0)) le_rfl i j

/-- C151: without input the states decay like `((1+u)^(max n m + 1) q)^k`, down to the size of what underflows. -/
theorem C151_rest_partial {toSize : T → Res Nat} {N k : Nat} {r st : T} (hr : cdiv st sys.sampleTime = .ok r) (hk : toSize r = .ok k)
    (hv : ∀ i, i < n → 0 < v i) (ha : ∀ i, i < n → ∑ j ∈ Finset.range n, |val (a i j)| * v j ≤ q * v i) (hq : (1 + u) ^ (max n m + 1) * q < 1) (hw : ∀ k j, j < m → val (w k j) = 0)
    (h0 : ∀ j, j < n → |val (x0 j)| ≤ M * v j) (hσ : ∀ i, i < n → stepUnder u η n m ≤ σ * v i) :
    ∃ (t : List T) (x y : Nat → Nat → T),
      simulate toSize sys (vtab N fun j => vtab m (w j)) st (vtab n x0) =
        .ok (t, vtab (min N k + 1) fun i => vtab n (x i), vtab (min N k) fun i => vtab p (y i)) ∧
      ∀ i (j : Fin n), |val (x i j)| ≤ (((1 + u) ^ (max n m + 1) * q) ^ i * M + σ / (1 - (1 + u) ^ (max n m + 1) * q)) * v j :=
  ⟨_, _, _, simulate_exec hA hB hC hD hn hm hp w x0 hr hk, fun i j => stateSeq_decay R hv ha hq hw h0 hσ i j j.2⟩

end

section exact
variable {K : Type} [Field K] [LinearOrder K] [IsStrictOrderedRing K]

theorem exact_rounds_id : Rounds (fun x : K => x) 0 0 where
  u_nonneg := le_rfl
  η_nonneg := le_rfl
  zero := rfl
  zero_add x := zero_add x
  add x y := by simp
  sub x y := by simp
  mul x y := by simp
  div x y h := ⟨x / y, cdiv_ok x h, by simp⟩

variable {n m p : Nat} {sys : DiscreteStateSpace K} {a b c d : Nat → Nat → K} (hA : RepAt sys.A.toMB n n a) (hB : RepAt sys.B.toMB n m b)
  (hC : RepAt sys.C.toMB p n c) (hD : RepAt sys.D.toMB p m d) (hn : n < allocMax) (hm : m < allocMax) (hp : p < allocMax)
include hA hB hC hD hn hm hp

/-- C151 without rounding: states and outputs stay bounded, and without input the states decay like `q^k`. -/
theorem C151_exact {toSize : K → Res Nat} {N k : Nat} {r st : K} (hr : cdiv st sys.sampleTime = .ok r) (hk : toSize r = .ok k) (hn0 : 0 < n) {x0 : Nat → K}
    {w : Nat → Nat → K} {v : Nat → K} {q β γ ζ M : K} (hq : q < 1) (hv : ∀ i, i < n → 0 < v i) (ha : ∀ i, i < n → ∑ j ∈ Finset.range n, |a i j| * v j ≤ q * v i)
    (hb : ∀ k i, i < n → ∑ j ∈ Finset.range m, |b i j| * |w k j| ≤ β * v i) (hc : ∀ i, i < p → ∑ j ∈ Finset.range n, |c i j| * v j ≤ γ)
    (hd : ∀ k i, i < p → ∑ j ∈ Finset.range m, |d i j| * |w k j| ≤ ζ) (h0 : ∀ j, j < n → |x0 j| ≤ M * v j) (hM : q * M + β ≤ M) :
    ∃ (t : List K) (x y : Nat → Nat → K),
      simulate toSize sys (vtab N fun j => vtab m (w j)) st (vtab n x0) =
        .ok (t, vtab (min N k + 1) fun i => vtab n (x i), vtab (min N k) fun i => vtab p (y i)) ∧
      (∀ i (j : Fin n), |x i j| ≤ M * v j) ∧ (∀ i (j : Fin p), |y i j| ≤ γ * M + ζ) ∧
      ((∀ k j, j < m → w k j = 0) → ∀ i (j : Fin n), |x i j| ≤ q ^ i * M * v j) := by
  have hs : ∀ i, i < n → stepUnder (0 : K) 0 n m ≤ 0 * v i := fun i _ => by simp [stepUnder]
  have h1 : ∀ i, i < n → ∀ k, |stateSeq n m a b x0 w k i| ≤ M * v i := fun i hi k =>
    stateSeq_bounded exact_rounds_id hv ha hb h0 hs (by simpa using hM) k i hi
  have hM0 : 0 ≤ M := nonneg_of_mul_nonneg_left ((abs_nonneg _).trans (h0 0 hn0)) (hv 0 hn0)
  refine ⟨_, _, _, simulate_exec hA hB hC hD hn hm hp w x0 hr hk, fun i j => h1 j j.2 i, fun i j => ?_, fun hw i j => ?_⟩
  · have h2 := two_sums_le exact_rounds_id (fun l => c j l) (stateSeq n m a b x0 w i) (fun l => d j l) (w i) n m
    have h3 := weighted_le (fun l _ => abs_nonneg (c j l)) (hc j j.2) (fun l hl => h1 l hl i) hM0
    have h4 := hd i j j.2
    simp only [add_zero, one_pow, one_mul, stepUnder, mul_zero] at h2
    linarith
  · have := stateSeq_decay exact_rounds_id (b := b) hv ha (by simpa using hq) hw h0 hs i j j.2
    simpa using this

end exact

namespace Ieee
variable {K : Type} [Field K] [LinearOrder K] [IsStrictOrderedRing K] [FloorRing K] {p : ℕ} {emin : ℤ} {emax : ℕ}

/-- A scalar product of finite numbers that is small enough does not overflow. -/
theorem small_dot_finite (hp : 1 ≤ p) {x y : Nat → Ieee K p emin emax} {n : Nat} (hx : ∀ j, j < n → (x j).Finite) (hy : ∀ j, j < n → (y j).Finite)
    (h : (1 + 2 ^ (-(p : ℤ))) ^ n * ∑ j ∈ Finset.range n, |(x j).val| * |(y j).val| + n * (1 + 2 ^ (-(p : ℤ))) ^ (n - 1) * (2 ^ emin / 2) < (2 : K) ^ emax) :
    (lsum n fun j => x j * y j).Finite := by
  have F := Fl.rounds K hp emin
  have hu := F.u_nonneg
  have hη := F.η_nonneg
  generalize (2 : K) ^ (-(p : ℤ)) = u at *
  generalize (2 : K) ^ emin / 2 = η at *
  have h1 : (1 : K) ≤ 1 + u := by linarith
  have hmul : ∀ j, j < n → (x j * y j).Finite := fun j hj => by
    refine mul_finite.2 ⟨hx j hj, hy j hj, lt_of_le_of_lt ?_ h⟩
    have e := F.mul (x j).flD (y j).flD
    have e2 := abs_sub_abs_le_abs_sub ((x j).flD * (y j).flD).val ((x j).flD.val * (y j).flD.val)
    have e3 : |(x j).flD.val * (y j).flD.val| ≤ ∑ j ∈ Finset.range n, |(x j).val| * |(y j).val| := by
      rw [abs_mul]
      exact Finset.single_le_sum (f := fun j => |(x j).val| * |(y j).val|) (fun _ _ => mul_nonneg (abs_nonneg _) (abs_nonneg _)) (Finset.mem_range.2 hj)
    have hn : 1 ≤ n := by omega
    have e4 : 1 + u ≤ (1 + u) ^ n := le_self_pow₀ h1 (by omega)
    have e5 : (1 : K) ≤ n * (1 + u) ^ (n - 1) := one_le_mul_of_one_le_of_one_le (by exact_mod_cast hn) (one_le_pow₀ h1)
    have e6 : 0 ≤ |(x j).flD.val * (y j).flD.val| := abs_nonneg _
    calc |((x j).flD * (y j).flD).val| ≤ (1 + u) * |(x j).flD.val * (y j).flD.val| + 1 * η := by linarith
      _ ≤ _ := by gcongr
  have hfl : ∀ j, j < n → (x j * y j).flD = (x j).flD * (y j).flD := fun j hj => by
    have h2 := mul_finite.1 (hmul j hj)
    exact Option.some_inj.1 ((hmul j hj).fl_eq.symm.trans (fl_mul h2.1.fl_eq h2.2.1.fl_eq h2.2.2))
  refine lsum_finite.2 ⟨hmul, fun k hk => lt_of_le_of_lt ?_ h⟩
  have e0 : (lsum k fun i => (x i * y i).flD) = lsum k fun i => (x i).flD * (y i).flD := lsum_congr fun j hj => hfl j (by omega)
  rw [e0]
  have e1 := lsum_mul_err F (fun i => (x i).flD) (fun i => (y i).flD) k
  have e2 := abs_sub_abs_le_abs_sub (lsum k fun i => (x i).flD * (y i).flD).val (∑ i ∈ Finset.range k, (x i).flD.val * (y i).flD.val)
  have e3 : |∑ i ∈ Finset.range k, (x i).flD.val * (y i).flD.val| ≤ ∑ j ∈ Finset.range k, |(x j).val| * |(y j).val| := by
    have := Finset.abs_sum_le_sum_abs (fun j => (x j).flD.val * (y j).flD.val) (Finset.range k)
    simp only [abs_mul] at this
    exact this
  have e4 : ∑ j ∈ Finset.range k, |(x j).val| * |(y j).val| ≤ ∑ j ∈ Finset.range n, |(x j).val| * |(y j).val| :=
    Finset.sum_le_sum_of_subset_of_nonneg (Finset.range_subset_range.2 hk) fun _ _ _ => mul_nonneg (abs_nonneg _) (abs_nonneg _)
  have e5 : ((k : Nat) : K) ≤ n := by exact_mod_cast hk
  calc |(lsum k fun i => (x i).flD * (y i).flD).val| ≤ (1 + u) ^ k * ∑ j ∈ Finset.range k, |(x j).val| * |(y j).val| + k * (1 + u) ^ (k - 1) * η := by
        have : ∑ i ∈ Finset.range k, |(x i).flD.val| * |(y i).flD.val| = ∑ j ∈ Finset.range k, |(x j).val| * |(y j).val| := rfl
        rw [this] at e1
        linarith
    _ ≤ _ := by gcongr

/-- So for a sum of two. -/
theorem two_dots_finite (hp : 1 ≤ p) (he : emin ≤ 0) (hx' : 1 ≤ emax) {x y z w : Nat → Ieee K p emin emax} {n m : Nat} (hx : ∀ j, j < n → (x j).Finite) (hy : ∀ j, j < n → (y j).Finite)
    (hz : ∀ j, j < m → (z j).Finite) (hw : ∀ j, j < m → (w j).Finite)
    (h : (1 + 2 ^ (-(p : ℤ))) ^ (max n m + 1) * (∑ j ∈ Finset.range n, |(x j).val| * |(y j).val| + ∑ j ∈ Finset.range m, |(z j).val| * |(w j).val|) +
      stepUnder (2 ^ (-(p : ℤ))) (2 ^ emin / 2) n m < (2 : K) ^ emax) :
    ((lsum n fun j => x j * y j) + lsum m fun j => z j * w j).Finite := by
  have R := reads (K := K) hp he hx'
  have F := Fl.rounds K hp emin
  have hu := F.u_nonneg
  have hη := F.η_nonneg
  have h1 : (1 : K) ≤ 1 + 2 ^ (-(p : ℤ)) := by linarith
  have s1 : 0 ≤ ∑ j ∈ Finset.range n, |(x j).val| * |(y j).val| := Finset.sum_nonneg fun _ _ => mul_nonneg (abs_nonneg _) (abs_nonneg _)
  have s2 : 0 ≤ ∑ j ∈ Finset.range m, |(z j).val| * |(w j).val| := Finset.sum_nonneg fun _ _ => mul_nonneg (abs_nonneg _) (abs_nonneg _)
  have f1 : (lsum n fun j => x j * y j).Finite := by
    refine small_dot_finite hp hx hy (lt_of_le_of_lt ?_ h)
    unfold stepUnder
    generalize (2 : K) ^ (-(p : ℤ)) = u at *
    generalize (2 : K) ^ emin / 2 = η at *
    have p1 : (1 + u) ^ n ≤ (1 + u) ^ (max n m + 1) := pow_le_pow_right₀ h1 (by omega)
    have p2 := mul_le_mul_of_nonneg_right p1 s1
    have p3 : 0 ≤ (1 + u) ^ (max n m + 1) * ∑ j ∈ Finset.range m, |(z j).val| * |(w j).val| := by positivity
    have p4 : 0 ≤ u * ((n * (1 + u) ^ (n - 1) + m * (1 + u) ^ (m - 1)) * η) := by positivity
    have p5 : 0 ≤ m * (1 + u) ^ (m - 1) * η := by positivity
    linarith
  have f2 : (lsum m fun j => z j * w j).Finite := by
    refine small_dot_finite hp hz hw (lt_of_le_of_lt ?_ h)
    unfold stepUnder
    generalize (2 : K) ^ (-(p : ℤ)) = u at *
    generalize (2 : K) ^ emin / 2 = η at *
    have p1 : (1 + u) ^ m ≤ (1 + u) ^ (max n m + 1) := pow_le_pow_right₀ h1 (by omega)
    have p2 := mul_le_mul_of_nonneg_right p1 s2
    have p3 : 0 ≤ (1 + u) ^ (max n m + 1) * ∑ j ∈ Finset.range n, |(x j).val| * |(y j).val| := by positivity
    have p4 : 0 ≤ u * ((n * (1 + u) ^ (n - 1) + m * (1 + u) ^ (m - 1)) * η) := by positivity
    have p5 : 0 ≤ n * (1 + u) ^ (n - 1) * η := by positivity
    linarith
  refine add_finite.2 ⟨f1, f2, lt_of_le_of_lt ?_ h⟩
  rw [f1.eq (R.rd_lsum fun j _ => R.rd_mul (rd_flD (x j)) (rd_flD (y j))), f2.eq (R.rd_lsum fun j _ => R.rd_mul (rd_flD (z j)) (rd_flD (w j)))]
  exact two_sums_le F (fun j => (x j).flD) (fun j => (y j).flD) (fun j => (z j).flD) (fun j => (w j).flD) n m

end Ieee

section ieee
variable {K : Type} [Field K] [LinearOrder K] [IsStrictOrderedRing K] [FloorRing K] {f : ℕ} {emin : ℤ} {emax : ℕ}
  {n m p : Nat} {sys : DiscreteStateSpace (Ieee K f emin emax)} {a b c d : Nat → Nat → Ieee K f emin emax} (hA : RepAt sys.A.toMB n n a)
  (hB : RepAt sys.B.toMB n m b) (hC : RepAt sys.C.toMB p n c) (hD : RepAt sys.D.toMB p m d) (hn : n < allocMax) (hm : m < allocMax) (hp : p < allocMax)
include hA hB hC hD hn hm hp

/-- C151 in IEEE arithmetic: if the bounds for states and outputs are below the largest number, nothing overflows, however long the simulation, and the bounds and
the distances from the states and outputs without rounding hold. -/
theorem C151_ieee_partial (hf : 1 ≤ f) (he : emin ≤ 0) (hx : 1 ≤ emax) {toSize : Ieee K f emin emax → Res Nat} {N k : Nat} {r st : Ieee K f emin emax}
    (hr : cdiv st sys.sampleTime = .ok r) (hk : toSize r = .ok k) (hn0 : 0 < n) {x0 : Nat → Ieee K f emin emax} {w : Nat → Nat → Ieee K f emin emax} {v : Nat → K}
    {q β γ ζ σ M u : K} (hu : u = 2 ^ (-(f : ℤ))) (hq : q < 1) (hv : ∀ i, i < n → 0 < v i)
    (fa : ∀ i j, i < n → j < n → (a i j).Finite) (fb : ∀ i j, i < n → j < m → (b i j).Finite) (fc : ∀ i j, i < p → j < n → (c i j).Finite)
    (fd : ∀ i j, i < p → j < m → (d i j).Finite) (fw : ∀ i j, j < m → (w i j).Finite) (f0 : ∀ j, j < n → (x0 j).Finite)
    (ha : ∀ i, i < n → ∑ j ∈ Finset.range n, |(a i j).val| * v j ≤ q * v i)
    (hb : ∀ k i, i < n → ∑ j ∈ Finset.range m, |(b i j).val| * |(w k j).val| ≤ β * v i) (hc : ∀ i, i < p → ∑ j ∈ Finset.range n, |(c i j).val| * v j ≤ γ)
    (hd : ∀ k i, i < p → ∑ j ∈ Finset.range m, |(d i j).val| * |(w k j).val| ≤ ζ) (h0 : ∀ j, j < n → |(x0 j).val| ≤ M * v j)
    (hσ : ∀ i, i < n → stepUnder u (2 ^ emin / 2) n m ≤ σ * v i) (hM : (1 + u) ^ (max n m + 1) * (q * M + β) + σ ≤ M) (hx1 : ∀ i, i < n → M * v i < 2 ^ emax)
    (hy1 : (1 + u) ^ (max n m + 1) * (γ * M + ζ) + stepUnder u (2 ^ emin / 2) n m < 2 ^ emax) :
    ∃ (t : List (Ieee K f emin emax)) (x y : Nat → Nat → Ieee K f emin emax),
      simulate toSize sys (vtab N fun j => vtab m (w j)) st (vtab n x0) =
        .ok (t, vtab (min N k + 1) fun i => vtab n (x i), vtab (min N k) fun i => vtab p (y i)) ∧
      (∀ i (j : Fin n), (x i j).Finite ∧ |(x i j).val| ≤ M * v j ∧
        |(x i j).val - traj ((toM n n a).map val) ((toM n m b).map val) (fun j => (x0 j).val) (fun l j => (w l j).val) i j| ≤
          (((1 + u) ^ (max n m + 1) - 1) * (q * M + β) + σ) / (1 - q) * v j) ∧
      ∀ i (j : Fin p), (y i j).Finite ∧
        |(y i j).val - ((toM p n c).map val *ᵥ traj ((toM n n a).map val) ((toM n m b).map val) (fun j => (x0 j).val) (fun l j => (w l j).val) i +
          (toM p m d).map val *ᵥ fun j => (w i j).val) j| ≤
        γ * ((((1 + u) ^ (max n m + 1) - 1) * (q * M + β) + σ) / (1 - q)) + (((1 + u) ^ (max n m + 1) - 1) * (γ * M + ζ) + stepUnder u (2 ^ emin / 2) n m) := by
  subst hu
  have R := reads (K := K) hf he hx
  have F := Fl.rounds K hf emin
  have hu0 := F.u_nonneg
  have hM0 : 0 ≤ M := nonneg_of_mul_nonneg_left ((abs_nonneg _).trans (h0 0 hn0)) (hv 0 hn0)
  have hst : ∀ i r, Rd fl (stateSeq n m a b x0 w i r)
      (stateSeq n m (fun i j => (a i j).flD) (fun i j => (b i j).flD) (fun j => (x0 j).flD) (fun i j => (w i j).flD) i r) := fun i r =>
    R.rd_stateSeq (fun r c => rd_flD _) (fun r c => rd_flD _) (fun r => rd_flD _) (fun r c => rd_flD _) i r
  have hbd := fun i => stateSeq_bounded F (a := fun i j => (a i j).flD) (b := fun i j => (b i j).flD) (x0 := fun j => (x0 j).flD) (w := fun i j => (w i j).flD)
    hv ha hb h0 hσ hM i
  have hval : ∀ i j, (stateSeq n m a b x0 w i j).Finite → (stateSeq n m a b x0 w i j).val =
      (stateSeq n m (fun i j => (a i j).flD) (fun i j => (b i j).flD) (fun j => (x0 j).flD) (fun i j => (w i j).flD) i j).val := fun i j hfin =>
    congrArg Fl.val (hfin.eq (hst i j))
  have hfin : ∀ i j, j < n → (stateSeq n m a b x0 w i j).Finite := by
    intro i
    induction i with
    | zero => exact f0
    | succ i ih =>
      intro j hj
      refine two_dots_finite hf he hx (fun l hl => fa j l hj hl) ih (fun l hl => fb j l hj hl) (fw i) (lt_of_le_of_lt ?_ (hx1 j hj))
      have h1 := weighted_le (fun l _ => abs_nonneg (a j l).val) (ha j hj) (x := fun l => |(stateSeq n m a b x0 w i l).val|)
        (fun l hl => by rw [hval i l (ih l hl)]; exact hbd i l hl) hM0
      have h2 := hb i j hj
      refine le_trans ?_ (mul_le_mul_of_nonneg_right hM (hv j hj).le)
      have h3 := hσ j hj
      calc _ ≤ (1 + 2 ^ (-(f : ℤ))) ^ (max n m + 1) * (q * v j * M + β * v j) + σ * v j := by gcongr
        _ = _ := by ring
  have herr := fun i j => stateSeq_error F (a := fun i j => (a i j).flD) (b := fun i j => (b i j).flD) (x0 := fun j => (x0 j).flD) (w := fun i j => (w i j).flD)
    hq hv ha hb h0 hσ hM i j
  refine ⟨_, _, _, simulate_exec hA hB hC hD hn hm hp w x0 hr hk, fun i j => ⟨hfin i j j.2, ?_, ?_⟩, fun i j => ?_⟩
  · rw [hval i j (hfin i j j.2)]; exact hbd i j j.2
  · rw [hval i j (hfin i j j.2)]; exact herr i j
  · have fy : ((lsum n fun l => c j l * stateSeq n m a b x0 w i l) + lsum m fun l => d j l * w i l).Finite := by
      refine two_dots_finite hf he hx (fun l hl => fc j l j.2 hl) (hfin i) (fun l hl => fd j l j.2 hl) (fw i) (lt_of_le_of_lt ?_ hy1)
      have h1 := weighted_le (fun l _ => abs_nonneg (c j l).val) (hc j j.2) (x := fun l => |(stateSeq n m a b x0 w i l).val|)
        (fun l hl => by rw [hval i l (hfin i l hl)]; exact hbd i l hl) hM0
      have h2 := hd i j j.2
      gcongr
    refine ⟨fy, ?_⟩
    have h3 := fy.eq (R.rd_add (R.rd_lsum fun l _ => R.rd_mul (rd_flD (c j l)) (hst i l)) (R.rd_lsum fun l _ => R.rd_mul (rd_flD (d j l)) (rd_flD (w i l))))
    have h4 := outputSeq_error F (a := fun i j => (a i j).flD) (b := fun i j => (b i j).flD) (c := fun i j => (c i j).flD) (d := fun i j => (d i j).flD)
      (x0 := fun j => (x0 j).flD) (w := fun i j => (w i j).flD) hq hv ha hb hc hd hM0 h0 hσ hM
      (nonneg_of_mul_nonneg_left ((abs_nonneg _).trans (herr 0 ⟨0, hn0⟩)) (hv 0 hn0)) le_rfl i j
    rw [← h3] at h4
    exact h4

end ieee

/-! ## Cases -/

/-- Two states in a chain, with row sums above one: with the weights 4 and 1 they contract by 3/4. In `double`, with any number of inputs of at most one, the states stay within 20 and 5. -/
example {N k : Nat} {r st : IDouble} (hr : cdiv st 1 = .ok r) (hk : Ieee.toSize r = .ok k) (w : Nat → Nat → IDouble) (hw : ∀ i, (w i 0).Finite ∧ |(w i 0).val| ≤ 1) :
    ∃ (t : List IDouble) (x y : Nat → Nat → IDouble),
      simulate Ieee.toSize (⟨⟨Mat.ofFn 2 2 fun i j => dbl (if i = j then 1/2 else if i = 0 then 1 else 0), Mat.ofFn 2 1 fun i _ => dbl (if i = 1 then 1 else 0),
        Mat.ofFn 1 2 fun _ j => dbl (if j = 0 then 1 else 0), Mat.ofFn 1 1 fun _ _ => dbl 0⟩, 1⟩ : DiscreteStateSpace IDouble)
        (vtab N fun j => vtab 1 (w j)) st (vtab 2 fun _ => dbl 1) = .ok (t, vtab (min N k + 1) fun i => vtab 2 (x i), vtab (min N k) fun i => vtab 1 (y i)) ∧
      ∀ i, (x i 0).Finite ∧ (x i 1).Finite ∧ |(x i 0).val| ≤ 20 ∧ |(x i 1).val| ≤ 5 := by
  have hv : ∀ z : ℚ, z = 0 ∨ z = 1 ∨ z = 1/2 → (dbl z).Finite ∧ (dbl z).val = z := by
    rintro z (rfl | rfl | rfl) <;> exact ⟨by decide +kernel, by decide +kernel⟩
  have v0 := hv 0 (by simp)
  have v1 := hv 1 (by simp)
  have v2 := hv (1/2) (by simp)
  have s : ∀ n m, n ≤ 2 → m ≤ 2 → Fits n m := fun n m h1 h2 => fits_small (by omega) (by omega)
  have hsm : ∀ n, n ≤ 2 → n < allocMax := fun n h => by rw [allocMax_eq]; omega
  have hu : stepUnder (2 ^ (-((53 : ℕ) : ℤ)) : ℚ) (2 ^ (-1074 : ℤ) / 2) 2 1 ≤ 1/1000 := by decide +kernel
  have hbig : (100 : ℚ) < 2 ^ 1024 := by decide +kernel
  obtain ⟨t, x, y, h1, h2, -⟩ := C151_ieee_partial (K := ℚ) (f := 53) (emin := -1074) (emax := 1024)
    (ofFn_rep (s 2 2 (by omega) (by omega)) _).toRepAt (ofFn_rep (s 2 1 (by omega) (by omega)) _).toRepAt
    (ofFn_rep (s 1 2 (by omega) (by omega)) _).toRepAt (ofFn_rep (s 1 1 (by omega) (by omega)) _).toRepAt
    (sys := ⟨⟨Mat.ofFn 2 2 fun i j => dbl (if i = j then 1/2 else if i = 0 then 1 else 0), Mat.ofFn 2 1 fun i _ => dbl (if i = 1 then 1 else 0),
        Mat.ofFn 1 2 fun _ j => dbl (if j = 0 then 1 else 0), Mat.ofFn 1 1 fun _ _ => dbl 0⟩, 1⟩)
    (hsm 2 (by omega)) (hsm 1 (by omega)) (hsm 1 (by omega)) (by omega) (by omega) (by omega) (toSize := Ieee.toSize) (N := N) (st := st) hr hk (by omega)
    (x0 := fun _ => dbl 1) (w := w) (v := fun i => if i = 0 then 4 else 1) (q := 3/4) (β := 1) (γ := 4) (ζ := 0) (σ := 1/1000) (M := 5) rfl (by norm_num)
    (fun i hi => by split <;> norm_num)
    (fun i j hi hj => by split_ifs <;> first | exact v0.1 | exact v1.1 | exact v2.1)
    (fun i j hi hj => by split_ifs <;> first | exact v0.1 | exact v1.1)
    (fun i j hi hj => by split_ifs <;> first | exact v0.1 | exact v1.1)
    (fun i j hi hj => v0.1) (fun i j hj => by rw [show j = 0 by omega]; exact (hw i).1) (fun j hj => v1.1)
    (fun i hi => by
      obtain rfl | rfl : i = 0 ∨ i = 1 := by omega
      all_goals norm_num [Finset.sum_range_succ, v0.2, v1.2, v2.2])
    (fun k i hi => by
      have := (hw k).2
      obtain rfl | rfl : i = 0 ∨ i = 1 := by omega
      · norm_num [Finset.sum_range_succ, v0.2, v1.2]
      · simpa [Finset.sum_range_succ, v0.2, v1.2] using this)
    (fun i hi => by norm_num [Finset.sum_range_succ, v0.2, v1.2])
    (fun k i hi => by norm_num [Finset.sum_range_succ, v0.2])
    (fun j hj => by
      obtain rfl | rfl : j = 0 ∨ j = 1 := by omega
      all_goals norm_num [v1.2])
    (fun i hi => by
      refine hu.trans ?_
      split <;> norm_num)
    (by norm_num) (fun i hi => lt_of_le_of_lt (by split <;> norm_num) hbig) (lt_of_le_of_lt (add_le_add_right hu _) (lt_trans (by norm_num) hbig))
  refine ⟨t, x, y, h1, fun i => ⟨(h2 i 0).1, (h2 i 1).1, ?_, ?_⟩⟩
  · have := (h2 i 0).2.1
    norm_num at this
    exact this
  · have := (h2 i 1).2.1
    norm_num at this
    exact this

/-- The matrix `2^300 (15 9 / -25 -15)`, whose square is zero. -/
def nilpD (i j : Nat) : IDouble := dbl (2 ^ 300 * (if i = 0 then (if j = 0 then 15 else 9) else if j = 0 then -25 else -15))

set_option maxRecDepth 100000 in
/-- C151 does not hold for all stable systems: with `A² = 0` and without input the exact state is zero after two steps, but in `double` what rounding left over has
grown beyond all bounds after four. -/
theorem C151_stable_false : ((toM 2 2 nilpD).map val) ^ 2 = 0 ∧
    (do let r ← simulate Ieee.toSize (⟨⟨Mat.ofFn 2 2 nilpD, ⟨2, 1, [0, 0]⟩, ⟨1, 2, [1, 0]⟩, ⟨1, 1, [0]⟩⟩, 1⟩ : DiscreteStateSpace IDouble) [[0], [0], [0], [0]] (dbl 4) [dbl (1/3), dbl (1/10)]
        return (r.2.1[4]?)) = .ok (some [.nan, .nan]) := by
  constructor
  · rw [pow_two]
    decide +kernel
  · decide +kernel
end Malg
