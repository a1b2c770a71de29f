import Verif.Props.SampleErr
/-!
# Solutions of the continuous systems exist

For use with `Solves` in C117 and C122, and the part of C78 that follows.
-/
namespace Malg
open Ops Control Matrix Feq
variable {n m : Nat}

theorem deriv_mulVec {k : Nat} (M : Matrix (Fin k) (Fin n) ℝ) {y : ℝ → Fin n → ℝ} {y' : Fin n → ℝ} {s : Set ℝ} {t : ℝ} (h : HasDerivWithinAt y y' s t) :
    HasDerivWithinAt (fun t => M *ᵥ y t) (M *ᵥ y') s t := by
  refine hasDerivWithinAt_pi.2 fun i => ?_
  exact HasDerivWithinAt.fun_sum (u := Finset.univ) fun j _ => (hasDerivWithinAt_pi.1 h j).const_mul (M i j)

section
open scoped Matrix.Norms.Operator

set_option backward.isDefEq.respectTransparency false in
theorem deriv_flow (A : Matrix (Fin n) (Fin n) ℝ) (v : Fin n → ℝ) (c t : ℝ) :
    HasDerivAt (fun s : ℝ => NormedSpace.exp ((s - c) • A) *ᵥ v) (A *ᵥ (NormedSpace.exp ((t - c) • A) *ᵥ v)) t := by
  refine hasDerivAt_pi.2 fun i => ?_
  have h0 : HasDerivAt (fun s : ℝ => NormedSpace.exp (s • A)) (A * NormedSpace.exp ((t - c) • A)) (t - c) := hasDerivAt_exp_smul_const' (𝕂 := ℝ) A (t - c)
  have h1 : HasDerivAt (fun s : ℝ => NormedSpace.exp ((s - c) • A)) (A * NormedSpace.exp ((t - c) • A)) t := by
    have := h0.scomp t ((hasDerivAt_id t).sub_const c)
    rw [one_smul] at this
    exact this
  have h2 := HasDerivAt.fun_sum (u := Finset.univ) fun j _ => (hasDerivAt_pi.1 (hasDerivAt_pi.1 h1 i) j).mul_const (v j)
  refine h2.congr_deriv ?_
  rw [mulVec_mulVec]; rfl

end

/-- What a unit input in the direction `v` that is switched on at the time `c` adds to the state. -/
noncomputable def response (A : Matrix (Fin n) (Fin n) ℝ) (v : Fin n → ℝ) (c s : ℝ) : Fin n → ℝ :=
  A⁻¹ *ᵥ (NormedSpace.exp ((max c s - c) • A) *ᵥ v) - A⁻¹ *ᵥ v

theorem response_cont (A : Matrix (Fin n) (Fin n) ℝ) (v : Fin n → ℝ) (c : ℝ) : Continuous (response A v c) := by
  have h1 : Continuous fun s : ℝ => NormedSpace.exp ((s - c) • A) *ᵥ v := continuous_iff_continuousAt.2 fun t => (deriv_flow A v c t).continuousAt
  have h2 : Continuous fun s : ℝ => NormedSpace.exp ((max c s - c) • A) *ᵥ v := h1.comp (continuous_const.max continuous_id)
  exact (Continuous.matrix_mulVec continuous_const h2).sub continuous_const

theorem response_deriv {A : Matrix (Fin n) (Fin n) ℝ} (hA : A.det ≠ 0) (v : Fin n → ℝ) (c t : ℝ) :
    HasDerivWithinAt (response A v c) (A *ᵥ response A v c t + if c ≤ t then v else 0) (Set.Ici t) t := by
  have hu : IsUnit A.det := IsUnit.mk0 _ hA
  have hc : ∀ w, A *ᵥ (A⁻¹ *ᵥ w) = w := fun w => by rw [mulVec_mulVec, Matrix.mul_nonsing_inv _ hu, one_mulVec]
  have hc' : ∀ w, A⁻¹ *ᵥ (A *ᵥ w) = w := fun w => by rw [mulVec_mulVec, Matrix.nonsing_inv_mul _ hu, one_mulVec]
  split
  · rename_i h
    have h1 := (deriv_mulVec A⁻¹ (deriv_flow A v c t).hasDerivWithinAt (s := Set.Ici t)).sub_const (A⁻¹ *ᵥ v)
    refine (h1.congr (fun s hs => ?_) ?_).congr_deriv ?_
    · rw [response, max_eq_right (h.trans hs)]
    · rw [response, max_eq_right h]
    · rw [response, max_eq_right h, mulVec_sub, hc, hc, hc', sub_add_cancel]
  · rename_i h
    have h := not_le.1 h
    have h0 : ∀ s, s ≤ c → response A v c s = 0 := fun s hs => by
      rw [response, max_eq_left hs, sub_self, zero_smul, NormedSpace.exp_zero, one_mulVec, sub_self]
    rw [h0 t h.le, mulVec_zero, add_zero]
    refine HasDerivAt.hasDerivWithinAt ((hasDerivAt_const t (0 : Fin n → ℝ)).congr_of_eventuallyEq ?_)
    filter_upwards [Iio_mem_nhds h] with s hs using h0 s (le_of_lt hs)

/-- For every initial state and every sequence of inputs there is a solution, so `Solves` is satisfiable. -/
theorem solves_exists {A : Matrix (Fin n) (Fin n) ℝ} (hA : A.det ≠ 0) (B : Matrix (Fin n) (Fin m) ℝ) (us : List (Fin m → ℝ)) {dt : ℝ} (hdt : 0 < dt)
    (x0 : Fin n → ℝ) : ∃ x, x 0 = x0 ∧ Solves A B us dt x := by
  refine ⟨fun t => NormedSpace.exp ((t - 0) • A) *ᵥ x0 + ∑ j ∈ Finset.range us.length,
    (response A (B *ᵥ us.getD j 0) (j * dt) t - response A (B *ᵥ us.getD j 0) ((j + 1) * dt) t), ?_, ?_, ?_⟩
  · have h0 : ∀ v c, 0 ≤ c → response A v c 0 = 0 := fun v c hs => by
      rw [response, max_eq_left hs, sub_self, zero_smul, NormedSpace.exp_zero, one_mulVec, sub_self]
    dsimp only
    rw [sub_self, zero_smul, NormedSpace.exp_zero, one_mulVec, Finset.sum_eq_zero, add_zero]
    intro j _
    rw [h0 _ _ (by positivity), h0 _ _ (by positivity), sub_self]
  · refine Continuous.continuousOn (Continuous.add ?_ (continuous_finsetSum _ fun j _ => (response_cont _ _ _).sub (response_cont _ _ _)))
    exact continuous_iff_continuousAt.2 fun t => (deriv_flow A x0 0 t).continuousAt
  · intro k t ⟨h1, h2⟩
    have hd := (deriv_flow A x0 0 t).hasDerivWithinAt (s := Set.Ici t) |>.add (HasDerivWithinAt.fun_sum (u := Finset.range us.length) fun j _ =>
      (response_deriv hA (B *ᵥ us.getD j 0) (j * dt) t).sub (response_deriv hA (B *ᵥ us.getD j 0) ((j + 1) * dt) t))
    refine hd.congr_deriv ?_
    have hs : ∑ j ∈ Finset.range us.length, ((if (j : ℝ) * dt ≤ t then B *ᵥ us.getD j 0 else 0) - if ((j : ℝ) + 1) * dt ≤ t then B *ᵥ us.getD j 0 else 0) =
        B *ᵥ us.getD k 0 := by
      have hj : ∀ j : Nat, ((if (j : ℝ) * dt ≤ t then B *ᵥ us.getD j 0 else 0) - if ((j : ℝ) + 1) * dt ≤ t then B *ᵥ us.getD j 0 else 0) =
          if j = k then B *ᵥ us.getD k 0 else 0 := by
        intro j
        rcases lt_trichotomy j k with h | h | h
        · have : (j : ℝ) + 1 ≤ k := by exact_mod_cast h
          have h3 : ((j : ℝ) + 1) * dt ≤ t := (mul_le_mul_of_nonneg_right this hdt.le).trans h1
          rw [if_pos h3, if_pos (by linarith), if_neg h.ne, sub_self]
        · subst h
          rw [if_pos h1, if_neg (not_le.2 h2), if_pos rfl, sub_zero]
        · have : (k : ℝ) + 1 ≤ j := by exact_mod_cast h
          have h3 : t < (j : ℝ) * dt := h2.trans_le (mul_le_mul_of_nonneg_right this hdt.le)
          rw [if_neg (not_le.2 h3), if_neg (by linarith), if_neg h.ne', sub_self]
      rw [Finset.sum_congr rfl fun j _ => hj j, Finset.sum_ite_eq']
      split
      · rfl
      · rename_i hk
        rw [List.getD_eq_getElem?_getD, List.getElem?_eq_none (by simpa using hk), Option.getD_none, mulVec_zero]
    rw [← hs, mulVec_add, add_assoc]
    congr 1
    rw [← Matrix.mulVecLin_apply, map_sum, ← Finset.sum_add_distrib]
    refine Finset.sum_congr rfl fun j _ => ?_
    rw [Matrix.mulVecLin_apply, mulVec_sub]
    abel

/-- C78 without a solution given in advance: for every initial state and all inputs the continuous system has a solution, it is unique at the sample times,
and the simulation gives it. -/
theorem C78_solution_partial (abs : AbsoluteValue ℝ ℝ) {tol : ℝ} (ht : tol < 1) {p : Nat} {sys : StateSpace ℝ} {A : Matrix (Fin n) (Fin n) ℝ} {B : Matrix (Fin n) (Fin m) ℝ}
    {C : Matrix (Fin p) (Fin n) ℝ} {D : Matrix (Fin p) (Fin m) ℝ} {ex : MB ℝ → Res (Mat ℝ)} (h : sys.Is A B C D) (hn : 0 < n) (hm : 0 < m) (hp : 0 < p)
    (hna : n < allocMax) (hpa : p < allocMax) {dt : ℝ} (hdt : 0 < dt) (hE : Yields (mulS sys.A.toMB dt >>= fun X => ex X.toMB) (NormedSpace.exp (dt • A)))
    (hA : A.det ≠ 0) (hi : n ≤ 5 ∨ ∀ i j, A⁻¹ i j ≠ 0) (us : List (Fin m → ℝ)) (x0 : Fin n → ℝ) {T : ℝ} (hT : -1 < T / dt) (hW : ⌊T / dt⌋₊ < W) :
    ∃ x d t X Y, x 0 = x0 ∧ Solves A B us dt x ∧ (∀ y, y 0 = x0 → Solves A B us dt y → ∀ k : Nat, y (k * dt) = x (k * dt)) ∧
      c2d (isZ abs tol) ex sys dt = .ok d ∧ simulate floorSize d (us.map List.ofFn) T (List.ofFn x0) = .ok (t, X, Y) ∧
      X.length = min us.length ⌊T / dt⌋₊ + 1 ∧ Y.length = min us.length ⌊T / dt⌋₊ ∧
      (∀ k, k < X.length → X[k]? = some (List.ofFn (x (k * dt)))) ∧
      (∀ k, k < Y.length → Y[k]? = some (List.ofFn (C *ᵥ x (k * dt) + D *ᵥ us.getD k 0))) := by
  obtain ⟨x, e, hx⟩ := solves_exists hA B us hdt x0
  subst e
  obtain ⟨d, t, X, Y, hd⟩ := C78_samples_partial abs ht h hn hm hp hna hpa hdt hE hA hi us hx hT hW
  exact ⟨x, d, t, X, Y, rfl, hx, fun y hy hs k => by rw [solves_traj hA hdt hx, solves_traj hA hdt hs, hy], hd⟩

end Malg
