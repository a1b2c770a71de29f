import Verif.Props.Control
import Verif.Props.C2d
import Verif.Props.ExpmBound
import Mathlib.Analysis.Calculus.MeanValue
import Mathlib.Analysis.Calculus.Deriv.Prod
/-!
# Properties C77 and C78: simulations are linear, causal and can be continued; discretised systems sample the continuous ones
-/
namespace Malg
open Ops Control Matrix Feq

variable {K : Type} {n m p : Nat}

section trajectories
variable [CommRing K] (A : Matrix (Fin n) (Fin n) K) (B : Matrix (Fin n) (Fin m) K)

theorem traj_linear (a b : K) (x y : Fin n → K) (u v : Nat → Fin m → K) (k : Nat) :
    traj A B (a • x + b • y) (fun j => a • u j + b • v j) k = a • traj A B x u k + b • traj A B y v k := by
  induction k with
  | zero => rfl
  | succ k ih =>
    simp only [traj, ih, mulVec_add, mulVec_smul, smul_add]
    abel

theorem traj_congr {u v : Nat → Fin m → K} (x : Fin n → K) {k : Nat} (h : ∀ j, j < k → u j = v j) : traj A B x u k = traj A B x v k := by
  induction k with
  | zero => rfl
  | succ k ih => rw [traj, traj, ih fun j hj => h j (by omega), h k (by omega)]

theorem traj_add (x : Fin n → K) (u : Nat → Fin m → K) (i k : Nat) :
    traj A B x u (i + k) = traj A B (traj A B x u i) (fun j => u (i + j)) k := by
  induction k with
  | zero => rfl
  | succ k ih => rw [← Nat.add_assoc, traj, traj, ih]

end trajectories

section field
variable [Field K] [LinearOrder K] [FloorSemiring K]
  {sys : DiscreteStateSpace K} {A : Matrix (Fin n) (Fin n) K} {B : Matrix (Fin n) (Fin m) K} {C : Matrix (Fin p) (Fin n) K}
  {D : Matrix (Fin p) (Fin m) K} (h : sys.toStateSpace.Is A B C D) (hn : n < allocMax) (hp : p < allocMax) (hdt : sys.sampleTime ≠ 0)
  {T : K} (hT : -1 < T / sys.sampleTime) (hW : ⌊T / sys.sampleTime⌋₊ < W)
include h hn hp hdt hT hW

/-- C77, linearity: the simulation of a combination of two initial states and two input sequences of the same length
gives the combination of the states and of the outputs, step by step. -/
theorem C77_linear (a b : K) (x0 y0 : Fin n → K) (us vs : List (Fin m → K)) (hl : us.length = vs.length) :
    ∃ (t : List K) (X X' : List (Fin n → K)) (Y Y' : List (Fin p → K)),
      simulate floorSize sys (us.map List.ofFn) T (List.ofFn x0) = .ok (t, X.map List.ofFn, Y.map List.ofFn) ∧
      simulate floorSize sys (vs.map List.ofFn) T (List.ofFn y0) = .ok (t, X'.map List.ofFn, Y'.map List.ofFn) ∧
      simulate floorSize sys ((List.zipWith (fun u v => a • u + b • v) us vs).map List.ofFn) T (List.ofFn (a • x0 + b • y0)) =
        .ok (t, (List.zipWith (fun x x' => a • x + b • x') X X').map List.ofFn,
          (List.zipWith (fun y y' => a • y + b • y') Y Y').map List.ofFn) := by
  refine ⟨vtab (min us.length ⌊T / sys.sampleTime⌋₊ + 1) fun i => if i < min us.length ⌊T / sys.sampleTime⌋₊ then (i : K) * sys.sampleTime else 0, vtab (min us.length ⌊T / sys.sampleTime⌋₊ + 1) fun i => traj A B x0 (fun j => us.getD j 0) i, vtab (min us.length ⌊T / sys.sampleTime⌋₊ + 1) fun i => traj A B y0 (fun j => vs.getD j 0) i,
    vtab (min us.length ⌊T / sys.sampleTime⌋₊) fun i => C *ᵥ traj A B x0 (fun j => us.getD j 0) i + D *ᵥ us.getD i 0,
    vtab (min us.length ⌊T / sys.sampleTime⌋₊) fun i => C *ᵥ traj A B y0 (fun j => vs.getD j 0) i + D *ᵥ vs.getD i 0, ?_, ?_, ?_⟩
  · rw [simulate_eq h hn hp us x0 (cdiv_ok _ hdt) (if_pos ⟨hT, hW⟩)]
    simp only [vtab, List.map_map]; rfl
  · rw [simulate_eq h hn hp vs y0 (cdiv_ok _ hdt) (if_pos ⟨hT, hW⟩), ← hl]
    simp only [vtab, List.map_map]; rfl
  · rw [simulate_eq h hn hp _ _ (cdiv_ok _ hdt) (if_pos ⟨hT, hW⟩)]
    have hlen : (List.zipWith (fun u v => a • u + b • v) us vs).length = us.length := by simp [hl]
    have hg : ∀ j, (List.zipWith (fun u v => a • u + b • v) us vs).getD j 0 = a • us.getD j 0 + b • vs.getD j 0 := by
      intro j
      simp only [List.getD_eq_getElem?_getD, List.getElem?_zipWith]
      by_cases hj : j < us.length
      · rw [List.getElem?_eq_getElem hj, List.getElem?_eq_getElem (hl ▸ hj)]; rfl
      · rw [List.getElem?_eq_none (by omega), List.getElem?_eq_none (by omega)]; simp
    rw [hlen]
    congr 2
    congr 1
    · apply List.ext_getElem
      · simp
      · intro i h1 h2
        simp only [vtab_getElem, List.getElem_map, List.getElem_zipWith]
        rw [← traj_linear]; simp only [hg]
    · apply List.ext_getElem
      · simp
      · intro i h1 h2
        simp only [vtab_getElem, List.getElem_map, List.getElem_zipWith]
        congr 1
        simp only [hg]
        rw [traj_linear]
        simp only [mulVec_add, mulVec_smul, smul_add]
        abel

omit [FloorSemiring K] [LinearOrder K] hdt hT hW hp hn h in
theorem getD_append_left (us vs : List (Fin m → K)) {j : Nat} (hj : j < us.length) : (us ++ vs).getD j 0 = us.getD j 0 := by
  simp only [List.getD_eq_getElem?_getD, List.getElem?_append_left hj]

/-- C77, continuation: if the duration is long enough for both parts, a simulation over `us ++ vs` gives the states and
outputs of the simulation over `us`, followed by those of the simulation over `vs` that starts from the state reached. -/
theorem C77_continue (x0 : Fin n → K) (us vs : List (Fin m → K)) (hlen : us.length + vs.length ≤ ⌊T / sys.sampleTime⌋₊) :
    ∃ (t₁ t₂ t₃ : List K) (X X' : List (Fin n → K)) (Y Y' : List (Fin p → K)) (x1 : Fin n → K),
      simulate floorSize sys (us.map List.ofFn) T (List.ofFn x0) = .ok (t₁, X.map List.ofFn, Y.map List.ofFn) ∧
      X.getLast? = some x1 ∧
      simulate floorSize sys (vs.map List.ofFn) T (List.ofFn x1) = .ok (t₂, X'.map List.ofFn, Y'.map List.ofFn) ∧
      simulate floorSize sys ((us ++ vs).map List.ofFn) T (List.ofFn x0) =
        .ok (t₃, (X ++ X'.tail).map List.ofFn, (Y ++ Y').map List.ofFn) := by
  refine ⟨vtab (us.length + 1) fun i => if i < us.length then (i : K) * sys.sampleTime else 0,
    vtab (vs.length + 1) fun i => if i < vs.length then (i : K) * sys.sampleTime else 0,
    vtab ((us.length + vs.length) + 1) fun i => if i < (us.length + vs.length) then (i : K) * sys.sampleTime else 0,
    vtab (us.length + 1) fun i => traj A B x0 (fun j => us.getD j 0) i,
    vtab (vs.length + 1) fun i => traj A B (traj A B x0 (fun j => us.getD j 0) us.length) (fun j => vs.getD j 0) i,
    vtab us.length fun i => C *ᵥ traj A B x0 (fun j => us.getD j 0) i + D *ᵥ us.getD i 0,
    vtab vs.length fun i => C *ᵥ traj A B (traj A B x0 (fun j => us.getD j 0) us.length) (fun j => vs.getD j 0) i + D *ᵥ vs.getD i 0,
    traj A B x0 (fun j => us.getD j 0) us.length, ?_, ?_, ?_, ?_⟩
  · rw [simulate_eq h hn hp us x0 (cdiv_ok _ hdt) (if_pos ⟨hT, hW⟩), Nat.min_eq_left (by omega)]
    simp only [vtab, List.map_map]; rfl
  · rw [vtab_succ, List.getLast?_concat]
  · rw [simulate_eq h hn hp vs _ (cdiv_ok _ hdt) (if_pos ⟨hT, hW⟩), Nat.min_eq_left (by omega)]
    simp only [vtab, List.map_map]; rfl
  · rw [simulate_eq h hn hp _ _ (cdiv_ok _ hdt) (if_pos ⟨hT, hW⟩), List.length_append, Nat.min_eq_left (by omega)]
    have hcomb : ∀ i, i ≤ us.length → traj A B x0 (fun j => (us ++ vs).getD j 0) i = traj A B x0 (fun j => us.getD j 0) i := fun i hi =>
      traj_congr A B x0 fun j hj => getD_append_left us vs (by omega)
    have hshift : ∀ i, traj A B x0 (fun j => (us ++ vs).getD j 0) (us.length + i) =
        traj A B (traj A B x0 (fun j => us.getD j 0) us.length) (fun j => vs.getD j 0) i := fun i => by
      rw [traj_add, hcomb _ le_rfl]
      congr 1
      funext j
      simp only [List.getD_eq_getElem?_getD, List.getElem?_append_right (Nat.le_add_right _ _), Nat.add_sub_cancel_left]
    congr 2
    congr 1
    · apply List.ext_getElem
      · simp; omega
      · intro i h1 h2
        simp only [vtab_getElem, List.getElem_map, List.getElem_append, vtab_length]
        split
        · rw [hcomb i (by omega)]
        · rename_i hi
          simp only [List.getElem_tail, vtab_getElem]
          rw [← hshift]
          congr 2; omega
    · apply List.ext_getElem
      · simp
      · intro i h1 h2
        simp only [vtab_getElem, List.getElem_map, List.getElem_append, vtab_length]
        split
        · rename_i hi
          rw [hcomb i (by omega), getD_append_left us vs hi]
        · rename_i hi
          rw [← hshift]
          have : us.length + (i - us.length) = i := by omega
          rw [this]
          simp only [List.getD_eq_getElem?_getD, List.getElem?_append_right (by omega : us.length ≤ i)]

/-- C77, causality: if two input sequences agree in the first `k` inputs, the simulations agree in the first `k + 1`
states and the first `k` outputs. -/
theorem C77_causal (x0 : Fin n → K) (us vs : List (Fin m → K)) {k : Nat} (hk : us.take k = vs.take k) (hu : k ≤ us.length)
    (hv : k ≤ vs.length) :
    ∃ (t t' : List K) (X X' : List (List K)) (Y Y' : List (List K)),
      simulate floorSize sys (us.map List.ofFn) T (List.ofFn x0) = .ok (t, X, Y) ∧
      simulate floorSize sys (vs.map List.ofFn) T (List.ofFn x0) = .ok (t', X', Y') ∧
      X.take (k + 1) = X'.take (k + 1) ∧ Y.take k = Y'.take k := by
  refine ⟨_, _, _, _, _, _, simulate_eq h hn hp us x0 (cdiv_ok _ hdt) (if_pos ⟨hT, hW⟩),
    simulate_eq h hn hp vs x0 (cdiv_ok _ hdt) (if_pos ⟨hT, hW⟩), ?_, ?_⟩
  all_goals
    have hg : ∀ j, j < k → us.getD j 0 = vs.getD j 0 := fun j hj => by
      have : (us.take k)[j]? = (vs.take k)[j]? := by rw [hk]
      rw [List.getElem?_take_of_lt hj, List.getElem?_take_of_lt hj] at this
      simp only [List.getD_eq_getElem?_getD, this]
    apply List.ext_getElem
    · simp only [List.length_take, vtab_length]; omega
    · intro i h1 h2
      simp only [List.getElem_take, vtab_getElem]
      simp only [List.length_take, vtab_length] at h1
      congr 1
      rw [traj_congr A B x0 (v := fun j => vs.getD j 0) fun j hj => hg j (by omega)]
      try rw [hg i (by omega)]

end field

/-- Doubling initial state and inputs doubles the run. -/
example : simulate floorSize (⟨⟨⟨1, 1, [1/2]⟩, ⟨1, 1, [1]⟩, ⟨1, 1, [3]⟩, ⟨1, 1, [1]⟩⟩, 1⟩ : DiscreteStateSpace ℚ) [[1], [2]] 2 [4] =
      .ok ([0, 1, 0], [[4], [3], [7/2]], [[13], [11]]) ∧
    simulate floorSize (⟨⟨⟨1, 1, [1/2]⟩, ⟨1, 1, [1]⟩, ⟨1, 1, [3]⟩, ⟨1, 1, [1]⟩⟩, 1⟩ : DiscreteStateSpace ℚ) [[2], [4]] 2 [8] =
      .ok ([0, 1, 0], [[8], [6], [7]], [[26], [22]]) := by decide +kernel

/-! ## C78 -/

section
open scoped Matrix.Norms.Operator
variable {A : Matrix (Fin n) (Fin n) ℝ}

set_option backward.isDefEq.respectTransparency false in
/-- Entrywise derivative of `t ↦ exp((a - t) A)`. -/
theorem exp_entry_deriv (A : Matrix (Fin n) (Fin n) ℝ) (a t : ℝ) (i j : Fin n) :
    HasDerivAt (fun s => (NormedSpace.exp ((a - s) • A)) i j) (-(NormedSpace.exp ((a - t) • A) * A) i j) t := by
  have h1 : HasDerivAt (fun s : ℝ => NormedSpace.exp (s • A)) (NormedSpace.exp ((a - t) • A) * A) (a - t) := hasDerivAt_exp_smul_const (𝕂 := ℝ) A (a - t)
  have h2 : HasDerivAt (fun s : ℝ => a - s) (-1) t := by simpa using (hasDerivAt_id t).const_sub a
  have h3 := h1.scomp t h2
  rw [neg_one_smul] at h3
  exact hasDerivAt_pi.1 (hasDerivAt_pi.1 h3 i) j

set_option backward.isDefEq.respectTransparency false in
theorem exp_comm (A : Matrix (Fin n) (Fin n) ℝ) (s : ℝ) : Commute A (NormedSpace.exp (s • A)) :=
  ((Commute.refl A).smul_right s).exp_right

end

/-- On an interval with constant input the solution of `x' = A x + b` is moved by the exponential. -/
theorem flow_step {A : Matrix (Fin n) (Fin n) ℝ} (hA : A.det ≠ 0) {b : Fin n → ℝ} {x : ℝ → Fin n → ℝ} {a c : ℝ} (hac : a ≤ c)
    (hx : ContinuousOn x (Set.Icc a c))
    (hd : ∀ t ∈ Set.Ico a c, HasDerivWithinAt x (A *ᵥ x t + b) (Set.Ici t) t) :
    x c = NormedSpace.exp ((c - a) • A) *ᵥ x a + (A⁻¹ * (NormedSpace.exp ((c - a) • A) - 1)) *ᵥ b := by
  have hu : IsUnit A.det := IsUnit.mk0 _ hA
  set z : ℝ → Fin n → ℝ := fun t => x t + A⁻¹ *ᵥ b with hz
  set y : ℝ → Fin n → ℝ := fun t => NormedSpace.exp ((c - t) • A) *ᵥ z t with hy
  have hconst : ∀ t ∈ Set.Icc a c, y t = y a := by
    refine constant_of_has_deriv_right_zero ?_ ?_
    · refine continuousOn_pi.2 fun i => ?_
      show ContinuousOn (fun t => ∑ j, (NormedSpace.exp ((c - t) • A)) i j * z t j) _
      refine continuousOn_finsetSum _ fun j _ => ContinuousOn.mul ?_ ?_
      · exact fun t _ => (exp_entry_deriv A c t i j).continuousAt.continuousWithinAt
      · exact (continuousOn_pi.1 hx j).add continuousOn_const
    · intro t ht
      refine hasDerivWithinAt_pi.2 fun i => ?_
      have hzd : ∀ j, HasDerivWithinAt (fun t => z t j) ((A *ᵥ z t) j) (Set.Ici t) t := fun j => by
        have h1 := (hasDerivWithinAt_pi.1 (hd t ht) j).add_const ((A⁻¹ *ᵥ b) j)
        refine h1.congr_deriv ?_
        simp only [hz, mulVec_add, mulVec_mulVec, mul_nonsing_inv _ hu, one_mulVec]
      have h2 := HasDerivWithinAt.fun_sum (u := Finset.univ) fun j _ => ((exp_entry_deriv A c t i j).hasDerivWithinAt (s := Set.Ici t)).mul (hzd j)
      refine h2.congr_deriv ?_
      have h3 : ∑ j, ((NormedSpace.exp ((c - t) • A)) i j * (A *ᵥ z t) j) = ∑ j, (NormedSpace.exp ((c - t) • A) * A) i j * z t j := by
        have := congrFun (mulVec_mulVec (z t) (NormedSpace.exp ((c - t) • A)) A) i
        exact this
      rw [Finset.sum_add_distrib, h3, ← Finset.sum_add_distrib]
      simp
  have h1 := hconst c ⟨hac, le_rfl⟩
  have h2 : x c + A⁻¹ *ᵥ b = NormedSpace.exp ((c - a) • A) *ᵥ (x a + A⁻¹ *ᵥ b) := by
    have e0 : y c = z c := by
      show NormedSpace.exp ((c - c) • A) *ᵥ z c = z c
      rw [sub_self, zero_smul, NormedSpace.exp_zero, one_mulVec]
    exact e0.symm.trans h1
  have hc : A⁻¹ * NormedSpace.exp ((c - a) • A) = NormedSpace.exp ((c - a) • A) * A⁻¹ := by
    have h3 := (exp_comm A (c - a)).eq
    calc A⁻¹ * NormedSpace.exp ((c - a) • A) = A⁻¹ * (NormedSpace.exp ((c - a) • A) * A) * A⁻¹ := by
          rw [Matrix.mul_assoc, Matrix.mul_assoc, mul_nonsing_inv _ hu, Matrix.mul_one]
      _ = NormedSpace.exp ((c - a) • A) * A⁻¹ := by
          rw [← h3, ← Matrix.mul_assoc, nonsing_inv_mul _ hu, Matrix.one_mul]
  rw [Matrix.mul_sub, Matrix.mul_one, hc, sub_mulVec, ← mulVec_mulVec]
  rw [mulVec_add] at h2
  rw [← add_sub_assoc, ← h2, add_sub_cancel_right]

/-- The function `x` solves `x' = A x + B u`, the input being `us[k]` from `k dt` until `(k+1) dt` and zero after the last
input (right derivatives, because the input jumps). -/
def Solves (A : Matrix (Fin n) (Fin n) ℝ) (B : Matrix (Fin n) (Fin m) ℝ) (us : List (Fin m → ℝ)) (dt : ℝ) (x : ℝ → Fin n → ℝ) : Prop :=
  ContinuousOn x (Set.Ici 0) ∧ ∀ k : Nat, ∀ t ∈ Set.Ico (k * dt) ((k + 1) * dt),
    HasDerivWithinAt x (A *ᵥ x t + B *ᵥ us.getD k 0) (Set.Ici t) t

/-- The samples of a solution follow the discretised equation. -/
theorem solves_traj {A : Matrix (Fin n) (Fin n) ℝ} (hA : A.det ≠ 0) {B : Matrix (Fin n) (Fin m) ℝ} {us : List (Fin m → ℝ)} {dt : ℝ} (hdt : 0 < dt)
    {x : ℝ → Fin n → ℝ} (h : Solves A B us dt x) (k : Nat) :
    x (k * dt) = traj (NormedSpace.exp (dt • A)) (A⁻¹ * (NormedSpace.exp (dt • A) - 1) * B) (x 0) (fun j => us.getD j 0) k := by
  induction k with
  | zero => simp [traj]
  | succ k ih =>
    have h0 : (0 : ℝ) ≤ k * dt := by positivity
    have hs := flow_step hA (a := k * dt) (c := (k + 1) * dt) (by linarith) (h.1.mono fun t ht => le_trans h0 ht.1) (h.2 k)
    have e : ((k : ℝ) + 1) * dt - k * dt = dt := by ring
    rw [e] at hs
    rw [traj, ← ih, Nat.cast_succ, hs, mulVec_mulVec]

section
variable (abs : AbsoluteValue ℝ ℝ) {tol : ℝ} (ht : tol < 1)
variable {sys : StateSpace ℝ} {A : Matrix (Fin n) (Fin n) ℝ} {B : Matrix (Fin n) (Fin m) ℝ} {C : Matrix (Fin p) (Fin n) ℝ}
  {D : Matrix (Fin p) (Fin m) ℝ}
include ht

/-- C78, the part that holds: if the matrix exponential is exact, `c2d` followed by `simulate` gives the states and the
outputs of the continuous system at the sample times, for piecewise constant inputs, whatever the solution of the
differential equation is. Missing: `expm` is not exact, see `C78_expm_false`; for the system matrices and shapes that `c2d`
does not handle see C64. -/
theorem C78_samples_partial {ex : MB ℝ → Res (Mat ℝ)} (h : sys.Is A B C D) (hn : 0 < n) (hm : 0 < m) (hp : 0 < p) (hna : n < allocMax) (hpa : p < allocMax)
    {dt : ℝ} (hdt : 0 < dt) (hE : Yields (mulS sys.A.toMB dt >>= fun X => ex X.toMB) (NormedSpace.exp (dt • A))) (hA : A.det ≠ 0)
    (hi : n ≤ 5 ∨ ∀ i j, A⁻¹ i j ≠ 0) (us : List (Fin m → ℝ)) {x : ℝ → Fin n → ℝ} (hx : Solves A B us dt x) {T : ℝ} (hT : -1 < T / dt)
    (hW : ⌊T / dt⌋₊ < W) :
    ∃ d t X Y, c2d (isZ abs tol) ex sys dt = .ok d ∧ simulate floorSize d (us.map List.ofFn) T (List.ofFn (x 0)) = .ok (t, X, Y) ∧
      X.length = min us.length ⌊T / dt⌋₊ + 1 ∧ Y.length = min us.length ⌊T / dt⌋₊ ∧
      (∀ k, k < X.length → X[k]? = some (List.ofFn (x (k * dt)))) ∧
      (∀ k, k < Y.length → Y[k]? = some (List.ofFn (C *ᵥ x (k * dt) + D *ᵥ us.getD k 0))) := by
  obtain ⟨d, Bd, h1, h2, h3, h4, -⟩ := C64_equations_partial abs ht h hn hm hp hE hA hi
  subst h4
  obtain ⟨t, X, Y, h5, h6, h7, h8, h9⟩ := C57_simulate_partial h2 hna hpa us (x 0) (T := T) (by rw [h3]; exact hdt.ne') (by rw [h3]; exact hT) (by rw [h3]; exact hW)
  rw [h3] at h7
  refine ⟨d, t, X, Y, h1, h5, by omega, h7, fun k hk => ?_, fun k hk => ?_⟩
  · rw [h8 k hk, solves_traj hA hdt hx]
  · rw [h9 k hk, solves_traj hA hdt hx]

end

section
open scoped Matrix.Norms.Operator

set_option backward.isDefEq.respectTransparency false in
/-- Without inputs the solutions are `exp(t A) x0`, so `Solves` is satisfiable from every initial state. -/
theorem solves_free (A : Matrix (Fin n) (Fin n) ℝ) (B : Matrix (Fin n) (Fin m) ℝ) (us : List (Fin m → ℝ)) (hu : ∀ k, us.getD k 0 = 0) (dt : ℝ) (x0 : Fin n → ℝ) :
    Solves A B us dt (fun t => NormedSpace.exp (t • A) *ᵥ x0) := by
  have hd : ∀ t, HasDerivAt (fun t : ℝ => NormedSpace.exp (t • A) *ᵥ x0) (A *ᵥ (NormedSpace.exp (t • A) *ᵥ x0)) t := by
    intro t
    refine hasDerivAt_pi.2 fun i => ?_
    have h1 : HasDerivAt (fun s : ℝ => NormedSpace.exp (s • A)) (A * NormedSpace.exp (t • A)) t := hasDerivAt_exp_smul_const' (𝕂 := ℝ) A t
    have h2 := HasDerivAt.fun_sum (u := Finset.univ) fun j _ => (hasDerivAt_pi.1 (hasDerivAt_pi.1 h1 i) j).mul_const (x0 j)
    refine h2.congr_deriv ?_
    rw [mulVec_mulVec]; rfl
  refine ⟨fun t _ => (hd t).continuousAt.continuousWithinAt, fun k t _ => ?_⟩
  rw [hu, mulVec_zero, add_zero]
  exact (hd t).hasDerivWithinAt
end

theorem exp_sc (x : ℝ) : NormedSpace.exp (sc x) = sc (Real.exp x) := by
  have hdiag : ∀ x : ℝ, sc x = Matrix.diagonal fun _ => x := fun x => by
    funext i j; rw [Subsingleton.elim i j, Matrix.diagonal_apply_eq]; rfl
  rw [hdiag, Matrix.exp_diagonal, hdiag, Real.exp_eq_exp_ℝ]
  congr 1
  funext i
  exact Pi.coe_exp _ i

/-- `x' = x` from 1, sampled once per second with an exact exponential: the third state is `e²`. -/
example : ∃ d t X Y, c2d (isZ (AbsoluteValue.abs (S := ℝ)) (1/1000)) (fun _ => .ok (Mat.ofFn 1 1 fun _ _ => Real.exp 1))
      ⟨Mat.ofFn 1 1 fun _ _ => 1, Mat.ofFn 1 1 fun _ _ => 1, Mat.ofFn 1 1 fun _ _ => 1, Mat.ofFn 1 1 fun _ _ => 0⟩ 1 = .ok d ∧
    simulate floorSize d [[0], [0]] 2 [1] = .ok (t, X, Y) ∧ X[2]? = some [Real.exp 2] := by
  have hf : Fits 1 1 := by unfold Fits; rw [allocMax_eq, W_eq]; decide
  have h1a : 1 < allocMax := by rw [allocMax_eq]; decide
  have his : ∀ a : ℝ, (Mat.ofFn 1 1 fun _ _ => a).toMB.Is (sc a) := fun a => ⟨_, ofFn_rep hf _, rfl⟩
  obtain ⟨X, eX, -, -⟩ := (C33_field (his 1) (1 : ℝ)).1
  obtain ⟨d, t, X, Y, h1, h2, h3, -, h5, -⟩ := C78_samples_partial (AbsoluteValue.abs (S := ℝ)) (tol := 1/1000) (by norm_num)
    (sys := ⟨Mat.ofFn 1 1 fun _ _ => 1, Mat.ofFn 1 1 fun _ _ => 1, Mat.ofFn 1 1 fun _ _ => 1, Mat.ofFn 1 1 fun _ _ => 0⟩)
    (ex := fun _ => .ok (Mat.ofFn 1 1 fun _ _ => Real.exp 1)) ⟨his 1, his 1, his 1, his 0⟩ one_pos one_pos one_pos h1a h1a (dt := 1) one_pos
    (by rw [eX, Res.ok_bind, one_smul, exp_sc]; exact ⟨_, rfl, (ofFn_holds hf _).wf, his _⟩)
    (by rw [Matrix.det_unique]; exact one_ne_zero) (.inl (by omega)) [0, 0]
    (solves_free (sc 1) (sc 1) [0, 0] (fun k => by rcases k with _ | _ | k <;> simp) 1 (fun _ => 1)) (T := 2) (by norm_num) (by norm_num; rw [W_eq]; decide)
  refine ⟨d, t, X, Y, h1, by simpa using h2, ?_⟩
  have h3 : X.length = 3 := by rw [h3]; norm_num
  rw [h5 2 (by omega)]
  simp only [Nat.cast_ofNat, mul_one]
  rw [show (2 : ℝ) • sc 1 = sc 2 by funext i j; simp [sc], exp_sc]
  simp [Matrix.mulVec, dotProduct, sc]

/-- C78 is false with the library's `expm` and the accuracy `1e-05` that `c2d` uses: for `x' = 32 x`, sampled once per second,
from `x = 1`, the simulated state after one second is more than ten million below the solution `e³²`. -/
theorem C78_expm_false (abs : AbsoluteValue ℝ ℝ) {tol : ℝ} (ht : tol < 1) {sys : StateSpace ℝ} 
    (h : sys.Is (sc 32) (sc 1) (sc 1) (sc 0)) :
    ∃ N, ∀ fuel, N ≤ fuel → ∃ d t z Y,
      c2d (isZ abs tol) (fun X => Lin.expm (isZ abs tol) (|·|) Real.sqrt (1/2) X (1/100000) fuel) sys 1 = .ok d ∧
      simulate floorSize d [[0]] 1 [1] = .ok (t, [[1], [z]], Y) ∧
      ∃ x : ℝ → Fin 1 → ℝ, Solves (sc 32) (sc 1) [0] 1 x ∧ x 0 0 = 1 ∧ z + 10000000 < x 1 0 := by
  have hf : Fits 1 1 := h.a.fits
  obtain ⟨X, eX, wX, iX⟩ := (C33_field h.a (1 : ℝ)).1
  have hX : X.Holds 1 1 fun _ _ => 32 := by
    obtain ⟨e, hr, he⟩ := iX
    refine ⟨wX, hr.congr fun r c hr hc => ?_⟩
    have hrr : r = 0 := by omega
    have hcc : c = 0 := by omega
    subst hrr hcc
    have := congrFun (congrFun he 0) 0
    rw [toM_apply] at this
    simpa [sc] using this
  obtain ⟨y, N, hy, hN⟩ := C75_accuracy_false abs ht hX
  refine ⟨N, fun fuel hfu => ?_⟩
  have hdet : (sc 32).det ≠ 0 := by rw [Matrix.det_unique]; norm_num [sc]
  obtain ⟨d, Bd, h1, h2, h3, -, -⟩ := C64_equations_partial abs ht (dt := (1 : ℝ))
    (ex := fun X => Lin.expm (isZ abs tol) (|·|) Real.sqrt (1/2) X (1/100000) fuel) h one_pos one_pos one_pos (E := sc y)
    (by rw [eX, Res.ok_bind]; exact hN fuel hfu) hdet (.inl (by omega))
  have hW : ⌊(1 : ℝ) / d.sampleTime⌋₊ = 1 := by rw [h3]; simp
  have h1a : 1 < allocMax := by rw [allocMax_eq]; decide
  have hs := simulate_eq (toSize := floorSize) h2 h1a h1a [(0 : Fin 1 → ℝ)] (fun _ => 1) (T := 1)
    (cdiv_ok _ (by rw [h3]; exact one_ne_zero)) (if_pos ⟨by rw [h3]; norm_num, by rw [hW]; exact one_lt_W⟩)
  rw [hW] at hs
  have e1 : (vtab (min [(0 : Fin 1 → ℝ)].length 1 + 1) fun i => List.ofFn (traj (sc y) Bd (fun _ => 1) (fun j => [(0 : Fin 1 → ℝ)].getD j 0) i)) = [[1], [y]] := by
    simp [vtab, List.range_succ, traj, sc, Matrix.mulVec, dotProduct]
  rw [e1] at hs
  refine ⟨d, _, y, _, h1, (by simpa using hs), _, solves_free (sc 32) (sc 1) [0] (fun k => by cases k <;> simp) 1 (fun _ => 1), ?_, ?_⟩
  · simp
  · rw [one_smul, exp_sc]
    simpa [Matrix.mulVec, dotProduct, sc] using hy

end Malg
