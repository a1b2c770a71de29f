import Verif.Props.Sampling
/-!
# Property C117: simulations of discretised systems stay near the continuous ones

`c2d` uses the matrix exponential of the library, which is not exact (C75). Here the error of the simulation is bounded by the error of
the exponential, first for any exponential, then for the one of the library.
-/
namespace Malg
open Ops Control Matrix Feq

variable {n m p : Nat}

/-- A product with a vector is bounded by the row sums. -/
theorem mulVec_bound {M : Matrix (Fin n) (Fin m) ℝ} {v : Fin m → ℝ} {a b : ℝ} (hM : ∀ i, ∑ j, |M i j| ≤ a) (hv : ∀ j, |v j| ≤ b) (hb : 0 ≤ b) (i : Fin n) :
    |(M *ᵥ v) i| ≤ a * b := by
  calc |(M *ᵥ v) i| ≤ ∑ j, |M i j * v j| := Finset.abs_sum_le_sum_abs (fun j => M i j * v j) Finset.univ
    _ ≤ ∑ j, |M i j| * b := Finset.sum_le_sum fun j _ => by rw [abs_mul]; exact mul_le_mul_of_nonneg_left (hv j) (abs_nonneg _)
    _ = (∑ j, |M i j|) * b := by rw [Finset.sum_mul]
    _ ≤ a * b := mul_le_mul_of_nonneg_right (hM i) hb

/-- How far two trajectories drift apart when the system matrix and the effect of the input are known up to an error. -/
theorem traj_drift {E F V : Matrix (Fin n) (Fin n) ℝ} {B : Matrix (Fin n) (Fin m) ℝ} {x0 : Fin n → ℝ} {u : Nat → Fin m → ℝ} {ε φ α ξ β : ℝ}
    (hE : ∀ i, ∑ j, |E i j - F i j| ≤ ε) (hF : ∀ i, ∑ j, |F i j| ≤ φ) (hV : ∀ i, ∑ j, |V i j| ≤ α) {N : Nat}
    (hx : ∀ k, k < N → ∀ i, |traj F (V * (F - 1) * B) x0 u k i| ≤ ξ) (hu : ∀ k, k < N → ∀ i, |(B *ᵥ u k) i| ≤ β) (ε0 : 0 ≤ ε) (ξ0 : 0 ≤ ξ)
    (β0 : 0 ≤ β) (φ0 : 0 ≤ φ) (k : Nat) (hk : k ≤ N) (i : Fin n) :
    |traj E (V * (E - 1) * B) x0 u k i - traj F (V * (F - 1) * B) x0 u k i| ≤ ε * (ξ + α * β) * ∑ j ∈ Finset.range k, (φ + ε) ^ j := by
  induction k generalizing i with
  | zero => simp [traj]
  | succ k ih =>
    set X := traj E (V * (E - 1) * B) x0 u k with hX
    set Y := traj F (V * (F - 1) * B) x0 u k with hY
    have α0 : 0 ≤ α := (Finset.sum_nonneg fun j _ => abs_nonneg (V i j)).trans (hV i)
    set δ := ε * (ξ + α * β) * ∑ j ∈ Finset.range k, (φ + ε) ^ j with hδ
    have δ0 : 0 ≤ δ := by positivity
    have hE' : ∀ i, ∑ j, |E i j| ≤ φ + ε := fun i => by
      calc ∑ j, |E i j| ≤ ∑ j, (|F i j| + |E i j - F i j|) := Finset.sum_le_sum fun j _ => by
            have := abs_add_le (F i j) (E i j - F i j)
            rwa [add_sub_cancel] at this
        _ ≤ φ + ε := by rw [Finset.sum_add_distrib]; exact add_le_add (hF i) (hE i)
    have e : traj E (V * (E - 1) * B) x0 u (k + 1) - traj F (V * (F - 1) * B) x0 u (k + 1) =
        E *ᵥ (X - Y) + ((E - F) *ᵥ Y + V *ᵥ ((E - F) *ᵥ (B *ᵥ u k))) := by
      rw [traj, traj, ← hX, ← hY]
      have e1 : V *ᵥ ((E - F) *ᵥ (B *ᵥ u k)) = (V * (E - 1) * B) *ᵥ u k - (V * (F - 1) * B) *ᵥ u k := by
        rw [mulVec_mulVec, mulVec_mulVec, ← sub_mulVec, ← Matrix.sub_mul, ← Matrix.mul_sub, sub_sub_sub_cancel_right]
      rw [e1, sub_mulVec, mulVec_sub]
      abel
    have e2 := congrFun e i
    rw [Pi.sub_apply] at e2
    rw [e2]
    have hs : ε * (ξ + α * β) * ∑ j ∈ Finset.range (k + 1), (φ + ε) ^ j = (φ + ε) * δ + (ε * ξ + α * (ε * β)) := by
      rw [Finset.sum_range_succ', hδ, pow_zero, mul_add, mul_one]
      have : ∑ j ∈ Finset.range k, (φ + ε) ^ (j + 1) = (φ + ε) * ∑ j ∈ Finset.range k, (φ + ε) ^ j := by
        rw [Finset.mul_sum]; exact Finset.sum_congr rfl fun j _ => pow_succ' _ _
      rw [this]; ring
    rw [hs, Pi.add_apply, Pi.add_apply]
    have h1 := mulVec_bound hE' (v := X - Y) (fun j => ih (by omega) j) δ0 i
    have h2 := mulVec_bound (M := E - F) hE (hx k (by omega)) ξ0 i
    have h3 := mulVec_bound hV (v := (E - F) *ᵥ (B *ᵥ u k)) (mulVec_bound (M := E - F) hE (hu k (by omega)) β0) (mul_nonneg ε0 β0) i
    exact (abs_add_le _ _).trans (add_le_add h1 ((abs_add_le _ _).trans (add_le_add h2 h3)))

section
variable (abs : AbsoluteValue ℝ ℝ) {tol : ℝ} (ht : tol < 1)
variable {sys : StateSpace ℝ} {A : Matrix (Fin n) (Fin n) ℝ} {B : Matrix (Fin n) (Fin m) ℝ} {C : Matrix (Fin p) (Fin n) ℝ}
  {D : Matrix (Fin p) (Fin m) ℝ}
include ht

/-- C117: whatever matrix exponential `c2d` is given, if its row sums differ by at most `ε` from those of the exponential, then the `k`-th
simulated state differs from the solution of the differential equation at the time `k dt` by at most
`ε (ξ + α β) (1 + (φ + ε) + … + (φ + ε)^(k-1))`, where `ξ` bounds the states of the solution at the sample times before, `β` the values
`B u`, and `φ`, `α`, `γ` the row sums of the exponential, of the inverse of `A` and of `C`; the outputs by `γ` times as much. -/
theorem C117_tracks {ex : MB ℝ → Res (Mat ℝ)} (h : sys.Is A B C D) (hn : 0 < n) (hm : 0 < m) (hp : 0 < p) (hna : n < allocMax)
    (hpa : p < allocMax) {dt : ℝ} (hdt : 0 < dt) {E : Matrix (Fin n) (Fin n) ℝ} (hE : Yields (mulS sys.A.toMB dt >>= fun X => ex X.toMB) E)
    (hA : A.det ≠ 0) (hi : n ≤ 5 ∨ ∀ i j, A⁻¹ i j ≠ 0) (us : List (Fin m → ℝ)) {x : ℝ → Fin n → ℝ} (hx : Solves A B us dt x) {T : ℝ}
    (hT : -1 < T / dt) (hW : ⌊T / dt⌋₊ < W) {ε φ α ξ β γ : ℝ} (hε : ∀ i, ∑ j, |E i j - NormedSpace.exp (dt • A) i j| ≤ ε)
    (hφ : ∀ i, ∑ j, |NormedSpace.exp (dt • A) i j| ≤ φ) (hα : ∀ i, ∑ j, |A⁻¹ i j| ≤ α)
    (hξ : ∀ k, k < min us.length ⌊T / dt⌋₊ → ∀ i, |x (k * dt) i| ≤ ξ) (hβ : ∀ k, k < min us.length ⌊T / dt⌋₊ → ∀ i, |(B *ᵥ us.getD k 0) i| ≤ β)
    (hγ : ∀ i, ∑ j, |C i j| ≤ γ) :
    ∃ d t X Y, c2d (isZ abs tol) ex sys dt = .ok d ∧ simulate floorSize d (us.map List.ofFn) T (List.ofFn (x 0)) = .ok (t, X, Y) ∧
      X.length = min us.length ⌊T / dt⌋₊ + 1 ∧ Y.length = min us.length ⌊T / dt⌋₊ ∧
      (∀ k, k < X.length → ∃ v : Fin n → ℝ, X[k]? = some (List.ofFn v) ∧
        ∀ i, |v i - x (k * dt) i| ≤ ε * (ξ + α * β) * ∑ j ∈ Finset.range k, (φ + ε) ^ j) ∧
      (∀ k, k < Y.length → ∃ v : Fin p → ℝ, Y[k]? = some (List.ofFn v) ∧
        ∀ i, |v i - (C *ᵥ x (k * dt) + D *ᵥ us.getD k 0) i| ≤ γ * (ε * (ξ + α * β) * ∑ j ∈ Finset.range k, (φ + ε) ^ j)) := by
  obtain ⟨d, Bd, h1, h2, h3, h4, -⟩ := C64_equations_partial abs ht h hn hm hp hE hA hi
  subst h4
  obtain ⟨t, X, Y, h5, h6, h7, h8, h9⟩ := C57_simulate_partial h2 hna hpa us (x 0) (T := T) (by rw [h3]; exact hdt.ne') (by rw [h3]; exact hT) (by rw [h3]; exact hW)
  rw [h3] at h7
  have ε0 : 0 ≤ ε := (Finset.sum_nonneg fun j _ => abs_nonneg _).trans (hε ⟨0, hn⟩)
  have φ0 : 0 ≤ φ := (Finset.sum_nonneg fun j _ => abs_nonneg _).trans (hφ ⟨0, hn⟩)
  have α0 : 0 ≤ α := (Finset.sum_nonneg fun j _ => abs_nonneg _).trans (hα ⟨0, hn⟩)
  have hS := solves_traj hA hdt hx
  have hd : ∀ k, k ≤ min us.length ⌊T / dt⌋₊ → ∀ i, |traj E (A⁻¹ * (E - 1) * B) (x 0) (fun j => us.getD j 0) k i - x (k * dt) i| ≤
      ε * (ξ + α * β) * ∑ j ∈ Finset.range k, (φ + ε) ^ j := by
    intro k hk i
    rcases Nat.eq_zero_or_pos k with rfl | hk0
    · simp [traj]
    have ξ0 : 0 ≤ ξ := (abs_nonneg _).trans (hξ 0 (by omega) ⟨0, hn⟩)
    have β0 : 0 ≤ β := (abs_nonneg _).trans (hβ 0 (by omega) ⟨0, hn⟩)
    rw [hS k]
    exact traj_drift hε hφ hα (fun j hj i => by rw [← hS j]; exact hξ j hj i) hβ ε0 ξ0 β0 φ0 k hk i
  refine ⟨d, t, X, Y, h1, h5, by omega, h7, fun k hk => ⟨_, h8 k hk, hd k (by omega)⟩, fun k hk => ⟨_, h9 k hk, fun i => ?_⟩⟩
  rw [Pi.add_apply, Pi.add_apply, add_sub_add_right_eq_sub, ← Pi.sub_apply, ← mulVec_sub]
  refine mulVec_bound hγ (fun j => hd k (by omega) j) ?_ i
  exact (abs_nonneg _).trans (hd k (by omega) ⟨0, hn⟩)

end

/-- The error of the matrix exponential of the library for a matrix of `n` rows whose absolute row sums are at most `a`. -/
noncomputable def expErr (n : Nat) (a : ℝ) : ℝ :=
  a * min 1 a ^ (n * n) * Real.exp a * ((n * n + 2 : Nat) / (((n * n + 1).factorial : ℝ) * (n * n + 1 : Nat)))

theorem taylor_tail_anti {p q : Nat} (h : q ≤ p) :
    ((p + 2 : Nat) : ℝ) / (((p + 1).factorial : ℝ) * (p + 1 : Nat)) ≤ ((q + 2 : Nat) : ℝ) / (((q + 1).factorial : ℝ) * (q + 1 : Nat)) := by
  have hf : ((q + 1).factorial : ℝ) ≤ (p + 1).factorial := by exact_mod_cast Nat.factorial_le (by omega)
  have hq : (0 : ℝ) < (q + 1).factorial := by exact_mod_cast Nat.factorial_pos _
  have hp : (0 : ℝ) < (p + 1).factorial := by exact_mod_cast Nat.factorial_pos _
  have hle : (q : ℝ) ≤ p := by exact_mod_cast h
  have e : ∀ r : Nat, ((r + 2 : Nat) : ℝ) / (((r + 1).factorial : ℝ) * (r + 1 : Nat)) = (1 / (r + 1).factorial) * (1 + 1 / ((r : ℝ) + 1)) := by
    intro r
    have h1 : ((r + 1).factorial : ℝ) ≠ 0 := by exact_mod_cast (Nat.factorial_pos _).ne'
    have h2 : (r : ℝ) + 1 ≠ 0 := by positivity
    push_cast
    field_simp
    ring
  rw [e, e]
  gcongr

/-- The error of `expm`, C75, without the number of terms. -/
theorem expm_expErr {isz : ℝ → Bool} (hz : ∀ x, isz x = true ↔ x = 0) {sqrt : ℝ → ℝ} {A : Mat ℝ} (hn : 0 < n) {M : Matrix (Fin n) (Fin n) ℝ}
    (hw : A.WF) (h : A.toMB.Is M) {accuracy : ℝ} {fuel : Nat} {R : Mat ℝ} (hr : Lin.expm isz (|·|) sqrt (1/2) A.toMB accuracy fuel = .ok R) {a : ℝ}
    (ha : ∀ i, ∑ j, |M i j| ≤ a) :
    ∃ E : Matrix (Fin n) (Fin n) ℝ, R.WF ∧ R.toMB.Is E ∧ ∀ i, ∑ j, |E i j - NormedSpace.exp M i j| ≤ expErr n a := by
  obtain ⟨e, hr', rfl⟩ := h
  obtain ⟨t, ht, E, hE, x, ⟨r, hr1, hx⟩, -, hb⟩ := C75_error_partial hz hn ⟨hw, hr'⟩ hr
  refine ⟨toM n n E, hE.wf, ⟨E, hE.rep, rfl⟩, fun i => (hb i).trans ?_⟩
  have hxa : x ≤ a := by rw [hx]; exact ha ⟨r, hr1⟩
  have h2 := taylor_tail_anti (Nat.le_mul_of_pos_left (n * n) ht)
  unfold expErr
  have h3 : (0 : ℝ) ≤ ((t * (n * n) + 2 : Nat) : ℝ) / (((t * (n * n) + 1).factorial : ℝ) * (t * (n * n) + 1 : Nat)) := by positivity
  have h4 := Real.exp_le_exp.2 hxa
  have hx0 : 0 ≤ x := by rw [hx]; exact Finset.sum_nonneg fun j _ => abs_nonneg _
  have ha0 : 0 ≤ a := hx0.trans hxa
  have hm0 : 0 ≤ min 1 a := le_min zero_le_one ha0
  have h5 : min 1 x ^ (t * (n * n)) ≤ min 1 a ^ (n * n) :=
    (pow_le_pow_of_le_one (le_min zero_le_one hx0) (min_le_left _ _) (Nat.le_mul_of_pos_left (n * n) ht)).trans
      (pow_le_pow_left₀ (le_min zero_le_one hx0) (min_le_min_left 1 hxa) _)
  exact mul_le_mul (mul_le_mul (mul_le_mul hxa h5 (by positivity) ha0) h4 (Real.exp_pos _).le (by positivity)) h2 h3 (by positivity)

section
variable (abs : AbsoluteValue ℝ ℝ) {tol : ℝ} (ht : tol < 1)
variable {sys : StateSpace ℝ} {A : Matrix (Fin n) (Fin n) ℝ} {B : Matrix (Fin n) (Fin m) ℝ} {C : Matrix (Fin p) (Fin n) ℝ}
  {D : Matrix (Fin p) (Fin m) ℝ}
include ht

/-- C117 with the `expm` of the library and the accuracy `1e-05` that `c2d` gives it: up to five states and a regular `A`, or up to 5000
states and an `A` whose inverse has no zero entry, the discretisation returns, and the bounds hold with `ε = a min(1, a)^(n²) eᵃ (n² + 2) / ((n² + 1)! (n² + 1))`, where `a` bounds the row sums of
`A dt`. -/
theorem C117_library (h : sys.Is A B C D) (hn : 0 < n) (hm : 0 < m) (hp : 0 < p) (hpa : p < allocMax) {dt : ℝ} (hdt : 0 < dt)
    (hA : A.det ≠ 0) (hi : n ≤ 5 ∨ n ≤ 5000 ∧ ∀ i j, A⁻¹ i j ≠ 0) (us : List (Fin m → ℝ)) {x : ℝ → Fin n → ℝ} (hx : Solves A B us dt x) {T : ℝ} (hT : -1 < T / dt) (hW : ⌊T / dt⌋₊ < W)
    {a φ α ξ β γ : ℝ} (ha : ∀ i, ∑ j, |dt * A i j| ≤ a) (hφ : ∀ i, ∑ j, |NormedSpace.exp (dt • A) i j| ≤ φ) (hα : ∀ i, ∑ j, |A⁻¹ i j| ≤ α)
    (hξ : ∀ k, k < min us.length ⌊T / dt⌋₊ → ∀ i, |x (k * dt) i| ≤ ξ) (hβ : ∀ k, k < min us.length ⌊T / dt⌋₊ → ∀ i, |(B *ᵥ us.getD k 0) i| ≤ β)
    (hγ : ∀ i, ∑ j, |C i j| ≤ γ) :
    ∃ N, ∀ fuel, N ≤ fuel → ∃ d t X Y,
      c2d (isZ abs tol) (fun X => Lin.expm (isZ abs tol) (|·|) Real.sqrt (1/2) X (1/100000) fuel) sys dt = .ok d ∧
      simulate floorSize d (us.map List.ofFn) T (List.ofFn (x 0)) = .ok (t, X, Y) ∧
      X.length = min us.length ⌊T / dt⌋₊ + 1 ∧ Y.length = min us.length ⌊T / dt⌋₊ ∧
      (∀ k, k < X.length → ∃ v : Fin n → ℝ, X[k]? = some (List.ofFn v) ∧
        ∀ i, |v i - x (k * dt) i| ≤ expErr n a * (ξ + α * β) * ∑ j ∈ Finset.range k, (φ + expErr n a) ^ j) ∧
      (∀ k, k < Y.length → ∃ v : Fin p → ℝ, Y[k]? = some (List.ofFn v) ∧
        ∀ i, |v i - (C *ᵥ x (k * dt) + D *ᵥ us.getD k 0) i| ≤
          γ * (expErr n a * (ξ + α * β) * ∑ j ∈ Finset.range k, (φ + expErr n a) ^ j)) := by
  obtain ⟨X, eX, wX, iX⟩ := (C33_field h.a dt).1
  obtain ⟨e, rX, he⟩ := id iX
  obtain ⟨N, R, hN⟩ := C76_terminates_partial abs ht hn ⟨wX, rX⟩ (accuracy := 1/100000) (by norm_num) (by
    have : (n : ℝ) ≤ 5000 := by exact_mod_cast (show n ≤ 5000 by omega)
    linarith)
  have hna : n < allocMax := by rw [allocMax_eq]; omega
  refine ⟨N, fun fuel hf => ?_⟩
  obtain ⟨E, wE, iE, hE⟩ := expm_expErr (isZ_iff abs ht) hn wX iX (hN fuel hf) (a := a) ha
  exact C117_tracks abs ht h hn hm hp hna hpa hdt (by rw [eX, Res.ok_bind]; exact ⟨R, hN fuel hf, wE, iE⟩) hA (hi.imp_right And.right) us hx hT hW hE hφ hα hξ hβ hγ

/-- C117, for how long: if `φ + ε < 1` the error does not grow with the number of steps. -/
theorem C117_stable (h : sys.Is A B C D) (hn : 0 < n) (hm : 0 < m) (hp : 0 < p) (hpa : p < allocMax) {dt : ℝ} (hdt : 0 < dt)
    (hA : A.det ≠ 0) (hi : n ≤ 5 ∨ n ≤ 5000 ∧ ∀ i j, A⁻¹ i j ≠ 0) (us : List (Fin m → ℝ)) {x : ℝ → Fin n → ℝ} (hx : Solves A B us dt x) {T : ℝ} (hT : -1 < T / dt) (hW : ⌊T / dt⌋₊ < W)
    {a φ α ξ β γ : ℝ} (ha : ∀ i, ∑ j, |dt * A i j| ≤ a) (hφ : ∀ i, ∑ j, |NormedSpace.exp (dt • A) i j| ≤ φ) (hα : ∀ i, ∑ j, |A⁻¹ i j| ≤ α)
    (hξ : ∀ k, k < min us.length ⌊T / dt⌋₊ → ∀ i, |x (k * dt) i| ≤ ξ) (hβ : ∀ k, k < min us.length ⌊T / dt⌋₊ → ∀ i, |(B *ᵥ us.getD k 0) i| ≤ β)
    (hγ : ∀ i, ∑ j, |C i j| ≤ γ) (ξ0 : 0 ≤ ξ) (β0 : 0 ≤ β) (h1 : φ + expErr n a < 1) :
    ∃ N, ∀ fuel, N ≤ fuel → ∃ d t X Y,
      c2d (isZ abs tol) (fun X => Lin.expm (isZ abs tol) (|·|) Real.sqrt (1/2) X (1/100000) fuel) sys dt = .ok d ∧
      simulate floorSize d (us.map List.ofFn) T (List.ofFn (x 0)) = .ok (t, X, Y) ∧
      X.length = min us.length ⌊T / dt⌋₊ + 1 ∧ Y.length = min us.length ⌊T / dt⌋₊ ∧
      (∀ k, k < X.length → ∃ v : Fin n → ℝ, X[k]? = some (List.ofFn v) ∧
        ∀ i, |v i - x (k * dt) i| ≤ expErr n a * (ξ + α * β) / (1 - (φ + expErr n a))) ∧
      (∀ k, k < Y.length → ∃ v : Fin p → ℝ, Y[k]? = some (List.ofFn v) ∧
        ∀ i, |v i - (C *ᵥ x (k * dt) + D *ᵥ us.getD k 0) i| ≤ γ * (expErr n a * (ξ + α * β) / (1 - (φ + expErr n a)))) := by
  obtain ⟨N, hN⟩ := C117_library abs ht h hn hm hp hpa hdt hA hi us hx hT hW ha hφ hα hξ hβ hγ
  refine ⟨N, fun fuel hf => ?_⟩
  obtain ⟨d, t, X, Y, e1, e2, e3, e4, e5, e6⟩ := hN fuel hf
  have φ0 : 0 ≤ φ := (Finset.sum_nonneg fun j _ => abs_nonneg _).trans (hφ ⟨0, hn⟩)
  have α0 : 0 ≤ α := (Finset.sum_nonneg fun j _ => abs_nonneg _).trans (hα ⟨0, hn⟩)
  have γ0 : 0 ≤ γ := (Finset.sum_nonneg fun j _ => abs_nonneg _).trans (hγ ⟨0, hp⟩)
  have a0 : 0 ≤ a := (Finset.sum_nonneg fun j _ => abs_nonneg _).trans (ha ⟨0, hn⟩)
  have am : 0 ≤ min 1 a := le_min zero_le_one a0
  have ε0 : 0 ≤ expErr n a := by unfold expErr; positivity
  have hb : ∀ k, expErr n a * (ξ + α * β) * ∑ j ∈ Finset.range k, (φ + expErr n a) ^ j ≤ expErr n a * (ξ + α * β) / (1 - (φ + expErr n a)) := by
    intro k
    rw [div_eq_mul_inv]
    refine mul_le_mul_of_nonneg_left ?_ (by positivity)
    rw [← tsum_geometric_of_lt_one (by positivity) h1]
    exact (summable_geometric_of_lt_one (by positivity) h1).sum_le_tsum _ fun j _ => by positivity
  refine ⟨d, t, X, Y, e1, e2, e3, e4, fun k hk => ?_, fun k hk => ?_⟩
  · obtain ⟨v, hv, hv'⟩ := e5 k hk
    exact ⟨v, hv, fun i => (hv' i).trans (hb k)⟩
  · obtain ⟨v, hv, hv'⟩ := e6 k hk
    exact ⟨v, hv, fun i => (hv' i).trans (mul_le_mul_of_nonneg_left (hb k) γ0)⟩

end

theorem exp_neg_one_mat (t : ℝ) : NormedSpace.exp (t • (-1 : Matrix (Fin 2) (Fin 2) ℝ)) = Matrix.diagonal fun _ => Real.exp (-t) := by
  have : t • (-1 : Matrix (Fin 2) (Fin 2) ℝ) = Matrix.diagonal fun _ => -t := by
    ext i j; fin_cases i <;> fin_cases j <;> simp
  rw [this, Matrix.exp_diagonal]
  congr 1
  funext i
  rw [Real.exp_eq_exp_ℝ]
  exact Pi.coe_exp _ i

/-- Two variables that decay with `x' = -x`, sampled once per second, from 1, with any number of inputs equal to zero: after any
number of seconds the simulation is within 1/9 of `e⁻ᵏ`. -/
example (abs : AbsoluteValue ℝ ℝ) {tol : ℝ} (ht : tol < 1) {sys : StateSpace ℝ} {B : Matrix (Fin 2) (Fin 1) ℝ} {C : Matrix (Fin 1) (Fin 2) ℝ}
    {D : Matrix (Fin 1) (Fin 1) ℝ} (h : sys.Is (-1) B C D) (l : Nat) (hl : l < W) :
    ∃ N, ∀ fuel, N ≤ fuel → ∃ d t X Y,
      c2d (isZ abs tol) (fun X => Lin.expm (isZ abs tol) (|·|) Real.sqrt (1/2) X (1/100000) fuel) sys 1 = .ok d ∧
      simulate floorSize d (List.replicate l [0]) l [1, 1] = .ok (t, X, Y) ∧ X.length = l + 1 ∧
      ∀ k, k ≤ l → ∃ v w, X[k]? = some [v, w] ∧ |v - Real.exp (-k)| ≤ 1/9 ∧ |w - Real.exp (-k)| ≤ 1/9 := by
  have hu : ∀ k, (List.replicate l (0 : Fin 1 → ℝ)).getD k 0 = 0 := fun k => by
    rw [List.getD_eq_getElem?_getD, List.getElem?_replicate]
    split <;> rfl
  have hs := solves_free (-1) B (List.replicate l 0) hu 1 (fun _ => 1)
  have hx : ∀ (t : ℝ) i, (NormedSpace.exp (t • (-1 : Matrix (Fin 2) (Fin 2) ℝ)) *ᵥ fun _ => 1) i = Real.exp (-t) := fun t i => by
    rw [exp_neg_one_mat, Matrix.mulVec_diagonal, mul_one]
  have hfl : ⌊(l : ℝ) / 1⌋₊ = l := by simp
  have he1 := Real.exp_one_lt_d9
  have he2 := Real.exp_one_gt_d9
  have hem : Real.exp (-1) < 0.37 := by
    rw [Real.exp_neg, inv_lt_comm₀ (Real.exp_pos _) (by norm_num)]
    norm_num; linarith
  have herr : expErr 2 1 = Real.exp 1 / 100 := by unfold expErr; norm_num [Nat.factorial]; ring
  have g1 : ∀ i, ∑ j, |(1 : ℝ) * (-1 : Matrix (Fin 2) (Fin 2) ℝ) i j| ≤ 1 := by intro i; fin_cases i <;> simp
  have g2 : ∀ i, ∑ j, |NormedSpace.exp ((1 : ℝ) • (-1 : Matrix (Fin 2) (Fin 2) ℝ)) i j| ≤ 0.37 := by
    intro i
    rw [exp_neg_one_mat]
    fin_cases i <;> simp [abs_of_pos (Real.exp_pos _)] <;> linarith
  have g3 : ∀ i, ∑ j, |(-1 : Matrix (Fin 2) (Fin 2) ℝ)⁻¹ i j| ≤ 1 := by
    intro i
    have : (-1 : Matrix (Fin 2) (Fin 2) ℝ)⁻¹ = -1 := Matrix.inv_eq_left_inv (by simp)
    rw [this]
    fin_cases i <;> simp
  have g4 : ∀ k, k < min (List.replicate l (0 : Fin 1 → ℝ)).length ⌊(l : ℝ) / 1⌋₊ → ∀ i,
      |(fun t : ℝ => NormedSpace.exp (t • (-1 : Matrix (Fin 2) (Fin 2) ℝ)) *ᵥ fun _ => 1) (k * 1) i| ≤ 1 := by
    intro k _ i
    simp only [hx]
    rw [abs_of_pos (Real.exp_pos _), Real.exp_le_one_iff]
    simp
  have g5 : ∀ k, k < min (List.replicate l (0 : Fin 1 → ℝ)).length ⌊(l : ℝ) / 1⌋₊ → ∀ i,
      |(B *ᵥ (List.replicate l (0 : Fin 1 → ℝ)).getD k 0) i| ≤ 0 := by
    intro k _ i
    rw [hu]; simp
  have g6 : ∀ i, ∑ j, |C i j| ≤ ∑ j, |C 0 j| := by
    intro i
    rw [Subsingleton.elim i 0]
  obtain ⟨N, hN⟩ := C117_stable abs ht h (by omega) one_pos one_pos (by rw [allocMax_eq]; decide) (dt := 1) one_pos
    (by simp [Matrix.det_fin_two]) (.inl (by omega)) (List.replicate l 0) hs (T := l) (by rw [div_one]; exact neg_one_lt_zero.trans_le (Nat.cast_nonneg l)) (by rw [hfl]; exact hl) (a := 1) (φ := 0.37) (α := 1) (ξ := 1) (β := 0)
    (γ := ∑ j, |C 0 j|) g1 g2 g3 g4 g5 g6 zero_le_one le_rfl (by rw [herr]; linarith)
  refine ⟨N, fun fuel hf => ?_⟩
  obtain ⟨d, t, X, Y, e1, e2, e3, -, e5, -⟩ := hN fuel hf
  rw [hfl, List.length_replicate, min_self] at e3
  refine ⟨d, t, X, Y, e1, ?_, e3, fun k hk => ?_⟩
  · simpa [List.map_replicate] using e2
  · obtain ⟨v, hv, hv'⟩ := e5 k (by omega)
    simp only [hx, mul_one] at hv'
    have hb : expErr 2 1 * (1 + 1 * 0) / (1 - (0.37 + expErr 2 1)) ≤ 1/9 := by
      rw [herr, div_le_iff₀ (by linarith)]
      linarith
    exact ⟨v 0, v 1, by rw [hv]; simp, (hv' 0).trans (by simpa using hb), (hv' 1).trans (by simpa using hb)⟩

end Malg
