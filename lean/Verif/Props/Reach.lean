import Verif.Props.Acker
import Verif.Props.Qr
/-!
# C103: reachable and observable states, and bringing a system to rest
-/
namespace Malg
open Ops Control Matrix

variable {K : Type} {n m p : Nat}

/-- Every power of `M`, applied to an input, is in the range of the controllability matrix. -/
theorem pow_mem_range [CommRing K] (M : Matrix (Fin n) (Fin n) K) (N : Matrix (Fin n) (Fin m) K) (k : Nat) (u : Fin m → K) :
    (M ^ k * N) *ᵥ u ∈ LinearMap.range (blockRow M N n).mulVecLin := by
  have hsmall : ∀ k, k < n → (M ^ k * N) *ᵥ u ∈ LinearMap.range (blockRow M N n).mulVecLin := by
    intro k hk
    rw [mulVec_eq_sum]
    refine Submodule.sum_mem _ fun j _ => ?_
    rw [op_smul_eq_smul]
    refine Submodule.smul_mem _ _ ?_
    have hlt : k * m + j.1 < n * m := lin_lt hk j.2
    refine ⟨Pi.single ⟨k * m + j.1, hlt⟩ 1, ?_⟩
    rw [mulVecLin_apply, mulVec_single_one]
    funext i
    have hdiv : (k * m + j.1) / m = k := lin_div j.2
    have hmod : (k * m + j.1) % m = j.1 := lin_mod j.2
    simp only [col_apply, transpose_apply, blockRow, hdiv, hmod]
  rcases Nat.eq_zero_or_pos n with rfl | hn
  · exact ⟨0, Subsingleton.elim _ _⟩
  by_cases hnt : Nontrivial K
  · rw [Matrix.pow_eq_aeval_mod_charpoly M k, Polynomial.aeval_eq_sum_range' (n := n)]
    · rw [Matrix.sum_mul, sum_mulVec]
      refine Submodule.sum_mem _ fun i hi => ?_
      rw [smul_mul, smul_mulVec]
      exact Submodule.smul_mem _ _ (hsmall i (Finset.mem_range.1 hi))
    · have hd := Matrix.charpoly_natDegree_eq_dim M
      rw [Fintype.card_fin] at hd
      have := Polynomial.natDegree_modByMonic_lt (Polynomial.X ^ k) M.charpoly_monic (fun h1 => by
        rw [h1, Polynomial.natDegree_one] at hd; omega)
      omega
  · have := not_nontrivial_iff_subsingleton.1 hnt
    exact ⟨0, Subsingleton.elim _ _⟩

/-- The blocks of `w`, last one first, are inputs that steer the system from rest to `[N, M N, …] w`. -/
theorem traj_blocks [Field K] (M : Matrix (Fin n) (Fin n) K) (N : Matrix (Fin n) (Fin m) K) (w : Fin (n * m) → K) :
    traj M N 0 (fun j i => if h : (n - 1 - j) * m + i.1 < n * m then w ⟨_, h⟩ else 0) n = blockRow M N n *ᵥ w := by
  rw [C57_closed, mulVec_zero, zero_add]
  funext r
  rw [Finset.sum_apply, ← Finset.sum_range_reflect]
  have : (blockRow M N n *ᵥ w) r = ∑ j : Fin n × Fin m, blockRow M N n r (finProdFinEquiv j) * w (finProdFinEquiv j) := by
    rw [Matrix.mulVec, dotProduct]
    exact (Equiv.sum_comp finProdFinEquiv (fun j => blockRow M N n r j * w j)).symm
  rw [this, Fintype.sum_prod_type, ← Fin.sum_univ_eq_sum_range (fun j => _)]
  refine Finset.sum_congr rfl fun j _ => ?_
  have hj := j.2
  have e1 : n - 1 - (n - 1 - j.1) = j.1 := by omega
  rw [Matrix.mulVec, dotProduct]
  refine Finset.sum_congr rfl fun i _ => ?_
  have hlt : j.1 * m + i.1 < n * m := lin_lt hj i.2
  have hv : (finProdFinEquiv (j, i)) = (⟨j.1 * m + i.1, hlt⟩ : Fin (n * m)) := by
    apply Fin.ext; simp [finProdFinEquiv, Nat.mul_comm, Nat.add_comm]
  simp only [e1, hv, dif_pos hlt]
  have hdiv : (j.1 * m + i.1) / m = j.1 := lin_div i.2
  have hmod : (j.1 * m + i.1) % m = i.1 := lin_mod i.2
  simp only [blockRow, hdiv, hmod]

theorem traj_mem_range [Field K] (M : Matrix (Fin n) (Fin n) K) (N : Matrix (Fin n) (Fin m) K) (u : Nat → Fin m → K) (k : Nat) :
    ∃ w, blockRow M N n *ᵥ w = traj M N 0 u k := by
  rw [C57_closed, mulVec_zero, zero_add]
  exact Submodule.sum_mem (LinearMap.range (blockRow M N n).mulVecLin) fun j _ => pow_mem_range M N _ _

section field
variable [Field K] [LinearOrder K] [FloorSemiring K]

/-- What `simulate` returns when it returns. -/
theorem simulate_ok {sys : DiscreteStateSpace K} {A : Matrix (Fin n) (Fin n) K}
    {B : Matrix (Fin n) (Fin m) K} {C : Matrix (Fin p) (Fin n) K} {D : Matrix (Fin p) (Fin m) K}
    (h : sys.toStateSpace.Is A B C D) (hn : n < allocMax) (hp : p < allocMax) (us : List (Fin m → K)) (x0 : Fin n → K)
    {T : K} (hdt : sys.sampleTime ≠ 0) {t xs ys} (hs : simulate floorSize sys (us.map List.ofFn) T (List.ofFn x0) = .ok (t, xs, ys)) :
    xs.getLast? = some (List.ofFn (traj A B x0 (fun j => us.getD j 0) (min us.length ⌊T / sys.sampleTime⌋₊))) := by
  by_cases hT : -1 < T / sys.sampleTime ∧ ⌊T / sys.sampleTime⌋₊ < W
  · obtain ⟨t', x', y', h1, h2, h3, h4, -⟩ := C57_simulate_partial h hn hp us x0 hdt hT.1 hT.2
    rw [h1] at hs; cases hs
    rw [List.getLast?_eq_getElem?, h4 _ (by omega), h2, Nat.add_sub_cancel, h3]
  · unfold simulate at hs
    rw [cdiv_ok _ hdt, Res.ok_bind, floorSize, if_neg hT] at hs
    cases hs

variable [IsStrictOrderedRing K]

/-- C103: the states a simulation can end in, started at rest, are the combinations of the columns of `ctrb(A,B)`,
whatever the inputs and the duration; `n` steps are enough to reach every one of them. -/
theorem C103_reachable {sys : DiscreteStateSpace K} {A : Matrix (Fin n) (Fin n) K}
    {B : Matrix (Fin n) (Fin m) K} {C : Matrix (Fin p) (Fin n) K} {D : Matrix (Fin p) (Fin m) K}
    (h : sys.toStateSpace.Is A B C D) (hn : 0 < n) (hf : Fits n (n * m)) (hp : p < allocMax) (hdt : sys.sampleTime ≠ 0)
    (x : Fin n → K) :
    (∃ (us : List (Fin m → K)) (T : K) (t : List K) (xs ys : List (List K)),
      simulate floorSize sys (us.map List.ofFn) T (List.replicate n 0) = .ok (t, xs, ys) ∧
      xs.getLast? = some (List.ofFn x)) ↔
    ∃ w : Fin (n * m) → K, (ctrb sys.A.toMB sys.B.toMB >>= fun R => dotMat R.toMB (List.ofFn w)) = .ok (List.ofFn x) := by
  obtain ⟨R, hR, -, hRI⟩ := C59_ctrb h.a h.b hn hf
  have hna : n < allocMax := Nat.lt_of_le_of_lt (Nat.le_mul_of_pos_right _ hn) h.a.fits.1
  have hz : List.replicate n (0 : K) = List.ofFn (0 : Fin n → K) := by rw [← List.ofFn_const]; rfl
  simp only [hR, Res.ok_bind, dotMat_ofFn hRI hna, Res.ok.injEq, List.ofFn_inj, hz]
  constructor
  · rintro ⟨us, T, t, xs, ys, h1, h2⟩
    rw [simulate_ok h hna hp us 0 hdt h1, Option.some.injEq, List.ofFn_inj] at h2
    obtain ⟨w, hw⟩ := traj_mem_range A B (fun j => us.getD j 0) (min us.length ⌊T / sys.sampleTime⌋₊)
    exact ⟨w, hw.trans h2⟩
  · rintro ⟨w, rfl⟩
    have hT : (n : K) * sys.sampleTime / sys.sampleTime = n := mul_div_cancel_right₀ _ hdt
    obtain ⟨t, xs, ys, h1, -⟩ := C57_simulate_partial h hna hp
      ((List.range n).map fun j (i : Fin m) => if h : (n - 1 - j) * m + i.1 < n * m then w ⟨_, h⟩ else 0) 0
      (T := n * sys.sampleTime) hdt (by rw [hT]; exact lt_of_lt_of_le neg_one_lt_zero (Nat.cast_nonneg n))
      (by rw [hT, Nat.floor_natCast]; exact Nat.lt_trans hna allocMax_lt_W)
    refine ⟨_, _, t, xs, ys, h1, ?_⟩
    rw [simulate_ok h hna hp _ 0 hdt h1, hT, Nat.floor_natCast, List.length_map, List.length_range, Nat.min_self,
      ← traj_blocks]
    congr 2
    have key : ∀ k, k ≤ n → ∀ u v : Nat → Fin m → K, (∀ j, j < k → u j = v j) → traj A B 0 u k = traj A B 0 v k := by
      intro k
      induction k with
      | zero => intros; rfl
      | succ k ih =>
        intro hk u v huv
        rw [traj, traj, ih (by omega) u v (fun j hj => huv j (by omega)), huv k (by omega)]
    refine key n le_rfl _ _ fun j hj => ?_
    rw [List.getD_eq_getElem?_getD, List.getElem?_map, List.getElem?_range hj]
    rfl

/-- C103: two initial states give the same outputs for all inputs and durations exactly when `obsv(A,C)` maps them to the
same vector. -/
theorem C103_observable {sys : DiscreteStateSpace K} {A : Matrix (Fin n) (Fin n) K}
    {B : Matrix (Fin n) (Fin m) K} {C : Matrix (Fin p) (Fin n) K} {D : Matrix (Fin p) (Fin m) K}
    (h : sys.toStateSpace.Is A B C D) (hn : 0 < n) (hf : Fits (n * p) n) (hp : p < allocMax) (hdt : sys.sampleTime ≠ 0)
    (x x' : Fin n → K) :
    (∀ (us : List (Fin m → K)) (T : K),
      (simulate floorSize sys (us.map List.ofFn) T (List.ofFn x) >>= fun r => .ok r.2.2) =
      (simulate floorSize sys (us.map List.ofFn) T (List.ofFn x') >>= fun r => .ok r.2.2)) ↔
    (obsv sys.A.toMB sys.C.toMB >>= fun O => dotMat O.toMB (List.ofFn x)) =
    (obsv sys.A.toMB sys.C.toMB >>= fun O => dotMat O.toMB (List.ofFn x')) := by
  obtain ⟨O, hO, -, hOI⟩ := C89_obsv h.a h.c hn hf
  have hna : n < allocMax := Nat.lt_of_le_of_lt (Nat.le_mul_of_pos_right _ hn) h.a.fits.1
  have hnp : n * p < allocMax := Nat.lt_of_le_of_lt (Nat.le_mul_of_pos_right _ hn) hf.1
  rw [hO, Res.ok_bind, Res.ok_bind, dotMat_ofFn hOI hnp, dotMat_ofFn hOI hnp, Res.ok.injEq, List.ofFn_inj]
  have hker : blockCol A C n *ᵥ x = blockCol A C n *ᵥ x' ↔ ∀ k, C *ᵥ (A ^ k *ᵥ x) = C *ᵥ (A ^ k *ᵥ x') := by
    have := blockCol_kernel A C (x - x')
    rw [mulVec_sub, sub_eq_zero] at this
    rw [this]
    refine forall_congr' fun k => ?_
    rw [mulVec_sub, mulVec_sub, sub_eq_zero]
  have hout : ∀ (u : Nat → Fin m → K) k, C *ᵥ traj A B x u k + D *ᵥ u k = C *ᵥ traj A B x' u k + D *ᵥ u k ↔
      C *ᵥ (A ^ k *ᵥ x) = C *ᵥ (A ^ k *ᵥ x') := by
    intro u k
    rw [C57_closed, C57_closed, mulVec_add, mulVec_add, add_left_inj, add_left_inj]
  constructor
  · intro hall
    have hk : ∀ k, k < n → C *ᵥ (A ^ k *ᵥ x) = C *ᵥ (A ^ k *ᵥ x') := by
      intro k hkn
      have hT : ((k + 1 : Nat) : K) * sys.sampleTime / sys.sampleTime = (k + 1 : Nat) := mul_div_cancel_right₀ _ hdt
      have hT1 : -1 < ((k + 1 : Nat) : K) * sys.sampleTime / sys.sampleTime := by
        rw [hT]; exact lt_of_lt_of_le neg_one_lt_zero (Nat.cast_nonneg _)
      have hT2 : ⌊((k + 1 : Nat) : K) * sys.sampleTime / sys.sampleTime⌋₊ < W := by
        have := allocMax_lt_W
        rw [hT, Nat.floor_natCast]; omega
      obtain ⟨t, xs, ys, h1, -, h3, -, h5⟩ := C57_simulate_partial h hna hp (List.replicate (k + 1) 0) x hdt hT1 hT2
      obtain ⟨t', xs', ys', h1', -, h3', -, h5'⟩ := C57_simulate_partial h hna hp (List.replicate (k + 1) 0) x' hdt hT1 hT2
      rw [hT, Nat.floor_natCast, List.length_replicate, Nat.min_self] at h3 h3'
      have := hall (List.replicate (k + 1) 0) (((k + 1 : Nat) : K) * sys.sampleTime)
      rw [h1, h1', Res.ok_bind, Res.ok_bind, Res.ok.injEq] at this
      dsimp only at this
      have h6 := h5 k (by omega)
      rw [this, h5' k (by omega), Option.some.injEq, List.ofFn_inj] at h6
      exact ((hout _ k).1 h6.symm)
    funext r
    have hpp : 0 < p := Nat.pos_of_ne_zero fun h0 => by have := r.2; simp [h0] at this
    have := congrFun (hk (r.1 / p) ((Nat.div_lt_iff_lt_mul hpp).2 r.2)) ⟨r.1 % p, Nat.mod_lt _ hpp⟩
    rw [mulVec_mulVec, mulVec_mulVec] at this
    exact this
  · intro hk us T
    rw [hker] at hk
    by_cases hT : -1 < T / sys.sampleTime ∧ ⌊T / sys.sampleTime⌋₊ < W
    · obtain ⟨t, xs, ys, h1, -, h3, -, h5⟩ := C57_simulate_partial h hna hp us x hdt hT.1 hT.2
      obtain ⟨t', xs', ys', h1', -, h3', -, h5'⟩ := C57_simulate_partial h hna hp us x' hdt hT.1 hT.2
      rw [h1, h1', Res.ok_bind, Res.ok_bind]
      congr 1
      dsimp only
      apply List.ext_getElem?
      intro k
      by_cases hlt : k < ys.length
      · rw [h5 k hlt, h5' k (by omega)]
        congr 2
        exact (hout (fun j => us.getD j 0) k).2 (hk k)
      · rw [List.getElem?_eq_none (by omega), List.getElem?_eq_none (by omega)]
    · unfold simulate
      rw [cdiv_ok _ hdt, Res.ok_bind, floorSize, if_neg hT, Res.ok_bind, floorSize, if_neg hT]
      rfl

variable {R : Type} [Field R] [LinearOrder R] [IsStrictOrderedRing R] (abs : AbsoluteValue K R) {tol : R} (ht : tol < 1)

omit [LinearOrder K] [FloorSemiring K] [IsStrictOrderedRing K] in
theorem ctrb_surjective {A B : MB K} {M : Matrix (Fin n) (Fin n) K} {N : Matrix (Fin n) (Fin 1) K} (hA : A.Is M) (hB : B.Is N)
    (hn : 0 < n) : (∀ x : Fin n → K, ∃ w : Fin (n * 1) → K,
      (ctrb A B >>= fun R => dotMat R.toMB (List.ofFn w)) = .ok (List.ofFn x)) ↔ (ctrbMatrix M N).det ≠ 0 := by
  obtain ⟨R, hR, -, hRI⟩ := ctrb_square hA hB hn
  have hna : n < allocMax := Nat.lt_of_le_of_lt (Nat.le_mul_of_pos_right _ hn) hA.fits.1
  rw [← isUnit_iff_ne_zero, ← Matrix.isUnit_iff_isUnit_det, ← Matrix.mulVec_surjective_iff_isUnit]
  refine forall_congr' fun x => ?_
  have hc : ∀ w : Fin n → K, List.ofFn w = List.ofFn fun i : Fin (n * 1) => w (Fin.cast (Nat.mul_one n) i) := fun w =>
    List.ofFn_congr (Nat.mul_one n).symm w
  constructor
  · rintro ⟨w, hw⟩
    refine ⟨fun i => w (Fin.cast (Nat.mul_one n).symm i), ?_⟩
    have h1 : List.ofFn w = List.ofFn fun i : Fin n => w (Fin.cast (Nat.mul_one n).symm i) :=
      List.ofFn_congr (Nat.mul_one n) w
    rw [hR, Res.ok_bind, h1, dotMat_ofFn hRI hna, Res.ok.injEq, List.ofFn_inj] at hw
    exact hw
  · rintro ⟨w, hw⟩
    refine ⟨fun i => w (Fin.cast (Nat.mul_one n) i), ?_⟩
    rw [hR, Res.ok_bind, ← hc w, dotMat_ofFn hRI hna, hw]

/-- C103, the test for one input, up to four states: `determinant(ctrb(A,B))` is not zero exactly when every state can be
reached. Missing: systems with more states (`C103_test_false`). -/
theorem C103_test_partial (isz : K → Bool) {sys : DiscreteStateSpace K} {A : Matrix (Fin n) (Fin n) K}
    {B : Matrix (Fin n) (Fin 1) K} {C : Matrix (Fin p) (Fin n) K} {D : Matrix (Fin p) (Fin 1) K}
    (h : sys.toStateSpace.Is A B C D) (hn : 0 < n) (hn4 : n ≤ 4) (hp : p < allocMax) (hdt : sys.sampleTime ≠ 0) :
    (∃ d, (ctrb sys.A.toMB sys.B.toMB >>= fun R => Lin.determinant isz R.toMB) = .ok d ∧ d ≠ 0) ↔
    ∀ x : Fin n → K, ∃ (us : List (Fin 1 → K)) (T : K) (t : List K) (xs ys : List (List K)),
      simulate floorSize sys (us.map List.ofFn) T (List.replicate n 0) = .ok (t, xs, ys) ∧ xs.getLast? = some (List.ofFn x) := by
  have hf : Fits n (n * 1) := by rw [Nat.mul_one]; exact h.a.fits
  rw [forall_congr' fun x => C103_reachable h hn hf hp hdt x, ctrb_surjective h.a h.b hn]
  obtain ⟨R, hR, -, hRI⟩ := ctrb_square h.a h.b hn
  rw [hR, Res.ok_bind, C50_small_partial isz hRI hn4]
  constructor
  · rintro ⟨d, h1, h2⟩; cases h1; exact h2
  · exact fun h => ⟨_, rfl, h⟩

omit [FloorSemiring K] [IsStrictOrderedRing K] in
include ht in
/-- Beyond four states the determinant is never zero. -/
theorem ctrb_determinant {sys : DiscreteStateSpace K} {A : Matrix (Fin n) (Fin n) K}
    {B : Matrix (Fin n) (Fin 1) K} {C : Matrix (Fin p) (Fin n) K} {D : Matrix (Fin p) (Fin 1) K}
    (h : sys.toStateSpace.Is A B C D) (hn4 : 4 < n) :
    ∃ d, (ctrb sys.A.toMB sys.B.toMB >>= fun R => Lin.determinant (isZ abs tol) R.toMB) = .ok d ∧ d ≠ 0 := by
  obtain ⟨R, hR, -, hRI⟩ := ctrb_square h.a h.b (by omega)
  rw [hR, Res.ok_bind]
  by_cases hd : (ctrbMatrix A B).det = 0
  · exact C50_singular_false abs ht hRI hn4 hd
  · exact ⟨_, C50_large_partial abs ht hRI hd, hd⟩

include ht in
/-- C103: if the pair is controllable, the gain that `acker` computes for poles at zero brings the system to rest: from every
initial state, after `n` or more steps without further input. Missing: larger systems for which C52 fails. -/
theorem C103_deadbeat_partial {sys : DiscreteStateSpace K} {A : Matrix (Fin n) (Fin n) K}
    {B : Matrix (Fin n) (Fin 1) K} {C : Matrix (Fin p) (Fin n) K} {D : Matrix (Fin p) (Fin 1) K}
    (h : sys.toStateSpace.Is A B C D) (hn : 0 < n) (hka : n + 1 < allocMax) (hp : p < allocMax) (hdt : sys.sampleTime ≠ 0)
    (hctrl : (ctrbMatrix A B).det ≠ 0) (hi : n ≤ 5 ∨ ∀ i j, (ctrbMatrix A B)⁻¹ i j ≠ 0) :
    ∃ Acl, (Util.zeros 1 n >>= fun P => acker (isZ abs tol) sys.A.toMB sys.B.toMB P.toMB >>= fun G =>
        mul sys.B.toMB G.toMB >>= fun BG => sub sys.A.toMB BG.toMB) = .ok Acl ∧
      ∀ (x : Fin n → K) (k : Nat), n ≤ k → k < W → ∃ t xs ys,
        simulate floorSize { sys with A := Acl } (List.replicate k [0]) (k * sys.sampleTime) (List.ofFn x) = .ok (t, xs, ys) ∧
        xs.getLast? = some (List.replicate n 0) := by
  have hna : n < allocMax := by omega
  have hf1 : Fits 1 n := h.a.fits.mono hn (Nat.le_refl n)
  have hz1 : Util.zeros 1 n = .ok (Mat.ofFn 1 n fun _ _ => (0 : K)) := by
    unfold Util.zeros; rw [if_neg (by omega), if_neg (by omega), Mat.new_eq hf1]
  obtain ⟨G, hG, hch⟩ := C63_placed_partial abs ht h.a h.b (ofFn_rep hf1 fun _ _ => (0 : K)) (by
    show (Mat.ofFn 1 n fun _ _ => (0 : K)).isEmpty = false
    simp [Mat.isEmpty, ofFn_rows, ofFn_cols, hn.ne']) hn hka hctrl hi
  have hY : Yields (acker (isZ abs tol) sys.A.toMB sys.B.toMB (Mat.ofFn 1 n fun _ _ => (0 : K)).toMB >>= fun G =>
        mul sys.B.toMB G.toMB >>= fun BG => sub sys.A.toMB BG.toMB) (A - B * G) :=
    hG.bind fun G' _ hG' => (C35_product h.b hG' h.a.fits).bind fun BG _ hBG => (C33_matrix h.a hBG 0).2.1
  obtain ⟨Acl, h1, h2, h3⟩ := hY
  refine ⟨Acl, by rw [hz1, Res.ok_bind, h1], fun x k hk hkW => ?_⟩
  have hnil : (A - B * G) ^ n = 0 := by
    have := Matrix.aeval_self_charpoly (A - B * G)
    rw [hch] at this
    simpa using this
  have hsys : ({ sys with A := Acl } : DiscreteStateSpace K).toStateSpace.Is (A - B * G) B C D := ⟨h3, h.b, h.c, h.d⟩
  have hT : (k : K) * sys.sampleTime / sys.sampleTime = k := mul_div_cancel_right₀ _ hdt
  obtain ⟨t, xs, ys, h4, -⟩ := C57_simulate_partial hsys hna hp (List.replicate k 0) x
      (T := k * sys.sampleTime) hdt (by rw [hT]; exact lt_of_lt_of_le neg_one_lt_zero (Nat.cast_nonneg k))
      (by rw [hT, Nat.floor_natCast]; exact hkW)
  refine ⟨t, xs, ys, ?_, ?_⟩
  · rw [← h4, List.map_replicate]; rfl
  · rw [simulate_ok hsys hna hp _ x hdt h4, hT, Nat.floor_natCast, List.length_replicate, Nat.min_self, C57_closed,
      show List.replicate n (0 : K) = List.ofFn (0 : Fin n → K) by rw [← List.ofFn_const]; rfl]
    obtain ⟨j, rfl⟩ := Nat.exists_eq_add_of_le hk
    rw [pow_add, hnil, Matrix.zero_mul, zero_mulVec, zero_add, Finset.sum_eq_zero]
    intro i _
    have : (List.replicate (n + j) (0 : Fin 1 → K)).getD i 0 = 0 := by
      simp only [List.getD_eq_getElem?_getD, List.getElem?_replicate]
      split <;> rfl
    rw [this, mulVec_zero]

end field

/-- C103 is false beyond four states: for every system whose input does nothing at all the determinant is not zero, although
the system never leaves the state of rest. -/
theorem C103_test_false {sys : DiscreteStateSpace ℚ} {A : Matrix (Fin n) (Fin n) ℚ} {C : Matrix (Fin p) (Fin n) ℚ}
    {D : Matrix (Fin p) (Fin 1) ℚ} (h : sys.toStateSpace.Is A (0 : Matrix (Fin n) (Fin 1) ℚ) C D) (hn4 : 4 < n) (hp : p < allocMax)
    (hdt : sys.sampleTime ≠ 0) :
    (∃ d, (ctrb sys.A.toMB sys.B.toMB >>= fun R =>
      Lin.determinant (isZ (AbsoluteValue.abs (S := ℚ)) (1/1000000000)) R.toMB) = .ok d ∧ d ≠ 0) ∧
    ∀ (us : List (Fin 1 → ℚ)) (T : ℚ) (t : List ℚ) (xs ys : List (List ℚ)),
      simulate floorSize sys (us.map List.ofFn) T (List.replicate n 0) = .ok (t, xs, ys) →
      xs.getLast? = some (List.replicate n 0) := by
  refine ⟨ctrb_determinant _ (by norm_num) h hn4, fun us T t xs ys hs => ?_⟩
  have hna : n < allocMax := Nat.lt_of_le_of_lt (Nat.le_mul_of_pos_right _ (by omega)) h.a.fits.1
  rw [show List.replicate n (0 : ℚ) = List.ofFn (0 : Fin n → ℚ) by rw [← List.ofFn_const]; rfl] at hs ⊢
  rw [simulate_ok h hna hp us 0 hdt hs, C57_closed]
  simp

/-- The double integrator, `x⁺ = [1 1; 0 1] x + [0; 1] u`, is steered to `(3, 5)` by `u = 3, 2`. -/
example : (simulate floorSize ⟨⟨⟨2, 2, [1, 1, 0, 1]⟩, ⟨2, 1, [0, 1]⟩, ⟨1, 2, [1, 0]⟩, ⟨1, 1, [0]⟩⟩, 1/10⟩ [[3], [2]] (1/5 : ℚ) [0, 0] >>=
    fun r => .ok r.2.1) = .ok [[0, 0], [0, 3], [3, 5]] := by decide +kernel
/-- It is brought to rest from `(1, 0)` by the gains `(1, 2)`. -/
example : (Util.zeros 1 2 >>= fun P => acker (isZ (AbsoluteValue.abs (S := ℚ)) (1/1000000000)) (⟨2, 2, [1, 1, 0, 1]⟩ : Mat ℚ).toMB
      (⟨2, 1, [0, 1]⟩ : Mat ℚ).toMB P.toMB) = .ok ⟨1, 2, [1, 2]⟩ ∧
    (simulate floorSize ⟨⟨⟨2, 2, [1, 1, -1, -1]⟩, ⟨2, 1, [0, 1]⟩, ⟨1, 2, [1, 0]⟩, ⟨1, 1, [0]⟩⟩, 1/10⟩ [[0], [0]] (1/5 : ℚ) [1, 0] >>=
    fun r => .ok r.2.1) = .ok [[1, 0], [1, -1], [0, 0]] := by decide +kernel
/-- With the output `x₂` only, `(1, 0)` and `(0, 0)` cannot be told apart. -/
example : (obsv (⟨2, 2, [1, 1, 0, 1]⟩ : Mat ℚ).toMB (⟨1, 2, [0, 1]⟩ : Mat ℚ).toMB >>= fun O => dotMat O.toMB [1, 0]) = .ok [0, 0] := by
  decide +kernel

end Malg
