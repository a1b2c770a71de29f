import Verif.Props.Poly
import Verif.Props.VecOps
import Verif.Props.Linalg
import Verif.Props.Det
import Verif.Spec.Control
import Verif.Model.Cast
import Mathlib.Algebra.Order.Floor.Semiring
import Mathlib.Data.Rat.Floor
/-!
# C57 – C59, C65: simulation and controllability matrix
-/
namespace Malg
open Ops Control Matrix

variable {K : Type} {n m p : Nat}

theorem ofFn_eq_vtab [Zero K] (x : Fin n → K) : List.ofFn x = vtab n (fun i => if h : i < n then x ⟨i, h⟩ else 0) := by
  apply List.ext_getElem
  · simp [vtab]
  · intro i h1 h2
    have : i < n := by simpa using h1
    simp [vtab, this]

theorem vtab_succ {T : Type} (k : Nat) (f : Nat → T) : vtab (k + 1) f = vtab k f ++ [f k] := by
  simp [vtab, List.range_succ]

/-- `dot(A, x)` is the matrix-vector product. -/
theorem dotMat_ofFn [NonUnitalNonAssocSemiring K] {A : MB K} {M : Matrix (Fin n) (Fin m) K} (hA : A.Is M)
    (hn : n < allocMax) (x : Fin m → K) : dotMat A (List.ofFn x) = .ok (List.ofFn (M *ᵥ x)) := by
  obtain ⟨e, hA, rfl⟩ := hA
  rw [ofFn_eq_vtab x, ofFn_eq_vtab]
  show Ops.mulVec _ _ = _
  rw [mulVec_eq hA.toRepAt hn (fun i hi => vget_vtab hi)]
  congr 1; apply vtab_congr; intro i hi
  rw [dif_pos hi, lsum_eq_sum]
  refine Finset.sum_congr rfl fun j _ => ?_
  rw [dif_pos j.2]; rfl

theorem vadd_ofFn [Zero K] [Add K] (hn : n < allocMax) (x y : Fin n → K) :
    vadd (List.ofFn x) (List.ofFn y) = .ok (List.ofFn (x + y)) := by
  rw [ofFn_eq_vtab x, ofFn_eq_vtab y, ofFn_eq_vtab]
  refine zipVec_eq (vtab_vrep hn _) (vtab_vrep hn _) fun i hi => ?_
  rw [dif_pos hi, dif_pos hi, dif_pos hi]; rfl

/-! ## C57, C58 -/

/-- C57: the system is made of copies of the four matrices. -/
theorem C57_system [Zero K] {A B C D : Mat K} {a : Matrix (Fin n) (Fin n) K} {b : Matrix (Fin n) (Fin m) K}
    {c : Matrix (Fin p) (Fin n) K} {d : Matrix (Fin p) (Fin m) K} (hA : A.toMB.Is a) (hB : B.toMB.Is b)
    (hC : C.toMB.Is c) (hD : D.toMB.Is d) :
    ∃ sys, mkStateSpace A B C D = .ok sys ∧ sys.Is a b c d ∧ sys.A.WF ∧ sys.B.WF ∧ sys.C.WF ∧ sys.D.WF := by
  have key : ∀ {k l : Nat} {M : Mat K} {x : Matrix (Fin k) (Fin l) K}, M.toMB.Is x →
      ∃ N, M.copy = .ok N ∧ N.toMB.Is x ∧ N.WF := by
    rintro k l M x ⟨e, h, rfl⟩
    exact ⟨_, Mat.ofMB_eq h id, ⟨e, ofFn_rep h.fits _, rfl⟩, ofFn_WF h.fits _⟩
  obtain ⟨A', ea, ha, wa⟩ := key hA
  obtain ⟨B', eb, hb, wb⟩ := key hB
  obtain ⟨C', ec, hc, wc⟩ := key hC
  obtain ⟨D', ed, hd, wd⟩ := key hD
  exact ⟨⟨A', B', C', D'⟩, by simp only [mkStateSpace, ea, eb, ec, ed, Res.ok_bind, Res.pure_eq], ⟨ha, hb, hc, hd⟩,
    wa, wb, wc, wd⟩

example : mkStateSpace (⟨1, 1, [1]⟩ : Mat Int) ⟨1, 2, [2, 3]⟩ ⟨2, 1, [4, 5]⟩ ⟨2, 2, [6, 7, 8, 9]⟩ =
    .ok ⟨⟨1, 1, [1]⟩, ⟨1, 2, [2, 3]⟩, ⟨2, 1, [4, 5]⟩, ⟨2, 2, [6, 7, 8, 9]⟩⟩ := by decide +kernel

/-- One step of the simulation. -/
theorem C57_step [NonUnitalNonAssocSemiring K] {sys : DiscreteStateSpace K} {A : Matrix (Fin n) (Fin n) K}
    {B : Matrix (Fin n) (Fin m) K} {C : Matrix (Fin p) (Fin n) K} {D : Matrix (Fin p) (Fin m) K}
    (h : sys.toStateSpace.Is A B C D) (hn : n < allocMax) (hp : p < allocMax) (x : Fin n → K) (u : Fin m → K) :
    simulateStep sys (List.ofFn x) (List.ofFn u) =
      .ok (List.ofFn (A *ᵥ x + B *ᵥ u), List.ofFn (C *ᵥ x + D *ᵥ u)) := by
  unfold simulateStep
  rw [dotMat_ofFn h.a hn, Res.ok_bind, dotMat_ofFn h.b hn, Res.ok_bind, vadd_ofFn hn, Res.ok_bind,
    dotMat_ofFn h.c hp, Res.ok_bind, dotMat_ofFn h.d hp, Res.ok_bind, vadd_ofFn hp, Res.ok_bind]
  rfl

/-- The complete result of a simulation whose number of steps is representable. -/
theorem simulate_eq [Semiring K] [CDiv K] {toSize : K → Res Nat} {sys : DiscreteStateSpace K} {A : Matrix (Fin n) (Fin n) K}
    {B : Matrix (Fin n) (Fin m) K} {C : Matrix (Fin p) (Fin n) K} {D : Matrix (Fin p) (Fin m) K}
    (h : sys.toStateSpace.Is A B C D) (hn : n < allocMax) (hp : p < allocMax) (us : List (Fin m → K)) (x0 : Fin n → K)
    {T q : K} {k : Nat} (hq : cdiv T sys.sampleTime = .ok q) (hk : toSize q = .ok k) :
    simulate toSize sys (us.map List.ofFn) T (List.ofFn x0) =
      .ok (vtab (min us.length k + 1) (fun i => if i < min us.length k then (i : K) * sys.sampleTime else 0),
        vtab (min us.length k + 1) (fun i => List.ofFn (traj A B x0 (fun j => us.getD j 0) i)),
        vtab (min us.length k) (fun i => List.ofFn
          (C *ᵥ traj A B x0 (fun j => us.getD j 0) i + D *ᵥ us.getD i 0))) := by
  unfold simulate
  rw [hq, Res.ok_bind, hk, Res.ok_bind, List.length_map]
  dsimp only
  generalize hs : min us.length k = s
  have hsl : s ≤ us.length := by omega
  rw [forRange_eq (Nat.zero_le s) (fun i => (⟨(i : K) * sys.sampleTime,
    vtab (s + 1) (fun j => if j < i then (j : K) * sys.sampleTime else 0),
    vtab (i + 1) (fun i => List.ofFn (traj A B x0 (fun j => us.getD j 0) i)),
    vtab i (fun i => List.ofFn (C *ᵥ traj A B x0 (fun j => us.getD j 0) i + D *ᵥ us.getD i 0))⟩ : SimState K))]
  · rw [Res.ok_bind]; rfl
  · congr 1
    · simp
    · rw [replicate_eq_vtab]; rfl
  · intro i _ hi
    dsimp only
    have hu : vget (us.map (List.ofFn (n := m))) i = .ok (List.ofFn (us.getD i 0)) := by
      rw [vget_ok_iff, List.getElem?_map, List.getD_eq_getElem?_getD, List.getElem?_eq_getElem (by omega)]; rfl
    rw [vset_vtab (by omega), Res.ok_bind, vtab_length, Nat.add_sub_cancel, vget_vtab (Nat.lt_succ_self i), Res.ok_bind, hu, Res.ok_bind,
      C57_step h hn hp, Res.ok_bind]
    show Res.ok _ = Res.ok _
    congr 2
    · rw [Nat.cast_succ, add_mul, one_mul]
    · apply vtab_congr; intro j hj
      by_cases h1 : j = i
      · subst h1; simp
      · rw [Function.update_of_ne h1]
        exact if_congr (by omega) rfl rfl
    · rw [vtab_succ (i + 1)]; rfl
    · rw [vtab_succ i]

section field
variable [Field K] [LinearOrder K] [FloorSemiring K]

/-- C57: for a duration of at least zero (more precisely, `T/dt > -1`) the states and outputs follow the state equation
for `min (len u) ⌊T/dt⌋` steps, with one more state than outputs. Missing: `T/dt ≤ -1`, see `C57_negative_false`. -/
theorem C57_simulate_partial {sys : DiscreteStateSpace K} {A : Matrix (Fin n) (Fin n) K}
    {B : Matrix (Fin n) (Fin m) K} {C : Matrix (Fin p) (Fin n) K} {D : Matrix (Fin p) (Fin m) K}
    (h : sys.toStateSpace.Is A B C D) (hn : n < allocMax) (hp : p < allocMax) (us : List (Fin m → K)) (x0 : Fin n → K)
    {T : K} (hdt : sys.sampleTime ≠ 0) (hT : -1 < T / sys.sampleTime) (hW : ⌊T / sys.sampleTime⌋₊ < W) :
    ∃ t x y, simulate floorSize sys (us.map List.ofFn) T (List.ofFn x0) = .ok (t, x, y) ∧
      x.length = y.length + 1 ∧ y.length = min us.length ⌊T / sys.sampleTime⌋₊ ∧
      (∀ k, k < x.length → x[k]? = some (List.ofFn (traj A B x0 (fun j => us.getD j 0) k))) ∧
      (∀ k, k < y.length → y[k]? = some (List.ofFn (C *ᵥ traj A B x0 (fun j => us.getD j 0) k + D *ᵥ us.getD k 0))) := by
  refine ⟨_, _, _, simulate_eq h hn hp us x0 (cdiv_ok _ hdt) (if_pos ⟨hT, hW⟩), ?_, ?_, ?_, ?_⟩
  · simp
  · simp
  · intro k hk; rw [← vget_ok_iff]; exact vget_vtab (by simpa using hk)
  · intro k hk; rw [← vget_ok_iff]; exact vget_vtab (by simpa using hk)

omit [LinearOrder K] [FloorSemiring K] in
/-- C57: the closed form of the states. -/
theorem C57_closed (A : Matrix (Fin n) (Fin n) K) (B : Matrix (Fin n) (Fin m) K) (x0 : Fin n → K) (u : Nat → Fin m → K) (k : Nat) :
    traj A B x0 u k = A ^ k *ᵥ x0 + ∑ j ∈ Finset.range k, (A ^ (k - 1 - j) * B) *ᵥ u j := by
  induction k with
  | zero => simp [traj]
  | succ k ih =>
    rw [traj, ih, Finset.sum_range_succ, mulVec_add, mulVec_mulVec, ← pow_succ', add_assoc]
    have h0 : k + 1 - 1 - k = 0 := by omega
    rw [h0, pow_zero, Matrix.one_mul]
    congr 2
    rw [← Matrix.mulVecLin_apply, map_sum]
    refine Finset.sum_congr rfl fun j hj => ?_
    have := Finset.mem_range.1 hj
    have h1 : k + 1 - 1 - j = k - 1 - j + 1 := by omega
    rw [Matrix.mulVecLin_apply, mulVec_mulVec, h1, pow_succ', Matrix.mul_assoc]

/-- C57 is false for negative durations of at least one step: the conversion to `std::size_t` is undefined. -/
theorem C57_negative_false (sys : DiscreteStateSpace K) (us : List (List K)) (x0 : List K) {T : K} (hdt : sys.sampleTime ≠ 0)
    (hT : T / sys.sampleTime ≤ -1) : simulate floorSize sys us T x0 = .ub .badCast := by
  unfold simulate
  rw [cdiv_ok _ hdt, Res.ok_bind, floorSize, if_neg (fun hc => absurd hc.1 (not_lt.2 hT))]
  rfl

/-- C58: one time stamp per state; all but the last one are right. Missing: the last one, see `C58_last_false`. -/
theorem C58_times_partial {sys : DiscreteStateSpace K} {A : Matrix (Fin n) (Fin n) K}
    {B : Matrix (Fin n) (Fin m) K} {C : Matrix (Fin p) (Fin n) K} {D : Matrix (Fin p) (Fin m) K}
    (h : sys.toStateSpace.Is A B C D) (hn : n < allocMax) (hp : p < allocMax) (us : List (Fin m → K)) (x0 : Fin n → K)
    {T : K} (hdt : sys.sampleTime ≠ 0) (hT : -1 < T / sys.sampleTime) (hW : ⌊T / sys.sampleTime⌋₊ < W) :
    ∃ t x y, simulate floorSize sys (us.map List.ofFn) T (List.ofFn x0) = .ok (t, x, y) ∧ t.length = x.length ∧
      ∀ i, i + 1 < t.length → t[i]? = some ((i : K) * sys.sampleTime) := by
  refine ⟨_, _, _, simulate_eq h hn hp us x0 (cdiv_ok _ hdt) (if_pos ⟨hT, hW⟩), ?_, ?_⟩
  · simp
  · intro i hi
    rw [vtab_length] at hi
    rw [← vget_ok_iff, vget_vtab (by omega), if_pos (by omega)]

/-- C58 is false for every simulation with at least one step: the last time stamp is zero, not `steps * dt`. -/
theorem C58_last_false [CharZero K] {sys : DiscreteStateSpace K} {A : Matrix (Fin n) (Fin n) K}
    {B : Matrix (Fin n) (Fin m) K} {C : Matrix (Fin p) (Fin n) K} {D : Matrix (Fin p) (Fin m) K}
    (h : sys.toStateSpace.Is A B C D) (hn : n < allocMax) (hp : p < allocMax) (us : List (Fin m → K)) (x0 : Fin n → K)
    {T : K} (hdt : sys.sampleTime ≠ 0) (hT : -1 < T / sys.sampleTime) (hW : ⌊T / sys.sampleTime⌋₊ < W)
    (hs : 0 < min us.length ⌊T / sys.sampleTime⌋₊) :
    ∃ t x y, simulate floorSize sys (us.map List.ofFn) T (List.ofFn x0) = .ok (t, x, y) ∧
      t.getLast? = some 0 ∧ ((t.length - 1 : Nat) : K) * sys.sampleTime ≠ 0 := by
  refine ⟨_, _, _, simulate_eq h hn hp us x0 (cdiv_ok _ hdt) (if_pos ⟨hT, hW⟩), ?_, ?_⟩
  · rw [vtab_succ, List.getLast?_concat, if_neg (by omega)]
  · rw [vtab_length, Nat.add_sub_cancel]
    exact mul_ne_zero (Nat.cast_ne_zero.2 (by omega)) hdt

end field

/-- A double integrator sampled with `1/2`, three inputs, two seconds. -/
example : simulate floorSize (⟨⟨⟨2, 2, [1, 1/2, 0, 1]⟩, ⟨2, 1, [0, 1/2]⟩, ⟨1, 2, [1, 0]⟩, ⟨1, 1, [0]⟩⟩, 1/2⟩ : DiscreteStateSpace ℚ)
    [[1], [1], [2]] 2 [0, 0] = .ok ([0, 1/2, 1, 0], [[0, 0], [0, 1/2], [1/4, 1], [3/4, 2]], [[0], [0], [1/4]]) := by
  decide +kernel

/-! ## C59 -/

/-- The block row `[B, A B, …, A^(k-1) B]`. -/
def blockRow [Semiring K] (A : Matrix (Fin n) (Fin n) K) (B : Matrix (Fin n) (Fin m) K) (k : Nat) : Matrix (Fin n) (Fin (k * m)) K :=
  fun i j => (A ^ (j.1 / m) * B) i ⟨j.1 % m, Nat.mod_lt _ (Nat.pos_of_ne_zero fun h => by have := j.2; simp [h] at this)⟩

/-- C59: `ctrb(A,B)` is `[B, A B, …, A^(n-1) B]`. -/
theorem C59_ctrb [Semiring K] {A B : MB K} {M : Matrix (Fin n) (Fin n) K} {N : Matrix (Fin n) (Fin m) K} (hA : A.Is M)
    (hB : B.Is N) (hn : 0 < n) (hf : Fits n (n * m)) : Yields (ctrb A B) (blockRow M N n) := by
  have hM := hA
  have hN := hB
  have hfB := hB.fits
  obtain ⟨e, hA, rfl⟩ := hA
  obtain ⟨f, hB, rfl⟩ := hB
  unfold ctrb
  have hsq : Util.isSquare A = true := by rw [Lin.isSquare_eq hA.toRepAt, beq_self_eq_true]
  rw [hsq, Bool.not_true, if_neg Bool.false_ne_true, if_neg (by rw [hA.rows, hB.rows]; simp), Mat.ofMB_eq hB, Res.ok_bind, hA.rows]
  dsimp only [id]
  let g : Nat → Nat → Nat → K := fun k r c => tab (toM n n e ^ k * toM n m f) r c
  have hmod : ∀ {j : Nat}, j < n * m → 0 < m := fun {j} h => Nat.pos_of_ne_zero fun h0 => by simp [h0] at h
  rw [forRange_eq (lo := 1) (by omega) (fun i => Mat.ofFn n (i * m) fun r c => g (c / m) r (c % m))]
  · refine (Yields.of_eq hf rfl).congr ?_
    funext r c
    rw [toM_apply]
    exact tab_lt _ r.2 (Nat.mod_lt _ (hmod c.2))
  · rw [Nat.one_mul]
    apply ofFn_congr
    intro r c hr hc
    show f r c = tab _ _ _
    rw [Nat.div_eq_of_lt hc, Nat.mod_eq_of_lt hc, pow_zero, Matrix.one_mul, tab_lt _ hr hc]; rfl
  · intro i h1 hi
    have hfi : Fits n ((i + 1) * m) := hf.mono (Nat.le_refl n) (Nat.mul_le_mul_right m (by omega))
    rw [(C49_powm_partial hM hn i).eq, Res.ok_bind]
    have hP : (Mat.ofFn n n (tab (toM n n e ^ i))).toMB.Is (toM n n e ^ i) := by
      have := (ofFn_rep hA.fits (tab (toM n n e ^ i))).is; rwa [toM_tab] at this
    rw [(C35_product hP hN hfB).eq, Res.ok_bind]
    rw [Util.hstack_eq (ofFn_rep (hfi.mono (Nat.le_refl n) (Nat.mul_le_mul_right m (Nat.le_succ i))) _).toRepAt
      (ofFn_rep hfB _).toRepAt (by rw [← Nat.succ_mul]; exact hfi), Res.ok_bind]
    by_cases hm : m = 0
    · subst hm
      show Res.ok _ = Res.ok _
      congr 1
    · show Res.ok _ = Res.ok _
      rw [moveAssign_fst (by
        show 0 < wmul n (i * m + m)
        rw [← Nat.succ_mul, hfi.wmul]
        exact Nat.mul_pos hn (Nat.mul_pos (Nat.succ_pos i) (Nat.pos_of_ne_zero hm)))]
      congr 1
      rw [← Nat.succ_mul]
      apply ofFn_congr
      intro r c hr hc
      by_cases hlt : c < i * m
      · rw [if_pos hlt]
      · rw [if_neg hlt]
        have hc' : c - i * m < m := by rw [Nat.succ_mul] at hc; omega
        have hdiv : c / m = i := by
          rw [Nat.div_eq_iff (Nat.pos_of_ne_zero hm)]; rw [Nat.succ_mul] at hc; constructor <;> omega
        have hmod' : c % m = c - i * m := by
          rw [Nat.mod_eq_sub_mul_div, hdiv, Nat.mul_comm]
        rw [hdiv, hmod']

/-- C59 for an empty system matrix: the result is a copy of `B`. -/
theorem C59_empty [Semiring K] {A B : MB K} {e} (hA : RepAt A 0 0 e) {f} (hB : Rep B 0 m f) : Returns (ctrb A B) 0 m f := by
  unfold ctrb
  have hsq : Util.isSquare A = true := by rw [Lin.isSquare_eq hA, beq_self_eq_true]
  rw [hsq, Bool.not_true, if_neg Bool.false_ne_true, if_neg (by rw [hA.rows, hB.rows]; simp), Mat.ofMB_eq hB, Res.ok_bind, hA.rows,
    forRange_ge (by omega)]
  exact Returns.of_eq hB.fits rfl

/-- C59: a non-square system matrix or a row mismatch throws `runtime_error`. -/
theorem C59_throws {T : Type} [Zero T] [One T] [Add T] [Mul T] {A B : MB T} (h : A.rows ≠ A.cols ∨ A.rows ≠ B.rows) :
    ctrb A B = .throw .runtimeError := by
  unfold ctrb
  by_cases h1 : A.rows = A.cols
  · have h2 := h.resolve_left (fun hc => hc h1)
    rw [if_neg (by simp [Util.isSquare, h1]), if_pos h2]
  · rw [if_pos (by simp [Util.isSquare, h1])]

example : ctrb (⟨2, 2, [1, 1, 0, 1]⟩ : Mat Int).toMB (⟨2, 1, [0, 1]⟩ : Mat Int).toMB = .ok ⟨2, 2, [0, 1, 1, 1]⟩ := by
  decide +kernel

/-! ## C65 -/

/-- C65: the zero input and the zero state fit the system, and from them a step stays at zero. -/
theorem C65_zero [NonUnitalNonAssocSemiring K] {sys : DiscreteStateSpace K} {A : Matrix (Fin n) (Fin n) K}
    {B : Matrix (Fin n) (Fin m) K} {C : Matrix (Fin p) (Fin n) K} {D : Matrix (Fin p) (Fin m) K}
    (h : sys.toStateSpace.Is A B C D) (hn : n < allocMax) (hm : m < allocMax) (hp : p < allocMax) :
    generateInputZero sys.toStateSpace = .ok (List.replicate m 0) ∧
    generateStateZero sys.toStateSpace = .ok (List.replicate n 0) ∧
    simulateStep sys (List.replicate n 0) (List.replicate m 0) = .ok (List.replicate n 0, List.replicate p 0) := by
  have hB : sys.B.cols = m := by obtain ⟨e, hr, -⟩ := h.b; exact hr.cols
  have hA : sys.A.rows = n := by obtain ⟨e, hr, -⟩ := h.a; exact hr.rows
  have hz : ∀ k, List.replicate k (0 : K) = List.ofFn (0 : Fin k → K) := fun k => by
    rw [← List.ofFn_const]; rfl
  refine ⟨?_, ?_, ?_⟩
  · unfold generateInputZero; rw [hB, vnew_ok hm]
  · unfold generateStateZero; rw [hA, vnew_ok hn]
  · rw [hz, hz, hz, C57_step h hn hp]
    simp only [mulVec_zero, add_zero]

example : simulateStep (⟨⟨⟨2, 2, [1, 1, 0, 1]⟩, ⟨2, 1, [0, 1]⟩, ⟨1, 2, [1, 0]⟩, ⟨1, 1, [0]⟩⟩, 1⟩ : DiscreteStateSpace Int) [0, 0] [0] =
    .ok ([0, 0], [0]) := by decide +kernel

end Malg
