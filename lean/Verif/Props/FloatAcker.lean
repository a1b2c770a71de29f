import Verif.Lemmas.Placed
import Verif.Props.Acker
import Verif.Props.FloatC2d
import Verif.Props.FloatInv
import Verif.Props.IntInv
/-!
# Property C130: pole placement in floating point
-/
namespace Malg
open Ops Control Lin Polynomial Matrix

section
variable {T : Type} [Zero T] [One T] [Add T] [Sub T] [Mul T] [Neg T] [NatCast T] [CDiv T] {n : Nat}

omit [Sub T] [Neg T] [NatCast T] [CDiv T] in
theorem powm_tab {A : MB T} {a : Nat → Nat → T} (hA : Rep A n n a) (hn : 0 < n) (N : Nat) : powm A N = .ok (Mat.ofFn n n (expPow n a N)) := by
  unfold powm
  rw [hA.rows, hA.cols, Util.eye_eq hn hn hA.fits, Res.ok_bind]
  induction N with
  | zero => rfl
  | succ N ih => rw [forRange_succ_last (Nat.zero_le N), ih, Res.ok_bind, mulAssign_self hA.fits hA.toRepAt]; rfl

/-- The matrix polynomial that `acker` has computed after `i` terms, `control.hpp:311-314`; `g` are the coefficients, highest degree first. -/
def ackerAcc (n : Nat) (a : Nat → Nat → T) (g : Nat → T) : Nat → Nat → Nat → T
  | 0 => fun _ _ => 0
  | i + 1 => fun r c => ackerAcc n a g i r c + expPow n a (n - i) r c * g i

/-- The gain that `acker` computes from the table `v` of the inverse and the table `w` of the matrix polynomial, `control.hpp:316-320`. -/
def ackerGain (n : Nat) (v w : Nat → Nat → T) : Nat → Nat → T := fun r c =>
  lsum n fun k => (lsum n fun l => (if r = 0 ∧ l = n - 1 then 1 else 0) * v l k) * w k c

/-- What `acker` computes. -/
theorem acker_tables (isz : T → Bool) {A B P : MB T} {a b e : Nat → Nat → T} (hA : Rep A n n a) (hB : Rep B n 1 b) (hP : Rep P 1 n e) (hPe : P.empty = false)
    (hn : 0 < n) (hka : n + 1 < allocMax) {g : Nat → T} (hg : polyMat P = .ok (vtab (n + 1) g)) {ct : Mat T} (hct : ctrb A B = .ok ct) (hctr : ct.rows = n) {d : T}
    (hd : determinant isz ct.toMB = .ok d) (hz : isz d = false) {V : Mat T} {v : Nat → Nat → T} (hV : inverse isz ct.toMB = .ok V) (hv : Rep V.toMB n n v) :
    acker isz A B P = .ok (Mat.ofFn 1 n (ackerGain n v (ackerAcc n a g (n + 1)))) := by
  have hf := hA.fits
  have hW := allocMax_lt_W
  have hnW := hf.2.1
  have hf1 : Fits 1 n := hf.mono (by omega) (Nat.le_refl n)
  unfold acker
  have c1 : (!Util.isSquare A || !Util.isColumnVector B || A.rows != B.rows) = false := by
    simp [Util.isSquare, Util.isColumnVector, hA.rows, hA.cols, hB.rows, hB.cols]
  have c2 : (!Util.isRowVector P || P.empty) = false := by simp [Util.isRowVector, hP.rows, hPe]
  rw [c1, if_neg Bool.false_ne_true, c2, if_neg Bool.false_ne_true, hct, Res.ok_bind, hd, Res.ok_bind, hz, if_neg Bool.false_ne_true, hg, Res.ok_bind,
    hA.rows, hA.cols]
  have hz0 : Util.zeros n n = .ok (Mat.ofFn n n fun _ _ => (0 : T)) := by
    unfold Util.zeros; rw [if_neg (by omega), if_neg (by omega), Mat.new_eq hf]
  have hz1 : Util.zeros 1 n = .ok (Mat.ofFn 1 n fun _ _ => (0 : T)) := by
    unfold Util.zeros; rw [if_neg (by omega), if_neg (by omega), Mat.new_eq hf1]
  rw [hz0, Res.ok_bind, hctr, hz1, wadd_eq (by omega)]
  have hloop := forRange_inv (lo := 0) (hi := n + 1) (by omega) (fun m (S : Mat T) => S = Mat.ofFn n n (ackerAcc n a g m))
    (s := Mat.ofFn n n fun _ _ => (0 : T))
    (body := fun i Ap => do
        let P ← Lin.powm A (wsub n i)
        let x ← vget (vtab (n + 1) g) i
        let Q ← mulS P.toMB x
        addAssign MRef.self (fun _ => Q.toMB) Ap)
    rfl
    (by
      intro i S _ hi hS
      refine ⟨_, ?_, rfl⟩
      have e2 : mulS (Mat.ofFn n n (expPow n a (n - i))).toMB (g i) = .ok (Mat.ofFn n n fun r c => expPow n a (n - i) r c * g i) :=
        mapMat_eq (ofFn_rep hf _) fun _ _ _ _ => rfl
      rw [wsub_eq (by omega) hnW, powm_tab hA hn, Res.ok_bind, vget_vtab hi, Res.ok_bind, e2, Res.ok_bind, hS, addAssign_self (ofFn_rep hf _)]
      rfl)
  obtain ⟨Ap, hAp1, hAp2⟩ := hloop
  rw [hAp1, Res.ok_bind, Res.ok_bind, wsub_eq (by omega) hnW, ofFn_setLin (by omega), Res.ok_bind, hV, Res.ok_bind, hAp2,
    mul_eq (ofFn_rep hf1 _).toRepAt hv.toRepAt hf1, Res.ok_bind, mul_eq (ofFn_rep hf1 _).toRepAt (ofFn_rep hf _).toRepAt hf1]
  congr 1
  refine ofFn_congr fun r c hr hc => ?_
  unfold ackerGain
  congr 1
  funext k
  congr 2
  funext l
  congr 1
  rw [Nat.div_eq_of_lt (by omega), Nat.mod_eq_of_lt (by omega)]
  by_cases h : r = 0 ∧ l = n - 1
  · rw [if_pos h, h.1, h.2, upd_same]
  · rw [if_neg h, upd_ne]
    by_contra hc
    exact h ⟨by omega, by omega⟩
end

section
open scoped Matrix.Norms.Operator
variable {T : Type} [Zero T] [One T] [Add T] [Sub T] [Mul T] [Neg T] [NatCast T] [CDiv T] {n : Nat} {val : T → ℝ} {u η : ℝ} (R : Rounds val u η)

/-- The effect of underflow on the matrix polynomial of `acker`; `y` bounds the norm of the matrix, `π` the coefficients. -/
noncomputable def ackerUnder (n : Nat) (u η y π : ℝ) : ℝ :=
  (1 + u) ^ (n + 1) * ((n + 1) * ((1 + u) * (expmRate n u η y ^ n * ((1 + u) ^ (2 * n) * π) * (n * η * (1 + (n + n * n) * (1 + n * η)))) + n * η))

/-- The bound of C130 for the gain. -/
noncomputable def gainErr (n : Nat) (u η α ρ Q ε : ℝ) : ℝ :=
  (1 + u) ^ n * (((1 + u) ^ n * (α + ρ) + n * (n * (1 + u) ^ (n - 1) * η)) * ((1 + u) ^ (n * n + 4 * n + 2) * Q + ε)) - α * Q +
    n * (n * (1 + u) ^ (n - 1) * η)

theorem linProd_abs_coeff (r : Nat → ℝ) (m i : Nat) : 0 ≤ (linProd (fun l => -|r l|) m).coeff i := by
  induction m generalizing i with
  | zero => unfold linProd; rw [Finset.prod_range_zero, coeff_one]; split <;> norm_num
  | succ m ih =>
    cases i with
    | zero => rw [linProd_coeff_zero]; have := ih 0; have := abs_nonneg (r m); nlinarith
    | succ i => rw [linProd_coeff_succ]; have := ih i; have := ih (i + 1); have := abs_nonneg (r m); nlinarith

theorem linProd_abs_eval (r : Nat → ℝ) (m : Nat) (y : ℝ) :
    ∑ i ∈ Finset.range (m + 1), y ^ (m - i) * (linProd (fun l => -|r l|) m).coeff (m - i) = ∏ l ∈ Finset.range m, (y + |r l|) := by
  have h := eval_eq_sum_range' (Nat.lt_succ_of_le (linProd_degree (fun l => -|r l|) m)) y
  rw [← Finset.sum_range_reflect] at h
  have h2 : (linProd (fun l => -|r l|) m).eval y = ∏ l ∈ Finset.range m, (y + |r l|) := by
    unfold linProd
    rw [eval_prod]
    exact Finset.prod_congr rfl fun l _ => by simp
  rw [← h2, h]
  refine Finset.sum_congr rfl fun i hi => ?_
  have := Finset.mem_range.1 hi
  rw [show m + 1 - 1 - i = m - i by omega, mul_comm]

omit [Neg T] [NatCast T] in
include R in
/-- The matrix polynomial. -/
theorem ackerAcc_near (one : val 1 = 1) (hn : 0 < n) {y : ℝ} (hy : 0 ≤ y) {a : Nat → Nat → T} (ha : ‖(toM n n a).map val‖ ≤ y) {r : Nat → ℝ} {g : Nat → T}
    (hg : ∀ i, i ≤ n → Near val u (2 * n) (n * (1 + u) ^ (2 * n) * (∏ l ∈ Finset.range n, (1 + |r l|)) * η) (g i)
        ((linProd r n).coeff (n - i)) ((linProd (fun l => -|r l|) n).coeff (n - i))) :
    MNear u (n * n + 4 * n + 2) (ackerUnder n u η y (∏ l ∈ Finset.range n, (1 + |r l|))) ((toM n n (ackerAcc n a g (n + 1))).map val)
      (ackerPoly ((toM n n a).map val) (linProd r n) n) (∏ l ∈ Finset.range n, (y + |r l|)) := by
  have hu := R.u_nonneg
  have hη := R.η_nonneg
  have h1 : (1 : ℝ) ≤ 1 + u := by linarith
  set π := ∏ l ∈ Finset.range n, (1 + |r l|) with hπ
  have hπ1 : 1 ≤ π := by
    rw [hπ]
    refine Finset.prod_induction _ (fun x : ℝ => 1 ≤ x) (fun x z hx hz => by nlinarith) le_rfl fun l _ => ?_
    have := abs_nonneg (r l); linarith
  have hπ0 : 0 ≤ π := by linarith
  have hP : ∀ i, i ≤ n → (linProd (fun l => -|r l|) n).coeff (n - i) ≤ π := fun i hi => by
    have h := linProd_abs_eval r n 1
    rw [hπ, ← h]
    have := Finset.single_le_sum (f := fun i => (1 : ℝ) ^ (n - i) * (linProd (fun l => -|r l|) n).coeff (n - i)) (s := Finset.range (n + 1))
      (fun i _ => mul_nonneg (by positivity) (linProd_abs_coeff r n _)) (Finset.mem_range.2 (Nat.lt_succ_of_le hi))
    simpa using this
  set γ := expmRate n u η y with hγ
  have γ1 : 1 ≤ γ := expmRate_one R
  set t := (1 + u) * (γ ^ n * ((1 + u) ^ (2 * n) * π) * (n * η * (1 + (n + n * n) * (1 + n * η)))) + n * η with ht
  have hγn : 0 ≤ γ ^ n := by positivity
  have ht0 : 0 ≤ t := by rw [ht]; positivity
  have hs : MNear u 1 (n * η) ((toM n n a).map val) ((toM n n a).map val) y := by
    refine ⟨?_, ha, by positivity⟩
    rw [sub_self, norm_zero]
    have : 0 ≤ (1 + u) ^ 1 - 1 := by rw [pow_one]; linarith
    positivity
  have hterm : ∀ i, i ≤ n → MNear u (n * n + 3 * n + 1) t ((toM n n fun r c => expPow n a (n - i) r c * g i).map val)
      ((linProd r n).coeff (n - i) • (toM n n a).map val ^ (n - i)) (y ^ (n - i) * (linProd (fun l => -|r l|) n).coeff (n - i)) := fun i hi => by
    have hp := expPow_near R one hn hy hs (n - i)
    have hgi := hg i hi
    have := MNear.smul hu (by positivity) hp hgi.err hgi.size hgi.nonneg (smul_norm_err R (expPow n a (n - i)) (g i))
    refine this.mono hu ?_ ?_
    · have : (n + 1) * (n - i) ≤ (n + 1) * n := Nat.mul_le_mul_left _ (Nat.sub_le _ _)
      nlinarith
    · rw [ht]
      have g1 : (1 + u) ^ ((n + 1) * (n - i)) * y ^ (n - i) ≤ γ ^ n :=
        (pow_le_expmRate R (n := n) hy (n - i)).trans (pow_le_pow_right₀ γ1 (Nat.sub_le _ _))
      have g2 : γ ^ (n - i) ≤ γ ^ n := pow_le_pow_right₀ γ1 (Nat.sub_le _ _)
      have g3 : ((n - i : ℕ) : ℝ) ≤ n := by exact_mod_cast Nat.sub_le _ _
      have g4 := hP i hi
      have g5 := linProd_abs_coeff r n (n - i)
      set V := (1 + u) ^ (2 * n) with hV
      have hV1 : 1 ≤ V := one_le_pow₀ h1
      calc (1 + u) * ((1 + u) ^ ((n + 1) * (n - i)) * y ^ (n - i) * (n * V * π * η) +
              ((n - i : ℕ) : ℝ) * ((n + n * n) * η) * γ ^ (n - i) * (V * (linProd (fun l => -|r l|) n).coeff (n - i) + n * V * π * η)) + n * η
          ≤ (1 + u) * (γ ^ n * (n * V * π * η) + n * ((n + n * n) * η) * γ ^ n * (V * π + n * V * π * η)) + n * η := by gcongr
        _ = _ := by ring
  have key : ∀ m, m ≤ n + 1 → MNear u (n * n + 3 * n + 1 + m) ((1 + u) ^ m * (m * t)) ((toM n n (ackerAcc n a g m)).map val)
      (∑ i ∈ Finset.range m, (linProd r n).coeff (n - i) • (toM n n a).map val ^ (n - i))
      (∑ i ∈ Finset.range m, y ^ (n - i) * (linProd (fun l => -|r l|) n).coeff (n - i)) := by
    intro m hm
    induction m with
    | zero =>
      rw [Finset.sum_range_zero, Finset.sum_range_zero]
      have : (toM n n (ackerAcc n a g 0)).map val = 0 := by
        funext i j
        exact R.zero
      rw [this]
      refine (MNear.zero u _ n).mono hu le_rfl (by simp)
    | succ m ih =>
      rw [Finset.sum_range_succ, Finset.sum_range_succ]
      have := MNear.add hu (ih (by omega)) ((hterm m (by omega)).mono hu (Nat.le_add_right _ m) le_rfl) (add_norm_err R _ _)
      refine this.mono hu le_rfl ?_
      have h2 : t ≤ (1 + u) ^ m * t := le_mul_of_one_le_left ht0 (one_le_pow₀ h1)
      rw [pow_succ]
      push_cast
      have := mul_le_mul_of_nonneg_left h2 (by linarith : 0 ≤ 1 + u)
      linarith
  have := key (n + 1) le_rfl
  rw [linProd_abs_eval, show n * n + 3 * n + 1 + (n + 1) = n * n + 4 * n + 2 by ring] at this
  unfold ackerUnder ackerPoly
  rw [← hγ, ← ht]
  push_cast at this
  exact this

omit [Neg T] [NatCast T] in
include R in
/-- The gain. -/
theorem ackerGain_err (one : val 1 = 1) {v w : Nat → Nat → T} {Υ Φ : Matrix (Fin n) (Fin n) ℝ} {α ρ Q ε : ℝ} {c : Nat} (hc : c = n * n + 4 * n + 2)
    (hρ : 0 ≤ ρ) (hV : ∀ i : Fin n, ∑ j : Fin n, |val (v i j) - Υ i j| ≤ ρ) (hα0 : 0 ≤ α) (hα : ∀ i, ∑ j, |Υ i j| ≤ α)
    (hw : MNear u c ε ((toM n n w).map val) Φ Q) (i : Fin 1) :
    ∑ j : Fin n, |val (ackerGain n v w i j) - ((lastRow n : Matrix (Fin 1) (Fin n) ℝ) * Υ * Φ) i j| ≤ gainErr n u η α ρ Q ε := by
  have hu := R.u_nonneg
  have hη := R.η_nonneg
  have h1 : (1 : ℝ) ≤ 1 + u := by linarith
  have hQ : 0 ≤ Q := (norm_nonneg _).trans hw.size
  have hε := hw.nonneg
  have sel : ∀ (i : Fin 1) (j : Fin n), val ((if i.1 = 0 ∧ j.1 = n - 1 then 1 else 0 : T)) = (lastRow n : Matrix (Fin 1) (Fin n) ℝ) i j := fun i j => by
    have := j.2
    unfold lastRow
    by_cases h : j.1 + 1 = n
    · rw [if_pos ⟨by omega, by omega⟩, if_pos h, one]
    · rw [if_neg (by omega), if_neg h, R.zero]
  have s1 := rows_prod R (n := 1) (l := n) (m := n) (x := fun r l => if r = 0 ∧ l = n - 1 then 1 else 0) (y := v)
    (Ξ := (lastRow n : Matrix (Fin 1) (Fin n) ℝ)) (Υ := Υ) (A := 1) (N := 1) (B := α + ρ) (L := α)
    (fun i => by simp only [sel, sub_self, abs_zero, Finset.sum_const_zero, le_refl])
    (fun i => by
      unfold lastRow
      by_cases hn : 0 < n
      · rw [Finset.sum_eq_single ⟨n - 1, by omega⟩]
        · rw [if_pos (by simp only; omega), abs_one]
        · intro j _ hj
          rw [if_neg (fun h => hj (Fin.ext (by simp only; omega))), abs_zero]
        · intro h; exact absurd (Finset.mem_univ _) h
      · obtain rfl : n = 0 := by omega
        simp)
    (fun i => by linarith [hV i]) hα hα0 (by linarith)
  have hwr : ∀ i : Fin n, ∑ j : Fin n, |val (w i j) - Φ i j| ≤ ((1 + u) ^ c * Q + ε) - Q := fun i => by
    have := (row_sum_le_norm ((toM n n w).map val - Φ) i).trans hw.err
    refine this.trans (le_of_eq (by ring))
  have hc1 : 1 ≤ (1 + u) ^ c := one_le_pow₀ h1
  have s2 := rows_prod R (n := 1) (l := n) (m := n) (x := fun r k => lsum n fun l => (if r = 0 ∧ l = n - 1 then 1 else 0) * v l k) (y := w)
    (Ξ := (lastRow n : Matrix (Fin 1) (Fin n) ℝ) * Υ) (Υ := Φ) (A := (1 + u) ^ n * (α + ρ) + n * (n * (1 + u) ^ (n - 1) * η)) (N := α)
    (B := (1 + u) ^ c * Q + ε) (L := Q)
    (fun i => (s1 i).trans (by linarith))
    (fun i => by
      have hrow : ∀ j, ((lastRow n : Matrix (Fin 1) (Fin n) ℝ) * Υ) i j = ∑ l : Fin n, (if l.1 + 1 = n then 1 else 0) * Υ l j := fun j => Matrix.mul_apply
      by_cases hn : 0 < n
      · have hrow' : ∀ j, ((lastRow n : Matrix (Fin 1) (Fin n) ℝ) * Υ) i j = Υ ⟨n - 1, by omega⟩ j := fun j => by
          rw [hrow, Finset.sum_eq_single ⟨n - 1, by omega⟩]
          · rw [if_pos (by simp only; omega), one_mul]
          · intro l _ hl
            rw [if_neg (fun h => hl (Fin.ext (by simp only; omega))), zero_mul]
          · intro h; exact absurd (Finset.mem_univ _) h
        simp only [hrow']
        exact hα _
      · obtain rfl : n = 0 := by omega
        simpa using hα0)
    hwr (fun i => (row_sum_le_norm Φ i).trans hw.size) hQ (by nlinarith) i
  unfold ackerGain gainErr
  rw [← hc]
  exact s2

section
variable {A B P : MB T} {M : Matrix (Fin n) (Fin n) T} {N : Matrix (Fin n) (Fin 1) T} {e : Nat → Nat → T}
include R

/-- C130: `acker(A, B, poles)` with `n` poles in floating point. If the computed inverse of the computed controllability matrix is within `ρ` of the
inverse of the controllability matrix (see `C130_small_partial`), then the computed gain is within `gainErr` of Ackermann's gain `(0 … 0 1) C⁻¹ p(A)`. -/
theorem C130_gain (one : val 1 = 1) (isz : T → Bool) (hA : A.Is M) (hB : B.Is N) (hP : Rep P 1 n e) (hPe : P.empty = false) (hn : 0 < n)
    (hka : n + 1 < allocMax) {ct : Mat T} (hct : ctrb A B = .ok ct) {d : T} (hd : determinant isz ct.toMB = .ok d) (hz : isz d = false)
    {V : Matrix (Fin n) (Fin n) T} (hV : Yields (inverse isz ct.toMB) V) {y α ρ : ℝ} (hy : ‖M.map val‖ ≤ y)
    (hα : ∀ i, ∑ j, |(ctrbMatrix (M.map val) (N.map val))⁻¹ i j| ≤ α)
    (hρ : ∀ i, ∑ j, |val (V i j) - (ctrbMatrix (M.map val) (N.map val))⁻¹ i j| ≤ ρ) :
    ∃ G : Matrix (Fin 1) (Fin n) T, Yields (acker isz A B P) G ∧
      ∑ j, |val (G 0 j) - ((lastRow n : Matrix (Fin 1) (Fin n) ℝ) * (ctrbMatrix (M.map val) (N.map val))⁻¹ * aeval (M.map val) (∏ j : Fin n, (X - C (val (e 0 j))) : ℝ[X])) 0 j| ≤
        gainErr n u η α ρ (∏ j : Fin n, (y + |val (e 0 j)|)) (ackerUnder n u η y (∏ j : Fin n, (1 + |val (e 0 j)|))) := by
  obtain ⟨a, hA, rfl⟩ := hA
  obtain ⟨b, hB, rfl⟩ := hB
  have hf := hA.fits
  have hctr : ct.rows = n := by
    have := ctrb_exec hA hB hn (by rw [Nat.mul_one]; exact hf) fun i _ => powm_tab hA hn i
    rw [hct] at this
    injection this with this
    rw [this]; rfl
  obtain ⟨Vm, hVe, -, v, hv, rfl⟩ := hV
  have i0 : Fin n := ⟨0, hn⟩
  obtain ⟨g, hg1, hg2⟩ := polyLoop_near R one (n := n) (a := P.lin) (f := fun j => e 0 j) (fun j hj => by
    have := hP.lin' (i := j) (by omega)
    rwa [Nat.div_eq_of_lt hj, Nat.mod_eq_of_lt hj] at this)
  have hg : polyMat P = .ok (vtab (n + 1) g) := by
    unfold polyMat polyMatD
    rw [hP.size, Nat.one_mul, if_neg (by omega), if_pos (Or.inl hP.rows), initCoeff' (by omega), hg1]
  refine ⟨_, Yields.of_eq (hf.mono (by omega) (Nat.le_refl n)) (acker_tables isz hA hB hP hPe hn hka hg hct hctr hd hz hVe hv), ?_⟩
  have hmonic : (∏ j : Fin n, (X - C (val (e 0 j))) : ℝ[X]).Monic := monic_prod_of_monic _ _ fun j _ => monic_X_sub_C _
  have hdeg : (∏ j : Fin n, (X - C (val (e 0 j))) : ℝ[X]).natDegree = n := by
    rw [natDegree_prod_of_monic _ _ fun j _ => monic_X_sub_C _]; simp
  have hlin : linProd (fun l => val (e 0 l)) n = ∏ j : Fin n, (X - C (val (e 0 j))) := by unfold linProd; rw [Finset.prod_range]
  have near := ackerAcc_near R one hn ((norm_nonneg _).trans hy) hy hg2
  rw [hlin, ackerPoly_eq _ hdeg, Finset.prod_range, Finset.prod_range] at near
  exact ackerGain_err R one rfl ((Finset.sum_nonneg fun _ _ => abs_nonneg _).trans (hρ i0)) hρ
    ((Finset.sum_nonneg fun _ _ => abs_nonneg _).trans (hα i0)) hα near 0

/-- C130: so the coefficients of the characteristic polynomial of `A - B K`, for the computed gain `K`, are within `gainErr` of those of the polynomial with
the wanted poles, times the size of the adjugate of `X - A` applied to `B`. -/
theorem C130_placed (one : val 1 = 1) (isz : T → Bool) (hA : A.Is M) (hB : B.Is N) (hP : Rep P 1 n e) (hPe : P.empty = false) (hn : 0 < n)
    (hka : n + 1 < allocMax) {ct : Mat T} (hct : ctrb A B = .ok ct) {d : T} (hd : determinant isz ct.toMB = .ok d) (hz : isz d = false)
    {V : Matrix (Fin n) (Fin n) T} (hV : Yields (inverse isz ct.toMB) V) {y α ρ : ℝ} (hy : ‖M.map val‖ ≤ y)
    (hctrl : (ctrbMatrix (M.map val) (N.map val)).det ≠ 0) (hα : ∀ i, ∑ j, |(ctrbMatrix (M.map val) (N.map val))⁻¹ i j| ≤ α)
    (hρ : ∀ i, ∑ j, |val (V i j) - (ctrbMatrix (M.map val) (N.map val))⁻¹ i j| ≤ ρ) :
    ∃ G : Matrix (Fin 1) (Fin n) T, Yields (acker isz A B P) G ∧ ∀ j, j < n → ∀ β : ℝ, (∀ i, |(placeWeight (M.map val) j * N.map val) i 0| ≤ β) →
      |(M.map val - N.map val * G.map val).charpoly.coeff (n - 1 - j) - (∏ j : Fin n, (X - C (val (e 0 j))) : ℝ[X]).coeff (n - 1 - j)| ≤
        gainErr n u η α ρ (∏ j : Fin n, (y + |val (e 0 j)|)) (ackerUnder n u η y (∏ j : Fin n, (1 + |val (e 0 j)|))) * β := by
  obtain ⟨G, hG, hGe⟩ := C130_gain R one isz hA hB hP hPe hn hka hct hd hz hV hy hα hρ
  refine ⟨G, hG, fun j hj β hβ => ?_⟩
  have hmonic : (∏ j : Fin n, (X - C (val (e 0 j))) : ℝ[X]).Monic := monic_prod_of_monic _ _ fun j _ => monic_X_sub_C _
  have hdeg : (∏ j : Fin n, (X - C (val (e 0 j))) : ℝ[X]).natDegree = n := by
    rw [natDegree_prod_of_monic _ _ fun j _ => monic_X_sub_C _]; simp
  rw [placed_shift hn (M.map val) (N.map val) (IsUnit.mk0 _ hctrl) hmonic hdeg (G.map val) hj, add_sub_cancel_left, Matrix.mul_apply]
  have hβ0 : 0 ≤ β := (abs_nonneg _).trans (hβ ⟨0, hn⟩)
  refine (Finset.abs_sum_le_sum_abs _ _).trans (le_trans ?_ (mul_le_mul_of_nonneg_right hGe hβ0))
  rw [Finset.sum_mul]
  refine Finset.sum_le_sum fun i _ => ?_
  rw [abs_mul]
  exact mul_le_mul_of_nonneg_left (hβ i) (abs_nonneg _)
end

/-- The inverse of a matrix that is known up to `δ`. -/
theorem inv_perturb {Γ Δ : Matrix (Fin n) (Fin n) ℝ} {α δ : ℝ} (hα : ‖Γ⁻¹‖ ≤ α) (hδ : ‖Δ - Γ‖ ≤ δ) (hΓ : Γ.det ≠ 0) (hαδ : α * δ < 1) :
    Δ.det ≠ 0 ∧ ‖Δ⁻¹ - Γ⁻¹‖ ≤ α ^ 2 * δ / (1 - α * δ) := by
  have hu : IsUnit Γ.det := IsUnit.mk0 _ hΓ
  have hα0 : 0 ≤ α := (norm_nonneg _).trans hα
  have hδ0 : 0 ≤ δ := (norm_nonneg _).trans hδ
  have hE : ‖-(Γ⁻¹ * (Δ - Γ))‖ < 1 := by
    rw [norm_neg]
    exact lt_of_le_of_lt ((norm_mul_le _ _).trans (mul_le_mul hα hδ (norm_nonneg _) hα0)) hαδ
  have h1 := isUnit_one_sub_of_norm_lt_one hE
  have e : Δ = Γ * (1 - -(Γ⁻¹ * (Δ - Γ))) := by
    rw [sub_neg_eq_add, Matrix.mul_add, Matrix.mul_one, ← Matrix.mul_assoc, Matrix.mul_nonsing_inv _ hu, Matrix.one_mul]
    abel
  have hD : IsUnit Δ.det := by
    rw [e, Matrix.det_mul]
    exact hu.mul ((Matrix.isUnit_iff_isUnit_det _).1 h1)
  refine ⟨hD.ne_zero, ?_⟩
  have e2 : Δ⁻¹ - Γ⁻¹ = -(Γ⁻¹ * (Δ - Γ) * Δ⁻¹) := by
    rw [Matrix.mul_sub, Matrix.nonsing_inv_mul _ hu, Matrix.sub_mul, Matrix.mul_assoc, Matrix.mul_nonsing_inv _ hD, Matrix.mul_one, Matrix.one_mul]
    abel
  have h2 : ‖Δ⁻¹ - Γ⁻¹‖ ≤ α * δ * ‖Δ⁻¹‖ := by
    rw [e2, norm_neg]
    refine (norm_mul_le _ _).trans (mul_le_mul_of_nonneg_right ((norm_mul_le _ _).trans (mul_le_mul hα hδ (norm_nonneg _) hα0)) (norm_nonneg _))
  have h3 : ‖Δ⁻¹‖ ≤ ‖Δ⁻¹ - Γ⁻¹‖ + α := by
    have := norm_add_le (Δ⁻¹ - Γ⁻¹) Γ⁻¹
    rw [sub_add_cancel] at this
    linarith
  rw [le_div_iff₀ (by linarith)]
  have h4 := mul_le_mul_of_nonneg_left h3 (mul_nonneg hα0 hδ0)
  nlinarith

/-- The bound of C116 for the elements of the controllability matrix. -/
noncomputable def ctrbErr (u η : ℝ) (A : Matrix (Fin n) (Fin n) ℝ) (B : Matrix (Fin n) (Fin 1) ℝ) (i j : Fin n) : ℝ :=
  ((1 + u) ^ (n * (j.1 + 1)) - 1) * (A ^ j.1 * B) i 0 + ((1 + u) ^ n * (powUnder u η A j * B) i 0 + n * (1 + u) ^ (n - 1) * η)

section
variable {p : ℕ} {emin : ℤ} {A B P : MB (Fl ℝ p emin)} {n : Nat} {M : Matrix (Fin (n + 1)) (Fin (n + 1)) (Fl ℝ p emin)}
  {N : Matrix (Fin (n + 1)) (Fin 1) (Fl ℝ p emin)} {e : Nat → Nat → Fl ℝ p emin}

/-- C130: up to four states everything is explicit. `ctrb` is within `δ` of the controllability matrix `C`, where `α δ < 1` for a bound `α` of the inverse
of `C`; if the error `detErr` of its determinant (C86) is less than the determinant, and `σ` bounds the error of its inverse (C113), then `acker` returns a
gain, and the characteristic polynomial of `A - B K` is the wanted one up to `gainErr` with `ρ = σ + α² δ / (1 - α δ)`. Missing: more states (see C52), and
other controllable systems, see `C130_controllable_false`. -/
theorem C130_small_partial (hp : 1 ≤ p) (he : emin ≤ 0) {tol : Fl ℝ p emin} (ht : |tol.val| ≤ 1 / 4) (hA : A.Is M) (hB : B.Is N) (hP : Rep P 1 (n + 1) e)
    (hPe : P.empty = false) (hn : n ≤ 3) {u η : ℝ} (hu : u = 2 ^ (-(p : ℤ))) (hη : η = 2 ^ emin / 2) {y α δ : ℝ} (hy : ‖M.map Fl.val‖ ≤ y)
    (hctrl : (ctrbMatrix (M.map Fl.val) (N.map Fl.val)).det ≠ 0) (hα : ‖(ctrbMatrix (M.map Fl.val) (N.map Fl.val))⁻¹‖ ≤ α)
    (hδ : ∀ i, ∑ j, ctrbErr u η (M.map (|Fl.val ·|)) (N.map (|Fl.val ·|)) i j ≤ δ) (hαδ : α * δ < 1) :
    ∃ S : Matrix (Fin (n + 1)) (Fin (n + 1)) (Fl ℝ p emin), Yields (ctrb A B) S ∧ ‖S.map Fl.val - ctrbMatrix (M.map Fl.val) (N.map Fl.val)‖ ≤ δ ∧
      ∀ m β σ : ℝ, (∀ i j, |(S i j).val| ≤ m) → β = detErr u η m (n + 1) (S.map (|Fl.val ·|)).permanent → β < |(S.map Fl.val).det| →
        (∀ i, ∑ j : Fin (n + 1), (u * |(S.map Fl.val)⁻¹ i j| +
          (1 + u) * ((detErr u η m n ((S.map (|Fl.val ·|)).submatrix j.succAbove i.succAbove).permanent + |(S.map Fl.val)⁻¹ i j| * β) /
            (|(S.map Fl.val).det| - β)) + η) ≤ σ) →
        ∃ G : Matrix (Fin 1) (Fin (n + 1)) (Fl ℝ p emin), Yields (acker (Feq.approxZero Fl.abs tol) A B P) G ∧
          ∀ j, j < n + 1 → ∀ κ : ℝ, (∀ i, |(placeWeight (M.map Fl.val) j * N.map Fl.val) i 0| ≤ κ) →
            |(M.map Fl.val - N.map Fl.val * G.map Fl.val).charpoly.coeff (n - j) - (∏ j : Fin (n + 1), (X - C (e 0 j).val) : ℝ[X]).coeff (n - j)| ≤
              gainErr (n + 1) u η α (σ + α ^ 2 * δ / (1 - α * δ)) (∏ j : Fin (n + 1), (y + |(e 0 j).val|))
                (ackerUnder (n + 1) u η y (∏ j : Fin (n + 1), (1 + |(e 0 j).val|))) * κ := by
  have R := Fl.rounds ℝ (p := p) (by omega) emin
  rw [← hu, ← hη] at R
  have one : (1 : Fl ℝ p emin).val = 1 := (C84_float (K := ℝ) (by omega) he).1
  have hf := hA.fits
  have hu0 := R.u_nonneg
  have hη0 := R.η_nonneg
  obtain ⟨S, hS, hSe⟩ : ∃ S : Matrix (Fin (n + 1)) (Fin (n + 1)) (Fl ℝ p emin), Yields (ctrb A B) S ∧ ∀ i j,
      |(S i j).val - ctrbMatrix (M.map Fl.val) (N.map Fl.val) i j| ≤ ctrbErr u η (M.map (|Fl.val ·|)) (N.map (|Fl.val ·|)) i j := by
    obtain ⟨E, hE, hEe⟩ := C116_ctrb R one hA hB (Nat.succ_pos n) (by rw [Nat.mul_one]; exact hf)
    have h1 := hE.returns
    have hEe' : ∀ i j : Fin (n + 1), |(tab E i j).val - ctrbMatrix (M.map Fl.val) (N.map Fl.val) i j| ≤
        ctrbErr u η (M.map (|Fl.val ·|)) (N.map (|Fl.val ·|)) i j := fun i j => by
      have := hEe i j 0 (by simpa using j.2)
      rw [tab_lt _ i.2 (by rw [Nat.mul_one]; exact j.2)]
      have hj : (⟨j.1 * 1 + (0 : Fin 1).1, by simpa using j.2⟩ : Fin ((n + 1) * 1)) = ⟨j.1, by rw [Nat.mul_one]; exact j.2⟩ := Fin.ext (by simp)
      rw [hj] at this
      exact this
    generalize tab E = g at h1 hEe'
    rw [Nat.mul_one] at h1
    exact ⟨_, h1.yields, hEe'⟩
  have hδ0 : 0 ≤ δ := by
    refine le_trans (Finset.sum_nonneg fun j _ => ?_) (hδ 0)
    exact (abs_nonneg _).trans (hSe 0 j)
  have hSn : ‖S.map Fl.val - ctrbMatrix (M.map Fl.val) (N.map Fl.val)‖ ≤ δ :=
    norm_le_of_rows hδ0 fun i => (Finset.sum_le_sum fun j _ => hSe i j).trans (hδ i)
  refine ⟨S, hS, hSn, fun m β σ hm hβ hd hσ => ?_⟩
  obtain ⟨hSd, hSi⟩ := inv_perturb hα hSn hctrl hαδ
  obtain ⟨ct, hct, -, hctI⟩ := hS
  obtain ⟨d, hde, hdv⟩ : ∃ d, determinant (Feq.approxZero Fl.abs tol) ct.toMB = .ok d ∧ |d.val - (S.map Fl.val).det| ≤ β := by
    obtain ⟨s, h, rfl⟩ := hctI
    obtain ⟨d, hde, hdv⟩ := determinant_err (by omega) he (Feq.approxZero Fl.abs tol) h (by omega) (m := m) (fun i j hi hj => hm ⟨i, hi⟩ ⟨j, hj⟩)
    exact ⟨d, hde, by rw [hβ, hu, hη]; exact hdv⟩
  have hz : Feq.approxZero Fl.abs tol d = false := by
    rw [Bool.eq_false_iff]
    intro hc
    have h0 := (approxZero_fl (by omega) ht d).1 hc
    rw [h0, zero_sub, abs_neg] at hdv
    exact absurd hdv (not_le.2 hd)
  obtain ⟨V, hV, hVe⟩ := C113_inverse_partial (by omega) he ht hctI hn hm hu hη hβ hd
  exact C130_placed R one _ hA hB hP hPe (Nat.succ_pos n) (by rw [allocMax_eq]; omega) hct hde hz hV hy hctrl
    (fun i => (row_sum_le_norm _ i).trans hα) (fun i => by
      have h1 := (Finset.sum_le_sum fun j _ => hVe i j).trans (hσ i)
      have h2 := (row_sum_le_norm ((S.map Fl.val)⁻¹ - (ctrbMatrix (M.map Fl.val) (N.map Fl.val))⁻¹) i).trans hSi
      refine le_trans ?_ (add_le_add h1 h2)
      rw [← Finset.sum_add_distrib]
      refine Finset.sum_le_sum fun j _ => ?_
      exact abs_sub_le _ _ _)
end
end

/-- C130: a controllable system whose determinant is lost by rounding is refused: `A = diag (1, 1 + 2^-52)`, `B = (13/8 + 2^-52, 11/8 + 2^-52)`. -/
theorem C130_controllable_false : ∃ (A B : Mat Double) (M : Matrix (Fin 2) (Fin 2) Double) (N : Matrix (Fin 2) (Fin 1) Double), A.toMB.Is M ∧ B.toMB.Is N ∧
    (ctrbMatrix (M.map Fl.val) (N.map Fl.val)).det ≠ 0 ∧ ∀ P : MB Double, acker (Feq.approxZero Fl.abs tol6) A.toMB B.toMB P = .exit 1 := by
  have hf : Fits 2 2 := fits_small (by omega) (by omega)
  have hf1 : Fits 2 1 := fits_small (by omega) (by omega)
  set a : Nat → Nat → Double := fun i j => if i = j then (if i = 0 then 1 else Fl.of 53 (-1074) (1 + 1 / 2 ^ 52)) else 0 with ha
  set b : Nat → Nat → Double := fun i _ => if i = 0 then Fl.of 53 (-1074) (13 / 8 + 1 / 2 ^ 52) else Fl.of 53 (-1074) (11 / 8 + 1 / 2 ^ 52) with hb
  refine ⟨Mat.ofFn 2 2 a, Mat.ofFn 2 1 b, _, _, ⟨_, ofFn_rep hf a, rfl⟩, ⟨_, ofFn_rep hf1 b, rfl⟩, ?_, fun P => ?_⟩
  · have h1 : (a 0 0).val = 1 ∧ (a 0 1).val = 0 ∧ (a 1 0).val = 0 ∧ (a 1 1).val = 1 + 1 / 2 ^ 52 ∧ (b 0 0).val = 13 / 8 + 1 / 2 ^ 52 ∧
        (b 1 0).val = 11 / 8 + 1 / 2 ^ 52 := by decide +kernel
    obtain ⟨h1, h2, h3, h4, h5, h6⟩ := h1
    have e1 : (toM 2 2 a).map Fl.val = !![1, 0; 0, 1 + 1 / 2 ^ 52] := by
      funext i j
      fin_cases i <;> fin_cases j <;> assumption
    have e2 : (toM 2 1 b).map Fl.val = !![13 / 8 + 1 / 2 ^ 52; 11 / 8 + 1 / 2 ^ 52] := by
      funext i j
      fin_cases i <;> fin_cases j <;> assumption
    rw [e1, e2]
    simp [Matrix.det_fin_two, ctrbMatrix, Matrix.mul_apply, Fin.sum_univ_two]
    norm_num
  · by_cases h : P.rows ≠ 1 ∨ P.empty = true
    · exact C63_exit _ (by tauto)
    · have h' : (!Util.isRowVector P || P.empty) = false := by
        simp only [not_or, not_not] at h
        simp [Util.isRowVector, h.1, h.2]
      have hct : ctrb (Mat.ofFn 2 2 a).toMB (Mat.ofFn 2 1 b).toMB = .ok (Mat.ofFn 2 2 fun i j => if j = 0 then b i 0 else a i i * b i 0) := by
        decide +kernel
      unfold acker
      rw [show (!Util.isSquare (Mat.ofFn 2 2 a).toMB || !Util.isColumnVector (Mat.ofFn 2 1 b).toMB || (Mat.ofFn 2 2 a).toMB.rows != (Mat.ofFn 2 1 b).toMB.rows) =
        false from rfl, if_neg Bool.false_ne_true, h', if_neg Bool.false_ne_true, hct, Res.ok_bind, determinant_closed _ (ofFn_rep hf _) (by omega), Res.ok_bind,
        if_pos (by decide +kernel)]

section
open scoped Matrix.Norms.Operator

/-- The value of a `double` as a real number. -/
noncomputable def dreal (x : Double) : ℝ := ((x.val : ℚ) : ℝ)

set_option exponentiation.threshold 3000 in
/-- C130: the double integrator with any two poles between `-1` and `1` in `double`: the gains, which are the
coefficients of the characteristic polynomial of the closed loop, are the product and minus the sum of the poles up to `2^-46`. -/
theorem C130_integrator {P : MB Double} {e : Nat → Nat → Double} (hP : Rep P 1 2 e) (hPe : P.empty = false) (h0 : |dreal (e 0 0)| ≤ 1) (h1 : |dreal (e 0 1)| ≤ 1) :
    ∃ G : Matrix (Fin 1) (Fin 2) Double,
      Yields (acker (Feq.approxZero Fl.abs tol6) (⟨2, 2, doubles [0, 1, 0, 0]⟩ : Mat Double).toMB (⟨2, 1, doubles [0, 1]⟩ : Mat Double).toMB P) G ∧
      |dreal (G 0 0) - dreal (e 0 0) * dreal (e 0 1)| + |dreal (G 0 1) + (dreal (e 0 0) + dreal (e 0 1))| ≤ 1 / 2 ^ 46 := by
  have R : Rounds dreal (1 / 2 ^ 53) (1 / 2 ^ 1075) := double_rounds
  have one : dreal 1 = 1 := double_one
  have zero : dreal 0 = 0 := R.zero
  have hf : Fits 2 2 := fits_small (by omega) (by omega)
  have hf1 : Fits 2 1 := fits_small (by omega) (by omega)
  set a : Nat → Nat → Double := fun i j => if i = 0 ∧ j = 1 then 1 else 0 with ha
  set b : Nat → Nat → Double := fun i _ => if i = 1 then 1 else 0 with hb
  set v : Nat → Nat → Double := fun i j => if i = j then 0 else 1 with hv
  have eA : (⟨2, 2, doubles [0, 1, 0, 0]⟩ : Mat Double) = Mat.ofFn 2 2 a := by decide +kernel
  have eB : (⟨2, 1, doubles [0, 1]⟩ : Mat Double) = Mat.ofFn 2 1 b := by decide +kernel
  rw [eA, eB]
  have hct : ctrb (Mat.ofFn 2 2 a).toMB (Mat.ofFn 2 1 b).toMB = .ok (Mat.ofFn 2 2 v) := by decide +kernel
  have hd : determinant (Feq.approxZero Fl.abs tol6) (Mat.ofFn 2 2 v).toMB = .ok (-1) := by decide +kernel
  have hi : inverse (Feq.approxZero Fl.abs tol6) (Mat.ofFn 2 2 v).toMB = .ok (Mat.ofFn 2 2 v) := by decide +kernel
  have mA : (toM 2 2 a).map dreal = !![0, 1; 0, 0] := by
    funext i j
    fin_cases i <;> fin_cases j <;> simp [ha, toM, one, zero]
  have mB : (toM 2 1 b).map dreal = !![0; 1] := by
    funext i j
    fin_cases i <;> fin_cases j <;> simp [hb, toM, one, zero]
  have mC : ctrbMatrix !![(0 : ℝ), 1; 0, 0] !![0; 1] = !![0, 1; 1, 0] := by
    funext i j
    fin_cases i <;> fin_cases j <;> simp [ctrbMatrix, Matrix.mul_apply, Fin.sum_univ_two]
  have mI : (!![(0 : ℝ), 1; 1, 0])⁻¹ = !![0, 1; 1, 0] := by
    apply Matrix.inv_eq_left_inv
    funext i j
    fin_cases i <;> fin_cases j <;> simp [Matrix.mul_apply, Fin.sum_univ_two]
  obtain ⟨G, hG, hGe⟩ := C130_gain R one (Feq.approxZero Fl.abs tol6) (ofFn_rep hf a).is (ofFn_rep hf1 b).is hP hPe (by norm_num)
    (by rw [allocMax_eq]; norm_num) hct hd (by decide +kernel) (Yields.of_eq hf hi) (y := 1) (α := 1) (ρ := 0)
    (norm_le_of_rows zero_le_one fun i => by rw [mA]; fin_cases i <;> simp)
    (fun i => by rw [mA, mB, mC, mI]; fin_cases i <;> simp)
    (fun i => by rw [mA, mB, mC, mI]; fin_cases i <;> simp [hv, toM, one, zero])
  refine ⟨G, hG, ?_⟩
  have hK : ∀ j, ((lastRow 2 : Matrix (Fin 1) (Fin 2) ℝ) * (ctrbMatrix ((toM 2 2 a).map dreal) ((toM 2 1 b).map dreal))⁻¹ *
      aeval ((toM 2 2 a).map dreal) (∏ j : Fin 2, (X - C (dreal (e 0 j))) : ℝ[X])) 0 j =
      ![dreal (e 0 0) * dreal (e 0 1), -(dreal (e 0 0) + dreal (e 0 1))] j := fun j => by
    rw [mA, mB, mC, mI, Fin.prod_univ_two]
    simp only [map_mul, map_sub, aeval_X, aeval_C, Algebra.algebraMap_eq_smul_one]
    fin_cases j <;> simp [lastRow, Matrix.mul_apply, Fin.sum_univ_two, Matrix.one_apply]
    ring
  simp only [hK] at hGe
  simp only [Fin.sum_univ_two, Fin.prod_univ_two] at hGe
  simp only [Matrix.cons_val_zero, Matrix.cons_val_one, sub_neg_eq_add, Fin.val_zero, Fin.val_one] at hGe
  refine hGe.trans ?_
  have q1 : (1 + |dreal (e 0 0)|) * (1 + |dreal (e 0 1)|) ≤ 4 := by
    have := abs_nonneg (dreal (e 0 0)); have := abs_nonneg (dreal (e 0 1)); nlinarith
  have q0 : 0 ≤ (1 + |dreal (e 0 0)|) * (1 + |dreal (e 0 1)|) := by positivity
  generalize (1 + |dreal (e 0 0)|) * (1 + |dreal (e 0 1)|) = q at q0 q1
  unfold gainErr ackerUnder expmRate
  norm_num
  linarith

end

/-- The double integrator with the poles `-0.1` and `-0.2` in `double`: both gains are one unit in the last place more than the numbers next to `0.02` and
`0.3`. -/
example : (acker (Feq.approxZero Fl.abs tol6) (⟨2, 2, doubles [0, 1, 0, 0]⟩ : Mat Double).toMB (⟨2, 1, doubles [0, 1]⟩ : Mat Double).toMB
      (⟨1, 2, doubles [-1/10, -2/10]⟩ : Mat Double).toMB >>= fun G => .ok (G.data.map Fl.val)) =
      .ok [5764607523034236/2^58, 5404319552844596/2^54] ∧
    (doubles [2/100, 3/10]).map (fun x : Double => x.val) = [5764607523034235/2^58, 5404319552844595/2^54] := by decide +kernel

end Malg
