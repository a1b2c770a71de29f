import Verif.Lemmas.HessRun
import Verif.Lemmas.Det
/-!
# The run of `qr_factorise_givens` and `QRHessenberg`
-/
namespace Malg
open Matrix
namespace Eigen
open Cpx
variable {K : Type} [Field K] [LinearOrder K] [IsStrictOrderedRing K] {n : Nat}
variable {eps : K} {sqrt : K → K} {abs : Cpx K → K} (hs : ∀ x, 0 ≤ x → 0 ≤ sqrt x ∧ sqrt x * sqrt x = x) (ha : IsAbs abs)
  (he : 0 < eps)

include hs ha he in
theorem givens_run (hf : Fits n n) (hn : 0 < n) (A : Matrix (Fin n) (Fin n) (Cpx K)) :
    ∃ Q R, qrFactoriseGivens eps sqrt abs (Mat.ofFn n n (tab A)) = .ok (Mat.ofFn n n (tab Q), Mat.ofFn n n (tab R)) ∧
      GivensInv eps n A Q R := by
  unfold qrFactoriseGivens
  simp only [ofFn_rows, ofFn_cols]
  rw [eye_tab hn hf, Res.ok_bind]
  obtain ⟨s, e, Q, R, rfl, h⟩ := forRange_inv hn
    (fun i s => ∃ Q R, s = (Mat.ofFn n n (tab Q), Mat.ofFn n n (tab R)) ∧ GivensInv eps i A Q R)
    (s := (Mat.ofFn n n (tab (1 : Matrix (Fin n) (Fin n) (Cpx K))), Mat.ofFn n n (tab A)))
    (body := givensStep eps sqrt abs n) ⟨1, A, rfl, givens_start eps A⟩ (by
      rintro i s hi1 hi ⟨Q, R, rfl, h⟩
      have hj : i - 1 < n := by omega
      by_cases hab : abs (R ⟨i, hi⟩ ⟨i - 1, hj⟩) < eps
      · refine ⟨_, ?_, Q, R, rfl, givens_skip he h hi1 hi ?_⟩
        · unfold givensStep
          dsimp only
          rw [ofFn_at hf hi hj, tab_lt R hi hj, Res.ok_bind, if_pos hab]
          rfl
        · rw [← (ha _).2]
          exact mul_self_lt_mul_self (ha _).1 hab
      · have hx : 0 < norm (R ⟨i, hi⟩ ⟨i - 1, hj⟩) := by
          rw [← (ha _).2]
          have := lt_of_lt_of_le he (not_lt.1 hab)
          exact mul_pos this this
        have hpos : 0 < norm (R ⟨i - 1, hj⟩ ⟨i - 1, hj⟩) + norm (-conj (R ⟨i, hi⟩ ⟨i - 1, hj⟩)) := by
          rw [norm_neg, ← star_def, norm_star]
          have := norm_nonneg (R ⟨i - 1, hj⟩ ⟨i - 1, hj⟩)
          linarith
        obtain ⟨h1, h2⟩ := hs _ hpos.le
        have hl0 : sqrt (norm (R ⟨i - 1, hj⟩ ⟨i - 1, hj⟩) + norm (-conj (R ⟨i, hi⟩ ⟨i - 1, hj⟩))) ≠ 0 := by
          intro h3
          rw [h3, mul_zero] at h2
          exact hpos.ne h2
        refine ⟨_, givensStep_eq hf hi1 hi Q R hab hl0 rfl, _, _, rfl, givens_step he h hi1 hi (l := _) ?_ hl0 rfl rfl⟩
        rw [h2, norm_neg, ← star_def, norm_star])
  exact ⟨Q, R, e, h⟩

omit [IsStrictOrderedRing K] in
theorem wilkinson_ok (sqrtC : Cpx K → Cpx K) (four half : K) (hf : Fits n n) (hn : 0 < n) (T : Matrix (Fin n) (Fin n) (Cpx K)) :
    ∃ mu, wilkinsonShift sqrtC four half (Mat.ofFn n n (tab T)) = .ok mu := by
  unfold wilkinsonShift
  rw [ofFn_rows, wsub_eq (by omega) hf.2.1]
  dsimp only
  by_cases h : 0 < n - 1
  · rw [if_pos h, ofFn_at hf (by omega) (by omega), Res.ok_bind, ofFn_at hf (by omega) (by omega), Res.ok_bind,
      ofFn_at hf (by omega) (by omega), Res.ok_bind, ofFn_at hf (by omega) (by omega), Res.ok_bind]
    exact ⟨_, rfl⟩
  · rw [if_neg h]
    exact ⟨_, rfl⟩

omit [LinearOrder K] [IsStrictOrderedRing K] in
theorem combC_eq (hf : Fits n n) (T : Matrix (Fin n) (Fin n) (Cpx K)) (b : Cpx K) :
    combC (Mat.ofFn n n (tab T)) (Mat.ofFn n n (tab (1 : Matrix (Fin n) (Fin n) (Cpx K)))) b = .ok (Mat.ofFn n n (tab (T + b • 1))) := by
  unfold combC Ops.binFnMat
  rw [Ops.zipMat_eq (ofFn_rep hf _) (ofFn_rep hf _) fun _ _ _ _ => rfl]
  congr 1
  apply ofFn_congr
  intro r c hr hc
  dsimp only
  rw [mulR_eq, ofReal_one, mul_one, tab_lt _ hr hc, tab_lt _ hr hc, tab_lt _ hr hc, Matrix.add_apply, Matrix.smul_apply, smul_eq_mul,
    mul_comm]

/-- The squared length of the part below the diagonal. -/
def lowSq (T : Matrix (Fin n) (Fin n) (Cpx K)) : K := ∑ r : Fin n, ∑ c : Fin n, if c.val < r.val then norm (T r c) else 0

omit [LinearOrder K] [IsStrictOrderedRing K] in
theorem subNormC_eq (hf : Fits n n) (hn : 0 < n) (T : Matrix (Fin n) (Fin n) (Cpx K)) :
    subNormC sqrt (Mat.ofFn n n (tab T)).toMB = .ok (sqrt (lowSq T)) := by
  have hrep := ofFn_rep hf (tab T)
  unfold subNormC
  rw [show (Mat.ofFn n n (tab T)).toMB.empty = false from ?_, if_neg (by simp), show Util.isSquare (Mat.ofFn n n (tab T)).toMB = true from ?_]
  · simp only [Bool.not_true, Bool.false_eq_true, if_false]
    rw [show (Mat.ofFn n n (tab T)).toMB.rows = n from rfl,
      forRange_eq (hi := n) hn (fun i => ∑ r ∈ Finset.range i, ∑ c ∈ Finset.range r, norm (tab T r c)), Res.ok_bind]
    · show Res.ok _ = Res.ok _
      rw [lowSq, sum_range_fin]
      congr 2
      refine Finset.sum_congr rfl fun r _ => ?_
      rw [← Finset.sum_range (fun c => if c < r.val then (if h : c < n then norm (T r ⟨c, h⟩) else 0) else 0) |>.trans
        (Finset.sum_congr rfl fun c _ => by rw [dif_pos c.2])]
      rw [← Finset.sum_filter]
      have : (Finset.range n).filter (fun c => c < r.val) = Finset.range r.val := by
        ext c; simp only [Finset.mem_filter, Finset.mem_range]; omega
      rw [this]
      refine Finset.sum_congr rfl fun c hc => ?_
      rw [Finset.mem_range] at hc
      have hcn : c < n := by omega
      rw [dif_pos hcn, tab_lt T r.2 hcn]
    · simp
    · intro r h1 h2
      rw [forRange_eq (Nat.zero_le r) (fun c => (∑ r ∈ Finset.range r, ∑ c ∈ Finset.range r, norm (tab T r c)) +
        ∑ c ∈ Finset.range c, norm (tab T r c))]
      · rw [Finset.sum_range_succ]
      · simp
      · intro c _ hc
        rw [show (Mat.ofFn n n (tab T)).toMB.at_ r c = .ok (tab T r c) from ofFn_at hf h2 (by omega), Res.ok_bind,
          Finset.sum_range_succ, ← add_assoc]
        rfl
  · rw [Lin.isSquare_eq hrep.toRepAt, beq_self_eq_true]
  · simp [Mat.toMB, Mat.isEmpty, Mat.ofFn]; omega

omit [LinearOrder K] [IsStrictOrderedRing K] in
theorem squareNormC_eq (hf : Fits n n) (T : Matrix (Fin n) (Fin n) (Cpx K)) :
    squareNormC sqrt (Mat.ofFn n n (tab T)).toMB = .ok (sqrt (∑ r, ∑ c, norm (T r c))) := by
  unfold squareNormC
  rw [show (Mat.ofFn n n (tab T)).toMB.rows = n from rfl, show (Mat.ofFn n n (tab T)).toMB.cols = n from rfl,
    forRange_eq (hi := n) (Nat.zero_le n) (fun i => ∑ r ∈ Finset.range i, ∑ c ∈ Finset.range n, norm (tab T r c)), Res.ok_bind]
  · show Res.ok _ = Res.ok _
    rw [sum_range_fin]
    congr 2
    refine Finset.sum_congr rfl fun r _ => ?_
    rw [sum_range_fin]
    refine Finset.sum_congr rfl fun c _ => ?_
    rw [tab_lt T r.2 c.2]
  · simp
  · intro r h1 h2
    rw [forRange_eq (Nat.zero_le n) (fun c => (∑ r ∈ Finset.range r, ∑ c ∈ Finset.range n, norm (tab T r c)) +
      ∑ c ∈ Finset.range c, norm (tab T r c))]
    · rw [Finset.sum_range_succ]
    · simp
    · intro c _ hc
      rw [show (Mat.ofFn n n (tab T)).toMB.at_ r c = .ok (tab T r c) from ofFn_at hf h2 hc, Res.ok_bind,
        Finset.sum_range_succ, ← add_assoc]
      rfl

omit [LinearOrder K] [IsStrictOrderedRing K] in
theorem combR_eq (hf : Fits n n) (T S : Matrix (Fin n) (Fin n) (Cpx K)) :
    combR (Mat.ofFn n n (tab T)) (Mat.ofFn n n (tab S)) (-1) = .ok (Mat.ofFn n n (tab (T - S))) := by
  unfold combR Ops.binFnMat
  rw [Ops.zipMat_eq (ofFn_rep hf _) (ofFn_rep hf _) fun _ _ _ _ => rfl]
  congr 1
  apply ofFn_congr
  intro r c hr hc
  dsimp only
  rw [tab_lt _ hr hc, tab_lt _ hr hc, tab_lt _ hr hc, Matrix.sub_apply]
  ext <;> simp [mulR] <;> ring

theorem lowSq_nonneg (T : Matrix (Fin n) (Fin n) (Cpx K)) : 0 ≤ lowSq T :=
  Finset.sum_nonneg fun r _ => Finset.sum_nonneg fun c _ => by
    split
    · exact norm_nonneg _
    · exact le_rfl

theorem mul_tab (hf : Fits n n) (A B : Matrix (Fin n) (Fin n) (Cpx K)) :
    Ops.mul (Mat.ofFn n n (tab A)).toMB (Mat.ofFn n n (tab B)).toMB = .ok (Mat.ofFn n n (tab (A * B))) :=
  (C35_product (is_iff_rep.2 (ofFn_rep hf _)) (is_iff_rep.2 (ofFn_rep hf _)) hf).eq

include hs ha he in
/-- One pass of `QRHessenberg`: a unitary similarity; the new residual bounds the length of the part below the diagonal. -/
theorem qrIter_run (sqrtC : Cpx K → Cpx K) (four half : K) (hf : Fits n n) (hn : 0 < n) (P T : Matrix (Fin n) (Fin n) (Cpx K))
    (i : Nat) (res : K) :
    ∃ Q T' d l, qrIter eps sqrt abs sqrtC four half (Mat.ofFn n n (tab (1 : Matrix (Fin n) (Fin n) (Cpx K)))) ⟨i, res, Mat.ofFn n n (tab P), Mat.ofFn n n (tab T)⟩ =
        .ok ⟨i + 1, d + l, Mat.ofFn n n (tab (P * Q)), Mat.ofFn n n (tab T')⟩ ∧
      Qᴴ * Q = 1 ∧ Q * T' = T * Q ∧ 0 ≤ d ∧ d * d = (∑ r, ∑ c, norm ((T' - T) r c)) ∧ 0 ≤ l ∧ l * l = lowSq T' := by
  obtain ⟨mu0, hmu⟩ := wilkinson_ok sqrtC four half hf hn T
  unfold qrIter
  dsimp only
  rw [hmu, Res.ok_bind]
  generalize (if abs mu0 < eps then 1 else mu0) = mu
  rw [combC_eq hf, Res.ok_bind]
  obtain ⟨Q, R, e, h⟩ := givens_run hs ha he hf hn (T + (-mu) • 1)
  rw [e, Res.ok_bind]
  dsimp only
  rw [mul_tab hf, Res.ok_bind, mul_tab hf, Res.ok_bind, combC_eq hf, Res.ok_bind, combR_eq hf, Res.ok_bind,
    squareNormC_eq hf, Res.ok_bind, subNormC_eq hf hn, Res.ok_bind]
  have h1 := hs _ (lowSq_nonneg (R * Q + mu • 1))
  have h2 := hs (∑ r, ∑ c, norm ((R * Q + mu • 1 - T) r c))
    (Finset.sum_nonneg fun r _ => Finset.sum_nonneg fun c _ => norm_nonneg _)
  refine ⟨Q, R * Q + mu • 1, _, _, rfl, h.unit, ?_, h2.1, h2.2, h1.1, h1.2⟩
  rw [Matrix.mul_add, ← Matrix.mul_assoc, h.fact, Matrix.add_mul, Matrix.mul_smul, Matrix.smul_mul, Matrix.mul_one, Matrix.one_mul,
    neg_smul, add_assoc, neg_add_cancel, add_zero]

/-- What the loop of `QRHessenberg` keeps, starting from `(P, H)`. -/
structure QrInv (P H : Matrix (Fin n) (Fin n) (Cpx K)) (st : QrState K) (Q T : Matrix (Fin n) (Fin n) (Cpx K)) : Prop where
  unit : Qᴴ * Q = 1
  hm : st.HM = Mat.ofFn n n (tab (P * Q))
  ut : st.UT = Mat.ofFn n n (tab T)
  sim : Q * T = H * Q
  start : st.iter = 1 → st.residual = 1
  iter : 1 ≤ st.iter
  low : 1 < st.iter → ∃ l, 0 ≤ l ∧ l ≤ st.residual ∧ l * l = lowSq T

include hs ha he in
theorem qr_loop (tol : K) (maxIter : Nat) (sqrtC : Cpx K → Cpx K) (four half : K) (hf : Fits n n) (hn : 0 < n)
    (P H : Matrix (Fin n) (Fin n) (Cpx K)) : ∀ (fuel : Nat) (st : QrState K), maxIter - st.iter < fuel → (∃ Q T, QrInv P H st Q T) →
    ∃ st', whileFuel (fun st : QrState K =>
      if tol < st.residual ∧ st.iter < maxIter then do
        let st' ← qrIter eps sqrt abs sqrtC four half (Mat.ofFn n n (tab (1 : Matrix (Fin n) (Fin n) (Cpx K)))) st
        return some st'
      else return none) fuel st = .ok st' ∧ (∃ Q T, QrInv P H st' Q T) ∧ ¬ (tol < st'.residual ∧ st'.iter < maxIter) := by
  intro fuel
  induction fuel with
  | zero => intro st h; omega
  | succ f ih =>
    rintro ⟨it, res, hm, ut⟩ hlt ⟨Q, T, h⟩
    have e1 := h.hm
    have e2 := h.ut
    dsimp only at e1 e2 hlt
    subst e1 e2
    by_cases hc : tol < res ∧ it < maxIter
    · obtain ⟨Q', T', d, l, e, u, s, d0, -, l0, ll⟩ := qrIter_run hs ha he sqrtC four half hf hn (P * Q) T it res
      have hlt' : maxIter - (it + 1) < f := by
        have := hc.2
        omega
      obtain ⟨st', e', i', c'⟩ := ih ⟨it + 1, d + l, Mat.ofFn n n (tab (P * Q * Q')), Mat.ofFn n n (tab T')⟩ hlt'
        ⟨Q * Q', T', {
          unit := by
            rw [conjTranspose_mul, Matrix.mul_assoc, ← Matrix.mul_assoc Qᴴ, h.unit, Matrix.one_mul, u]
          hm := by rw [Matrix.mul_assoc]
          ut := rfl
          sim := by rw [Matrix.mul_assoc, s, ← Matrix.mul_assoc, h.sim, Matrix.mul_assoc]
          start := fun h1 => by
            have := h.iter
            dsimp only at h1 this
            omega
          iter := by dsimp only; omega
          low := fun _ => ⟨l, l0, by dsimp only; linarith, ll⟩ }⟩
      refine ⟨st', ?_, i', c'⟩
      rw [← e', whileFuel]
      simp only [if_pos hc, e]
      rfl
    · refine ⟨_, ?_, ⟨Q, T, h⟩, hc⟩
      rw [whileFuel]
      simp only [if_neg hc]
      rfl

include hs ha he in
theorem qrHessenberg_run (tol : K) (maxIter : Nat) (sqrtC : Cpx K → Cpx K) (four half : K) (hf : Fits n n) (hn : 0 < n)
    (hn31 : n < 2 ^ 31) (A P H : Matrix (Fin n) (Fin n) (Cpx K))
    (hh : hessenberg eps sqrt abs (Mat.ofFn n n (tab A)) = .ok (Mat.ofFn n n (tab P), Mat.ofFn n n (tab H))) :
    ∃ Q T w, qrHessenberg eps tol maxIter sqrt abs sqrtC four half (Mat.ofFn n n (tab A)) =
        .ok ((Mat.ofFn n n (tab (P * Q)), Mat.ofFn n n (tab T)), w) ∧
      Qᴴ * Q = 1 ∧ Q * T = H * Q ∧ (0 ≤ tol → tol < 1 → 1 < maxIter → w = false → lowSq T ≤ tol * tol) := by
  unfold qrHessenberg
  rw [ofFn_rows, intDim, if_pos hn31, Res.ok_bind, Mat.new_eq hf, Res.ok_bind, eye_tab hn hf, Res.ok_bind, hh, Res.ok_bind]
  obtain ⟨st, e, ⟨Q, T, h⟩, hc⟩ := qr_loop hs ha he tol maxIter sqrtC four half hf hn P H (maxIter + 1)
    ⟨1, 1, Mat.ofFn n n (tab P), Mat.ofFn n n (tab H)⟩ (by dsimp only; omega)
    ⟨1, H, {
      unit := by rw [conjTranspose_one, Matrix.one_mul]
      hm := by rw [Matrix.mul_one]
      ut := rfl
      sim := by rw [Matrix.mul_one, Matrix.one_mul]
      start := fun _ => rfl
      iter := le_rfl
      low := fun h => absurd h (lt_irrefl _) }⟩
  dsimp only
  rw [e, Res.ok_bind, h.hm, h.ut]
  refine ⟨Q, T, _, rfl, h.unit, h.sim, fun h0 h1 hm hw => ?_⟩
  have hr := not_lt.1 (of_decide_eq_false hw)
  rcases Nat.lt_or_ge 1 st.iter with hi | hi
  · obtain ⟨l, l0, lr, ll⟩ := h.low hi
    rw [← ll]
    exact mul_self_le_mul_self l0 (lr.trans hr)
  · have := h.start (Nat.le_antisymm hi h.iter)
    rw [this] at hr
    exact absurd hr (not_le.2 h1)

end Eigen
end Malg
