import Verif.Props.Expm
/-!
# Property C76: when `expm` returns

The loop of `expm` after `t` batches holds the Taylor sum with `t n²` terms; it is left at the first `t ≥ 1` whose relative
change is small enough, unless the divisor of the relative change is singular before.
-/
namespace Malg
open Ops Lin Feq

section
variable {σ : Type}

/-- More fuel does not change the result. -/
theorem whileFuel_mono {step : σ → Res (Option σ)} {s t : σ} {f g : Nat} (h : whileFuel step f s = .ok t) (hfg : f ≤ g) :
    whileFuel step g s = .ok t := by
  induction f generalizing s g with
  | zero => cases h
  | succ f ih =>
    obtain ⟨g, rfl⟩ : ∃ g', g = g' + 1 := ⟨g - 1, by omega⟩
    rw [whileFuel] at h ⊢
    obtain ⟨o, e, h⟩ := Res.bind_eq_ok.1 h
    rw [e, Res.ok_bind]
    cases o with
    | none => exact h
    | some s' => exact ih h (by omega)

/-- `t` rounds that keep a counted invariant. -/
theorem whileFuel_rounds {step : σ → Res (Option σ)} (I : Nat → σ → Prop) {s : σ} (h0 : I 0 s) (t : Nat)
    (hs : ∀ i s, i < t → I i s → ∃ s', step s = .ok (some s') ∧ I (i + 1) s') :
    ∃ s', I t s' ∧ ∀ f, whileFuel step (f + t) s = whileFuel step f s' := by
  induction t with
  | zero => exact ⟨s, h0, fun _ => rfl⟩
  | succ t ih =>
    obtain ⟨s1, h1, e1⟩ := ih fun i s hi => hs i s (by omega)
    obtain ⟨s2, h2, h3⟩ := hs t s1 (by omega) h1
    refine ⟨s2, h3, fun f => ?_⟩
    have : f + (t + 1) = (f + 1) + t := by omega
    rw [this, e1, whileFuel_some h2]

/-- A loop whose rounds keep a counted invariant and that stops after round `T` at the latest. -/
theorem whileFuel_within {step : σ → Res (Option σ)} (I : Nat → σ → Prop) (T : Nat)
    (hs : ∀ i s, i < T → I i s → step s = .ok none ∨ ∃ s', step s = .ok (some s') ∧ I (i + 1) s') (hT : ∀ s, I T s → step s = .ok none)
    {i : Nat} (hi : i ≤ T) {s : σ} (h : I i s) : ∃ s' j, I j s' ∧ ∀ f, T - i < f → whileFuel step f s = .ok s' := by
  obtain ⟨k, hk⟩ : ∃ k, T = i + k := ⟨T - i, by omega⟩
  induction k generalizing i s with
  | zero =>
    obtain rfl : T = i := by omega
    refine ⟨s, _, h, fun f hf => ?_⟩
    obtain ⟨f, rfl⟩ : ∃ f', f = f' + 1 := ⟨f - 1, by omega⟩
    exact whileFuel_none (hT s h) f
  | succ k ih =>
    rcases hs i s (by omega) h with h1 | ⟨s1, h1, h2⟩
    · refine ⟨s, i, h, fun f hf => ?_⟩
      obtain ⟨f, rfl⟩ : ∃ f', f = f' + 1 := ⟨f - 1, by omega⟩
      exact whileFuel_none h1 f
    · obtain ⟨s2, j, h3, h4⟩ := ih (i := i + 1) (by omega) h2 (by omega)
      refine ⟨s2, j, h3, fun f hf => ?_⟩
      obtain ⟨f, rfl⟩ : ∃ f', f = f' + 1 := ⟨f - 1, by omega⟩
      rw [whileFuel_some h1]
      exact h4 f (by omega)

end

section
variable {K : Type} [Field K] [LinearOrder K] [IsStrictOrderedRing K]

omit [IsStrictOrderedRing K] in
theorem log2Ceil_mono {R : Type} {absf : R → K} {half : K} {A : MB R} {f g : Nat} {r : Nat × K}
    (h : log2Ceil absf half A f = .ok r) (hfg : f ≤ g) : log2Ceil absf half A g = .ok r := by
  unfold log2Ceil at h ⊢
  obtain ⟨x, e, h⟩ := Res.bind_eq_ok.1 h
  rw [e, Res.ok_bind]
  exact whileFuel_mono h hfg

/-- The change made by batch `t`. -/
def batchTerm {n : Nat} (S : Matrix (Fin n) (Fin n) K) (t : Nat) : Matrix (Fin n) (Fin n) K :=
  taylor S (t * (n * n)) - taylor S ((t - 1) * (n * n))

/-- The divisor used after batch `t`: the squared sum with `accuracy` added to every entry. -/
def divisor {n : Nat} (S : Matrix (Fin n) (Fin n) K) (accuracy : K) (t : Nat) : Matrix (Fin n) (Fin n) K :=
  taylor S (t * (n * n)) ^ 2 + Matrix.of fun _ _ => accuracy

/-- The norm of the relative change after batch `t`. -/
noncomputable def change {n : Nat} (sqrt : K → K) (S : Matrix (Fin n) (Fin n) K) (accuracy : K) (t : Nat) : K :=
  let X := batchTerm S t ^ 2 * (divisor S accuracy t)⁻¹
  sqrt (∑ i, ∑ j, X i j * X i j)

/-- The body of the loop of `expm`. -/
def expmStep (isz : K → Bool) (sqrt : K → K) (n : Nat) (scaled : Mat K) (accuracy sqAcc : K) (s : ExpmState K) : Res (Option (ExpmState K)) :=
    if sqAcc < s.diff ∧ isz s.facInv = false then do
      let acc ← Mat.new n n (0 : K)
      let (mtk, acc, f, _) ← expmBatch isz scaled s.start (n * n) s.mtk acc s.facInv
      let ret ← addAssign MRef.self (fun _ => acc.toMB) s.ret
      let n' ← mul acc.toMB acc.toMB
      let d ← mul ret.toMB ret.toMB
      let d ← addS d.toMB accuracy
      let relError ← div isz n'.toMB d.toMB
      let diff ← squareNorm sqrt relError.toMB
      return some ⟨s.start + n * n, mtk, ret, f, diff⟩
    else return none

/-- The sums after `t` batches. -/
structure Filled {n : Nat} (S : Matrix (Fin n) (Fin n) K) (t : Nat) (s : ExpmState K) : Prop where
  start : s.start = 1 + t * (n * n)
  fac : s.facInv = (((t * (n * n)).factorial : K)⁻¹)
  mtk : Stores s.mtk (S ^ (t * (n * n)))
  ret : Stores s.ret (taylor S (t * (n * n)))

/-- The state after `t` batches. -/
structure After {n : Nat} (sqrt : K → K) (S : Matrix (Fin n) (Fin n) K) (accuracy sqAcc : K) (t : Nat) (s : ExpmState K) : Prop extends Filled S t s where
  diff : s.diff = if t = 0 then sqAcc + 1 else change sqrt S accuracy t

variable (abs : AbsoluteValue K K) {tol : K} (ht : tol < 1)

section
variable {n : Nat} (hf : Fits n n) {sqrt : K → K} {S : Matrix (Fin n) (Fin n) K} {accuracy sqAcc : K} {scaled : Mat K} (hS : Stores scaled S)
  {t : Nat} {s : ExpmState K} (h : Filled S t s)
include ht h

theorem fac_false : isZ abs tol s.facInv = false := by
  cases hh : isZ abs tol s.facInv
  · rfl
  · rw [isZ_iff abs ht, h.fac] at hh; exact absurd hh (fac_ne _)

include hf hS

theorem expmStep_front (hd : sqAcc < s.diff) :
    ∃ mtk' acc ret' num den, Stores mtk' (S ^ ((t + 1) * (n * n))) ∧ Stores ret' (taylor S ((t + 1) * (n * n))) ∧
      Stores num (batchTerm S (t + 1) ^ 2) ∧ Stores den (divisor S accuracy (t + 1)) ∧ Stores acc (batchTerm S (t + 1)) ∧
      expmStep (isZ abs tol) sqrt n scaled accuracy sqAcc s = (do
        let relError ← div (isZ abs tol) num.toMB den.toMB
        let diff ← squareNorm sqrt relError.toMB
        return some ⟨1 + (t + 1) * (n * n), mtk', ret', ((((t + 1) * (n * n)).factorial : K)⁻¹), diff⟩) := by
  have hz := isZ_iff abs ht
  have hff := fac_false abs ht h
  have ht' : t * (n * n) + n * n = (t + 1) * (n * n) := by ring
  have hzero : Stores (Mat.ofFn n n fun _ _ => (0 : K)) (0 : Matrix (Fin n) (Fin n) K) := ⟨_, rfl, rfl⟩
  obtain ⟨m', a', e2, hm', ha'⟩ := expmBatch_eq hz hf hS h.mtk hzero (n * n)
  obtain ⟨r', e3, hr'⟩ := h.ret.addAssign hf ha'
  obtain ⟨q, e4, hq⟩ := ha'.mul hf ha'
  obtain ⟨d, e5, hd'⟩ := hr'.mul hf hr'
  have e6 : ∃ d', addS d.toMB accuracy = .ok d' ∧ Stores d' (divisor S accuracy (t + 1)) := by
    obtain ⟨E, rfl, hE⟩ := hd'
    refine ⟨_, mapMat_eq (ofFn_rep hf E) fun _ _ _ _ => rfl, _, rfl, ?_⟩
    unfold divisor
    rw [pow_two, ← ht']
    have : taylor S (t * (n * n) + n * n) = taylor S (t * (n * n)) + (0 + (taylor S (t * (n * n) + n * n) - taylor S (t * (n * n)))) := by abel
    rw [this, ← hE]; rfl
  obtain ⟨d', e6, hd''⟩ := e6
  have ha2 : Stores a' (batchTerm S (t + 1)) := by
    unfold batchTerm
    rw [Nat.add_sub_cancel, ← ht']; convert ha' using 1; abel
  refine ⟨m', a', r', q, d', ht' ▸ hm', ?_, ?_, hd'', ha2, ?_⟩
  · rw [← ht']; convert hr' using 1; abel
  · rw [pow_two]; unfold batchTerm; rw [Nat.add_sub_cancel, ← ht']; convert hq using 1; rw [zero_add]
  · unfold expmStep
    rw [if_pos ⟨hd, hff⟩, Mat.new_eq hf, Res.ok_bind, h.start, h.fac, e2, Res.ok_bind]
    dsimp only
    rw [e3, Res.ok_bind, e4, Res.ok_bind, e5, Res.ok_bind, e6, Res.ok_bind]
    rw [← ht', Nat.add_assoc]

end

section
variable {n : Nat} (hf : Fits n n) {sqrt : K → K} {S : Matrix (Fin n) (Fin n) K} {accuracy sqAcc : K} {scaled : Mat K} (hS : Stores scaled S)
  {t : Nat} {s : ExpmState K} (h : After sqrt S accuracy sqAcc t s)
include ht h hf hS

theorem expmStep_go (hn : n ≤ 5) (hd : sqAcc < s.diff) (hdet : (divisor S accuracy (t + 1)).det ≠ 0) :
    ∃ s', expmStep (isZ abs tol) sqrt n scaled accuracy sqAcc s = .ok (some s') ∧ After sqrt S accuracy sqAcc (t + 1) s' := by
  obtain ⟨m', a', r', q, d', hm, hr, hq, hd', -, e⟩ := expmStep_front abs ht hf hS h.toFilled hd
  obtain ⟨rel, e7, hrel⟩ := Stores.of_yields (C52_div (isZ abs tol) (hq.is hf) (C52_large_partial abs ht (hd'.is hf) hdet (.inl hn)))
  have e8 : squareNorm sqrt rel.toMB = .ok (change sqrt S accuracy (t + 1)) := by
    obtain ⟨E, rfl, hE⟩ := hrel
    rw [(C44_square_norm sqrt (v := []) (p := 0) (f := fun _ => 0) ⟨allocMax_pos, rfl, fun _ h => absurd h (by omega)⟩ (ofFn_rep hf E).toRepAt).2]
    unfold change
    dsimp only
    rw [← hE]; rfl
  rw [e, e7, Res.ok_bind, e8, Res.ok_bind]
  exact ⟨_, rfl, ⟨rfl, rfl, hm, hr⟩, by simp⟩

theorem expmStep_singular (hn : n ≤ 4) (hd : sqAcc < s.diff) (hdet : (divisor S accuracy (t + 1)).det = 0) :
    expmStep (isZ abs tol) sqrt n scaled accuracy sqAcc s = .throw .invalidArgument := by
  obtain ⟨m', a', r', q, d', hm, hr, hq, hd', -, e⟩ := expmStep_front abs ht hf hS h.toFilled hd
  obtain ⟨E, rfl, hE⟩ := hq
  rw [e, C52_div_singular abs ht (ofFn_rep hf E).toRepAt (hd'.is hf) hdet hn]; rfl

omit hf hS ht h [IsStrictOrderedRing K] in
theorem expmStep_stop (hd : ¬ sqAcc < s.diff) :
    expmStep (isZ abs tol) sqrt n scaled accuracy sqAcc s = .ok none := by
  unfold expmStep
  rw [if_neg fun h' => hd h'.1]; rfl

end

omit [IsStrictOrderedRing K] in
/-- `expm` in terms of `expmStep`. -/
theorem expm_unfold {isz : K → Bool} {absf sqrt : K → K} {A : MB K} {n : Nat} (hn : 0 < n) {M : Matrix (Fin n) (Fin n) K} (h : A.Is M) {accuracy : K} {N k : Nat}
    (hk : log2Ceil absf (1/2) A N = .ok (k, (1/2) ^ k)) :
    ∃ scaled s0, Stores scaled ((1/2 : K) ^ k • M) ∧ 
      After sqrt ((1/2 : K) ^ k • M) accuracy (accuracy * accuracy * (1/2) ^ k * (1/2) ^ k) 0 s0 ∧
      ∀ fuel, N ≤ fuel → expm isz absf sqrt (1/2) A accuracy fuel =
        (whileFuel (expmStep isz sqrt n scaled accuracy (accuracy * accuracy * (1/2) ^ k * (1/2) ^ k)) fuel s0).bind fun s =>
          forRange 0 k s.ret fun _ ret => mul ret.toMB ret.toMB := by
  have hf := h.fits
  obtain ⟨e, h, rfl⟩ := h
  have hone : Stores (Mat.ofFn n n fun r c => if r = c then (1 : K) else 0) (1 : Matrix (Fin n) (Fin n) K) := ⟨_, rfl, toM_one⟩
  refine ⟨Mat.ofFn n n fun r c => e r c * (1/2) ^ k, ⟨1, Mat.ofFn n n fun r c => if r = c then (1 : K) else 0, Mat.ofFn n n fun r c => if r = c then (1 : K) else 0, 1, accuracy * accuracy * (1/2) ^ k * (1/2) ^ k + 1⟩, ⟨_, rfl, ?_⟩, ⟨⟨by simp, by simp, by simpa using hone, by simpa [taylor_zero] using hone⟩, rfl⟩, fun fuel hN => ?_⟩
  · funext i j; simp only [toM_apply, Matrix.smul_apply, smul_eq_mul, mul_comm]
  · unfold expm
    rw [log2Ceil_mono hk hN, Res.ok_bind]
    dsimp only
    have : Ops.mulS A ((1/2 : K) ^ k) = .ok (Mat.ofFn n n fun r c => e r c * (1/2) ^ k) := mapMat_eq h fun _ _ _ _ => rfl
    rw [this, Res.ok_bind, h.rows, h.cols, hf.wmul, Util.eye_eq hn hn hf, Res.ok_bind, Res.ok_bind]
    rfl

section
variable {absf sqrt : K → K} {A : MB K} {n : Nat} (hn : 0 < n) {M : Matrix (Fin n) (Fin n) K} (h : A.Is M) {accuracy : K} {k N : Nat}
    (hk : log2Ceil absf (1/2) A N = .ok (k, (1/2) ^ k)) {t : Nat} 
include ht hn h hk

/-- C76: for matrices up to 5×5, if `t ≥ 1` is the first batch after which the relative change is at most
`(accuracy / 2^k)²`, and the divisors of the relative change are regular up to there, `expm` returns the `2^k`-th power
of the Taylor sum with `t n²` terms. -/
theorem C76_returns (hn5 : n ≤ 5) (ht0 : 0 < t)
    (hgo : ∀ s, 0 < s → s < t → accuracy * accuracy * (1/2) ^ k * (1/2) ^ k < change sqrt ((1/2 : K) ^ k • M) accuracy s)
    (hreg : ∀ s, 0 < s → s ≤ t → (divisor ((1/2 : K) ^ k • M) accuracy s).det ≠ 0)
    (hstop : change sqrt ((1/2 : K) ^ k • M) accuracy t ≤ accuracy * accuracy * (1/2) ^ k * (1/2) ^ k) :
    ∀ fuel, N ≤ fuel → t < fuel → Yields (expm (isZ abs tol) absf sqrt (1/2) A accuracy fuel) (taylor ((1/2 : K) ^ k • M) (t * (n * n)) ^ (2 ^ k)) := by
  intro fuel hN htf
  have hf := h.fits
  obtain ⟨sc, s0, hsc, hs0, e⟩ := expm_unfold (isz := isZ abs tol) (sqrt := sqrt) (accuracy := accuracy) hn h (log2Ceil_mono hk hN)
  obtain ⟨s, hs, hw⟩ := whileFuel_rounds (step := expmStep (isZ abs tol) sqrt n sc accuracy (accuracy * accuracy * (1/2) ^ k * (1/2) ^ k))
    (fun t s => After sqrt ((1/2 : K) ^ k • M) accuracy (accuracy * accuracy * (1/2) ^ k * (1/2) ^ k) t s) hs0 t
    (fun i s hi hs => expmStep_go abs ht hf hsc hs hn5 (by
      rw [hs.diff]
      split
      · exact lt_add_one _
      · exact hgo i (by omega) hi) (hreg (i + 1) (by omega) (by omega)))
  obtain ⟨f, rfl⟩ : ∃ f, fuel = f + 1 + t := ⟨fuel - t - 1, by omega⟩
  rw [e _ le_rfl, hw, whileFuel_none (expmStep_stop abs (by rw [hs.diff, if_neg (by omega)]; exact not_lt.2 hstop))]
  obtain ⟨B, e2, hB⟩ := squarings hf hs.ret k
  obtain ⟨E, rfl, hE⟩ := hB
  exact ⟨_, e2, (ofFn_holds hf E).wf, hE ▸ (ofFn_rep hf E).is⟩

/-- C76: for matrices up to 4×4, if the divisor of the relative change is singular after batch `t` and the loop has not
been left before, `expm` throws `invalid_argument`. -/
theorem C76_singular_throws (hn4 : n ≤ 4) (ht0 : 0 < t)
    (hgo : ∀ s, 0 < s → s < t → accuracy * accuracy * (1/2) ^ k * (1/2) ^ k < change sqrt ((1/2 : K) ^ k • M) accuracy s)
    (hreg : ∀ s, 0 < s → s < t → (divisor ((1/2 : K) ^ k • M) accuracy s).det ≠ 0)
    (hsing : (divisor ((1/2 : K) ^ k • M) accuracy t).det = 0) :
    ∀ fuel, N ≤ fuel → t ≤ fuel → expm (isZ abs tol) absf sqrt (1/2) A accuracy fuel = .throw .invalidArgument := by
  intro fuel hN htf
  have hf := h.fits
  obtain ⟨t, rfl⟩ : ∃ t', t = t' + 1 := ⟨t - 1, by omega⟩
  obtain ⟨sc, s0, hsc, hs0, e⟩ := expm_unfold (isz := isZ abs tol) (sqrt := sqrt) (accuracy := accuracy) hn h (log2Ceil_mono hk hN)
  have hd : ∀ i s, i ≤ t → After sqrt ((1/2 : K) ^ k • M) accuracy (accuracy * accuracy * (1/2) ^ k * (1/2) ^ k) i s →
      accuracy * accuracy * (1/2) ^ k * (1/2) ^ k < s.diff := by
    intro i s hi hs
    rw [hs.diff]
    split
    · exact lt_add_one _
    · exact hgo i (by omega) (by omega)
  obtain ⟨s, hs, hw⟩ := whileFuel_rounds (step := expmStep (isZ abs tol) sqrt n sc accuracy (accuracy * accuracy * (1/2) ^ k * (1/2) ^ k))
    (fun t s => After sqrt ((1/2 : K) ^ k • M) accuracy (accuracy * accuracy * (1/2) ^ k * (1/2) ^ k) t s) hs0 t
    (fun i s hi hs => expmStep_go abs ht hf hsc hs (by omega) (hd i s (by omega) hs) (hreg (i + 1) (by omega) (by omega)))
  obtain ⟨f, rfl⟩ : ∃ f, fuel = f + 1 + t := ⟨fuel - t - 1, by omega⟩
  rw [e _ le_rfl, hw, whileFuel, expmStep_singular abs ht hf hsc hs hn4 (hd t s le_rfl hs) hsing]
  rfl

/-- C76: for matrices up to 5×5, if the relative change stays above the limit and all divisors are regular, `expm` does
not return. -/
theorem C76_diverges (hn5 : n ≤ 5)
    (hgo : ∀ s, 0 < s → accuracy * accuracy * (1/2) ^ k * (1/2) ^ k < change sqrt ((1/2 : K) ^ k • M) accuracy s)
    (hreg : ∀ s, 0 < s → (divisor ((1/2 : K) ^ k • M) accuracy s).det ≠ 0) :
    ∀ fuel, N ≤ fuel → expm (isZ abs tol) absf sqrt (1/2) A accuracy fuel = .diverge := by
  intro fuel hN
  have hf := h.fits
  obtain ⟨sc, s0, hsc, hs0, e⟩ := expm_unfold (isz := isZ abs tol) (sqrt := sqrt) (accuracy := accuracy) hn h (log2Ceil_mono hk hN)
  obtain ⟨s, hs, hw⟩ := whileFuel_rounds (step := expmStep (isZ abs tol) sqrt n sc accuracy (accuracy * accuracy * (1/2) ^ k * (1/2) ^ k))
    (fun t s => After sqrt ((1/2 : K) ^ k • M) accuracy (accuracy * accuracy * (1/2) ^ k * (1/2) ^ k) t s) hs0 fuel
    (fun i s hi hs => expmStep_go abs ht hf hsc hs hn5 (by
      rw [hs.diff]
      split
      · exact lt_add_one _
      · exact hgo i (by omega)) (hreg (i + 1) (by omega)))
  have := hw 0
  rw [Nat.zero_add] at this
  rw [e _ le_rfl, this]; rfl

end
end
end Malg
