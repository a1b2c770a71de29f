import Verif.Props.Det
import Verif.Props.Reduce
import Mathlib.LinearAlgebra.Matrix.SchurComplement
import Mathlib.Data.Nat.Factorial.Basic
import Mathlib.Data.Nat.Cast.Order.Field
import Mathlib.Tactic.Positivity
import Mathlib.Tactic.FieldSimp
/-!
# C55: `expm`
-/
namespace Malg
open Ops Lin Feq

section
variable {K : Type} [Field K]

/-- The Taylor sum `∑_{j ≤ p} S^j / j!`. -/
def taylor {n : Nat} (S : Matrix (Fin n) (Fin n) K) (p : Nat) : Matrix (Fin n) (Fin n) K :=
  ∑ j ∈ Finset.range (p + 1), ((j.factorial : K)⁻¹) • S ^ j

theorem taylor_zero {n : Nat} (S : Matrix (Fin n) (Fin n) K) : taylor S 0 = 1 := by
  simp [taylor]

theorem taylor_succ {n : Nat} (S : Matrix (Fin n) (Fin n) K) (p : Nat) :
    taylor S (p + 1) = taylor S p + (((p + 1).factorial : K)⁻¹) • S ^ (p + 1) := Finset.sum_range_succ _ _

/-- The local variable holds the Mathlib matrix `M`. -/
def Stores {n : Nat} (A : Mat K) (M : Matrix (Fin n) (Fin n) K) : Prop := ∃ E, A = Mat.ofFn n n E ∧ toM n n E = M

omit [Field K] in
theorem Stores.is {n : Nat} (hf : Fits n n) {A : Mat K} {M : Matrix (Fin n) (Fin n) K} (h : Stores A M) : A.toMB.Is M := by
  obtain ⟨E, rfl, rfl⟩ := h; exact (ofFn_rep hf E).is

theorem Stores.of_yields {n : Nat} {x : Res (Mat K)} {M : Matrix (Fin n) (Fin n) K} (h : Yields x M) : ∃ A, x = .ok A ∧ Stores A M :=
  ⟨_, h.eq, _, rfl, toM_tab M⟩

theorem Stores.mul {n : Nat} (hf : Fits n n) {A B : Mat K} {M N : Matrix (Fin n) (Fin n) K} (hA : Stores A M) (hB : Stores B N) :
    ∃ C, Ops.mul A.toMB B.toMB = .ok C ∧ Stores C (M * N) := Stores.of_yields (C35_product (hA.is hf) (hB.is hf) hf)

theorem Stores.mulS {n : Nat} (hf : Fits n n) {A : Mat K} {M : Matrix (Fin n) (Fin n) K} (hA : Stores A M) (b : K) :
    ∃ C, Ops.mulS A.toMB b = .ok C ∧ Stores C (b • M) := by
  obtain ⟨E, rfl, rfl⟩ := hA
  refine ⟨_, mapMat_eq (ofFn_rep hf E) fun _ _ _ _ => rfl, _, rfl, ?_⟩
  funext i j; simp only [toM_apply, Matrix.smul_apply, smul_eq_mul, mul_comm]

theorem Stores.addAssign {n : Nat} (hf : Fits n n) {A B : Mat K} {M N : Matrix (Fin n) (Fin n) K} (hA : Stores A M) (hB : Stores B N) :
    ∃ C, Ops.addAssign MRef.self (fun _ => B.toMB) A = .ok C ∧ Stores C (M + N) := by
  obtain ⟨E, rfl, rfl⟩ := hA
  obtain ⟨F, rfl, rfl⟩ := hB
  exact ⟨_, addAssign_self (ofFn_rep hf F), _, rfl, rfl⟩

theorem fac_succ (p : Nat) : ((p.factorial : K)⁻¹) * (1 / ((1 + p : Nat) : K)) = (((p + 1).factorial : K)⁻¹) := by
  rw [Nat.factorial_succ, Nat.cast_mul, mul_inv, one_div, mul_comm, Nat.add_comm]

/-- Repeated squaring. -/
theorem squarings {n : Nat} (hf : Fits n n) {A : Mat K} {M : Matrix (Fin n) (Fin n) K} (h : Stores A M) (k : Nat) :
    ∃ B, forRange 0 k A (fun _ ret => Ops.mul ret.toMB ret.toMB) = .ok B ∧ Stores B (M ^ (2 ^ k)) := by
  refine forRange_inv (Nat.zero_le k) (fun k B => Stores B (M ^ (2 ^ k))) (by simpa using h) ?_
  intro i B _ _ hB
  obtain ⟨C, e, hC⟩ := hB.mul hf hB
  exact ⟨C, e, by rw [pow_succ, pow_mul, pow_two]; exact hC⟩

end

section
variable {K : Type} [Field K] [LinearOrder K] [IsStrictOrderedRing K]

theorem fac_ne (p : Nat) : ((p.factorial : K)⁻¹) ≠ 0 := inv_ne_zero (Nat.cast_ne_zero.2 (Nat.factorial_ne_zero p))

variable {isz : K → Bool} (hz : ∀ x, isz x = true ↔ x = 0)

include hz in
theorem expmBatch_eq {n : Nat} (hf : Fits n n) {S : Matrix (Fin n) (Fin n) K} {sc mtk acc : Mat K} (hs : Stores sc S)
    {p : Nat} (hm : Stores mtk (S ^ p)) {X : Matrix (Fin n) (Fin n) K} (ha : Stores acc X) (b : Nat) :
    ∃ mtk' acc', expmBatch isz sc (1 + p) b mtk acc ((p.factorial : K)⁻¹) =
        .ok (mtk', acc', (((p + b).factorial : K)⁻¹), false) ∧ Stores mtk' (S ^ (p + b)) ∧
      Stores acc' (X + (taylor S (p + b) - taylor S p)) := by
  unfold expmBatch
  obtain ⟨s, h1, h2⟩ := forRange_inv (Nat.zero_le b)
    (fun i (s : Mat K × Mat K × K × Bool) => s.2.2 = ((((p + i).factorial : K)⁻¹), false) ∧ Stores s.1 (S ^ (p + i)) ∧
      Stores s.2.1 (X + (taylor S (p + i) - taylor S p)))
    (s := (mtk, acc, ((p.factorial : K)⁻¹), false))
    (body := fun i s =>
      if s.2.2.2 then .ok s
      else do
        let q ← cdiv (1 : K) (((1 + p + i : Nat)) : K)
        let f := s.2.2.1 * q
        if isz f then return (s.1, s.2.1, f, true)
        else do
          let m ← Ops.mul s.1.toMB sc.toMB
          let x ← Ops.mulS m.toMB f
          let a ← Ops.addAssign MRef.self (fun _ => x.toMB) s.2.1
          return (m, a, f, false))
    ⟨rfl, hm, by simpa using ha⟩
    (by
      rintro i ⟨m, a, f, b⟩ _ _ ⟨he, hm, ha⟩
      obtain ⟨rfl, rfl⟩ : f = ((p + i).factorial : K)⁻¹ ∧ b = false := by simpa using he
      dsimp only at hm ha ⊢
      have hne : ((1 + p + i : Nat) : K) ≠ 0 := Nat.cast_ne_zero.2 (by omega)
      have hfac : (((p + i).factorial : K)⁻¹) * (1 / ((1 + p + i : Nat) : K)) = (((p + (i + 1)).factorial : K)⁻¹) := by
        have := fac_succ (K := K) (p + i)
        rw [← Nat.add_assoc] at this
        rw [this]; rfl
      rw [if_neg Bool.false_ne_true, cdiv_ok _ hne, Res.ok_bind, hfac,
        if_neg (fun h => fac_ne (K := K) _ ((hz _).1 h))]
      obtain ⟨m', e1, hm'⟩ := hm.mul hf hs
      obtain ⟨x, e2, hx⟩ := hm'.mulS hf (((p + (i + 1)).factorial : K)⁻¹)
      obtain ⟨a', e3, ha'⟩ := ha.addAssign hf hx
      rw [e1, Res.ok_bind, e2, Res.ok_bind, e3, Res.ok_bind]
      refine ⟨_, rfl, rfl, ?_, ?_⟩
      · show Stores m' (S ^ (p + i + 1)); rw [pow_succ]; exact hm'
      · show Stores a' _
        rw [← Nat.add_assoc, taylor_succ, pow_succ]
        convert ha' using 1
        rw [Nat.add_assoc]; abel)
  obtain ⟨m, a, f, b'⟩ := s
  obtain ⟨he, h3, h4⟩ := h2
  obtain ⟨rfl, rfl⟩ : f = ((p + b).factorial : K)⁻¹ ∧ b' = false := by simpa using he
  exact ⟨m, a, h1, h3, h4⟩

omit [IsStrictOrderedRing K] in
/-- The scale factor is a power of the halving factor. -/
theorem log2Ceil_scale {absf : K → K} {half : K} {A : MB K} {fuel k : Nat} {s : K} (h : log2Ceil absf half A fuel = .ok (k, s)) :
    s = half ^ k := by
  unfold log2Ceil at h
  obtain ⟨x, -, h2⟩ := Res.bind_eq_ok.1 h
  have := (whileFuel_inv_ok (fun p : Nat × K => p.2 = half ^ p.1) (by simp) (fun p q hp hq => ?_) h2).1
  · exact this
  · split at hq
    · injection hq with hq; injection hq with hq
      rw [← hq]; dsimp only; rw [hp, pow_succ]
    · simp at hq

include hz in
/-- C55: when `expm` returns, the result is the `2^k`-th power of a Taylor sum of `exp(M/2^k)` whose number of terms is
one plus a positive multiple of `n²`, `k` being the number of halvings that `log2_ceil` reports. -/
theorem C55_taylor {absf sqrt : K → K} {A : MB K} {n : Nat} {M : Matrix (Fin n) (Fin n) K} (h : A.Is M) {accuracy : K} {fuel : Nat} {R : Mat K}
    (hr : expm isz absf sqrt (1/2) A accuracy fuel = .ok R) :
    ∃ k t, log2Ceil absf (1/2) A fuel = .ok (k, (1/2) ^ k) ∧ 0 < t ∧ R.WF ∧
      R.toMB.Is ((taylor ((1/2 : K) ^ k • M) (t * (n * n))) ^ (2 ^ k)) := by
  have hf := h.fits
  obtain ⟨e, h, rfl⟩ := h
  unfold expm at hr
  obtain ⟨⟨k, sc⟩, h1, hr⟩ := Res.bind_eq_ok.1 hr
  have hsc := log2Ceil_scale h1
  subst hsc
  dsimp only at hr
  have hA : ∃ C, Ops.mulS A ((1/2 : K) ^ k) = .ok C ∧ Stores C ((1/2 : K) ^ k • toM n n e) := by
    refine ⟨_, mapMat_eq h fun _ _ _ _ => rfl, _, rfl, ?_⟩
    funext i j; simp only [toM_apply, Matrix.smul_apply, smul_eq_mul, mul_comm]
  obtain ⟨scaled, e1, hscaled⟩ := hA
  rw [e1, Res.ok_bind, h.rows, h.cols, hf.wmul] at hr
  by_cases hn : n = 0
  · subst hn; cases hr
  have hn : 0 < n := by omega
  rw [Util.eye_eq hn hn hf, Res.ok_bind, Res.ok_bind] at hr
  obtain ⟨s, h2, h3⟩ := Res.bind_eq_ok.1 hr
  set S : Matrix (Fin n) (Fin n) K := (1/2 : K) ^ k • toM n n e
  have hone : Stores (Mat.ofFn n n fun r c => if r = c then (1 : K) else 0) (1 : Matrix (Fin n) (Fin n) K) :=
    ⟨_, rfl, toM_one⟩
  have key := whileFuel_inv_ok (fun s : ExpmState K =>
      ∃ t, s.start = 1 + t * (n * n) ∧ s.facInv = (((t * (n * n)).factorial : K)⁻¹) ∧ Stores s.mtk (S ^ (t * (n * n))) ∧
        Stores s.ret (taylor S (t * (n * n))) ∧ (t = 0 → s.diff = accuracy * accuracy * (1/2) ^ k * (1/2) ^ k + 1))
    ⟨0, by simp, by simp, by simpa using hone, by simpa [taylor_zero] using hone, fun _ => rfl⟩ ?_ h2
  · obtain ⟨⟨t, -, hfac, -, hret, hd⟩, hend⟩ := key
    refine ⟨k, t, h1, ?_, ?_⟩
    · by_contra h0
      have h0 : t = 0 := by omega
      subst h0
      rw [if_pos] at hend
      · obtain ⟨_, _, hend⟩ := Res.bind_eq_ok.1 hend
        obtain ⟨_, _, hend⟩ := Res.bind_eq_ok.1 hend
        obtain ⟨_, _, hend⟩ := Res.bind_eq_ok.1 hend
        obtain ⟨_, _, hend⟩ := Res.bind_eq_ok.1 hend
        obtain ⟨_, _, hend⟩ := Res.bind_eq_ok.1 hend
        obtain ⟨_, _, hend⟩ := Res.bind_eq_ok.1 hend
        obtain ⟨_, _, hend⟩ := Res.bind_eq_ok.1 hend
        obtain ⟨_, _, hend⟩ := Res.bind_eq_ok.1 hend
        cases hend
      · refine ⟨?_, ?_⟩
        · rw [hd rfl]; exact lt_add_one _
        · rw [hfac]
          cases hh : isz _
          · rfl
          · exact absurd ((hz _).1 hh) (fac_ne _)
    · obtain ⟨B, e2, hB⟩ := squarings hf hret k
      rw [e2] at h3
      injection h3 with h3
      subst h3
      obtain ⟨E, rfl, hE⟩ := hB
      exact ⟨(ofFn_holds hf E).wf, hE ▸ (ofFn_rep hf E).is⟩
  · rintro s s' ⟨t, hst, hfac, hmtk, hret, hd⟩ hstep
    split at hstep
    · rw [Mat.new_eq hf, Res.ok_bind, hst, hfac] at hstep
      have hzero : Stores (Mat.ofFn n n fun _ _ => (0 : K)) (0 : Matrix (Fin n) (Fin n) K) := ⟨_, rfl, rfl⟩
      obtain ⟨m', a', e2, hm', ha'⟩ := expmBatch_eq hz hf hscaled hmtk hzero (n * n)
      rw [e2, Res.ok_bind] at hstep
      dsimp only at hstep
      obtain ⟨r', e3, hr'⟩ := hret.addAssign hf ha'
      rw [e3, Res.ok_bind] at hstep
      obtain ⟨_, _, hstep⟩ := Res.bind_eq_ok.1 hstep
      obtain ⟨_, _, hstep⟩ := Res.bind_eq_ok.1 hstep
      obtain ⟨_, _, hstep⟩ := Res.bind_eq_ok.1 hstep
      obtain ⟨_, _, hstep⟩ := Res.bind_eq_ok.1 hstep
      obtain ⟨_, _, hstep⟩ := Res.bind_eq_ok.1 hstep
      injection hstep with hstep
      injection hstep with hstep
      subst hstep
      have ht : t * (n * n) + n * n = (t + 1) * (n * n) := by ring
      refine ⟨t + 1, ?_, ?_, ?_, ?_, fun h => absurd h (by omega)⟩
      · dsimp only; rw [← ht]; omega
      · rw [← ht]
      · rw [← ht]; exact hm'
      · rw [← ht]; convert hr' using 1; abel
    · cases hstep


theorem log2_ok [Archimedean K] {absf : K → K} (ha : ∀ x, 0 ≤ absf x) {A : Mat K} {n m : Nat} {e} (h : A.Holds n m e) :
    ∃ k N, ∀ fuel, N ≤ fuel → log2Ceil absf (1/2) A.toMB fuel = .ok (k, (1/2) ^ k) := by
  have hx : ∃ x, infNorm absf A.toMB = .ok x := by
    by_cases h0 : n = 0 ∨ m = 0
    · exact ⟨_, (C44_inf_matrix_partial ha h).1 h0⟩
    · obtain ⟨x, hx, -⟩ := (C44_inf_matrix_partial ha h).2 (by omega) (by omega)
      exact ⟨x, hx⟩
  obtain ⟨x, hx⟩ := hx
  obtain ⟨k, N, h1, -⟩ := C45_halvings hx
  exact ⟨k, N, h1⟩

include hz in
/-- C55: a non-square or empty argument throws `invalid_argument`. -/
theorem C55_throws [Archimedean K] {absf sqrt : K → K} (ha : ∀ x, 0 ≤ absf x) {A : Mat K} {n m : Nat} {e} (h : A.Holds n m e)
    (hnm : n ≠ m ∨ n = 0) (accuracy : K) :
    ∃ N, ∀ fuel, N ≤ fuel → expm isz absf sqrt (1/2) A.toMB accuracy fuel = .throw .invalidArgument := by
  obtain ⟨k, N, h1⟩ := log2_ok ha h
  refine ⟨N + 1, fun fuel hfu => ?_⟩
  have hf := h.rep.fits
  unfold expm
  rw [h1 fuel (by omega), Res.ok_bind]
  dsimp only
  have : Ops.mulS A.toMB ((1/2 : K) ^ k) = .ok (Mat.ofFn n m fun r c => e r c * (1/2) ^ k) :=
    mapMat_eq h.rep fun _ _ _ _ => rfl
  rw [this, Res.ok_bind, h.rep.rows, h.rep.cols]
  by_cases hn : n = 0
  · subst hn; rfl
  by_cases hm : m = 0
  · subst hm; unfold Util.eye; rw [if_neg hn]; rfl
  rw [Util.eye_eq (by omega) (by omega) hf, Res.ok_bind, Res.ok_bind]
  obtain ⟨fu, rfl⟩ : ∃ fu, fuel = fu + 1 := ⟨fuel - 1, by omega⟩
  rw [whileFuel]
  have hone : isz (1 : K) = false := by
    cases hh : isz 1
    · rfl
    · exact absurd ((hz _).1 hh) one_ne_zero
  dsimp only
  rw [if_pos ⟨lt_add_one _, hone⟩, Mat.new_eq hf, Res.ok_bind]
  by_cases hb : wmul n n = 0
  · rw [hb]
    have : expmBatch isz (Mat.ofFn n m fun r c => e r c * (1/2) ^ k) 1 0 (Mat.ofFn n m fun r c => if r = c then (1 : K) else 0)
        (Mat.ofFn n m fun _ _ => 0) 1 = .ok ((Mat.ofFn n m fun r c => if r = c then (1 : K) else 0), (Mat.ofFn n m fun _ _ => 0), 1, false) := rfl
    rw [this, Res.ok_bind]
    dsimp only
    rw [addAssign_self (ofFn_rep hf _), Res.ok_bind]
    have : Ops.mul (Mat.ofFn n m fun _ _ => (0 : K)).toMB (Mat.ofFn n m fun _ _ => (0 : K)).toMB = .throw .invalidArgument := by
      unfold Ops.mul
      rw [if_pos]
      show m ≠ n
      omega
    rw [this]; rfl
  have hb : 0 < wmul n n := by omega
  have : ∀ E, expmBatch isz (Mat.ofFn n m fun r c => e r c * (1/2) ^ k) 1 (wmul n n) (Mat.ofFn n m fun r c => if r = c then (1 : K) else 0) E 1 =
      .throw .invalidArgument := by
    intro E
    unfold expmBatch
    rw [forRange_lt hb, if_neg Bool.false_ne_true]
    have h1' : ((1 + 0 : Nat) : K) ≠ 0 := by simp
    rw [cdiv_ok _ h1', Res.ok_bind]
    have : (1 : K) * (1 / ((1 + 0 : Nat) : K)) = 1 := by simp
    dsimp only
    rw [this, hone, if_neg Bool.false_ne_true]
    have : Ops.mul (Mat.ofFn n m fun r c => if r = c then (1 : K) else 0).toMB (Mat.ofFn n m fun r c => e r c * (1/2) ^ k).toMB =
        .throw .invalidArgument := by
      unfold Ops.mul
      rw [if_pos]
      show m ≠ n
      omega
    rw [this]; rfl
  rw [this]; rfl

omit [IsStrictOrderedRing K] in
/-- `div` of a zero matrix by a non-singular one is zero, whatever `inverse` makes of it. -/
theorem div_zero_num (hz : ∀ x, isz x = true ↔ x = 0) {A B : MB K} {n : Nat} (hA : A.Is (0 : Matrix (Fin n) (Fin n) K)) {M : Matrix (Fin n) (Fin n) K}
    (hB : B.Is M) (hM : M.det ≠ 0) : Yields (Lin.div isz A B) (0 : Matrix (Fin n) (Fin n) K) := by
  obtain ⟨M', hM'⟩ := inverse_some hz hB hM
  exact (C52_div isz hA hM').congr (Matrix.zero_mul _)

include hz in
/-- C55: the exponential of the zero matrix is the identity, for every non-negative accuracy. -/
theorem C55_zero [Archimedean K] {absf sqrt : K → K} (ha : ∀ x, 0 ≤ absf x) (ha0 : absf 0 = 0) (hs0 : sqrt 0 = 0) {A : Mat K} {n : Nat} (hn : 0 < n)
    (h : A.Holds n n fun _ _ => (0 : K)) {accuracy : K} (hacc : 0 ≤ accuracy) :
    ∃ N, ∀ fuel, N ≤ fuel → Yields (expm isz absf sqrt (1/2) A.toMB accuracy fuel) (1 : Matrix (Fin n) (Fin n) K) := by
  have hf := h.rep.fits
  obtain ⟨x, hx, ⟨i, hi, hxi⟩, -⟩ := (C44_inf_matrix_partial ha h).2 hn hn
  have hx0 : x = 0 := by rw [hxi]; simp [ha0]
  refine ⟨2, fun fuel hfu => ?_⟩
  obtain ⟨fu, rfl⟩ : ∃ fu, fuel = fu + 2 := ⟨fuel - 2, by omega⟩
  have hlog : log2Ceil absf (1/2) A.toMB (fu + 2) = .ok (0, 1) := by
    unfold log2Ceil
    rw [hx, Res.ok_bind, hx0]
    exact whileFuel_none (by dsimp only; rw [if_neg (by rw [zero_mul]; exact not_lt.2 zero_le_one)]) _
  unfold expm
  rw [hlog, Res.ok_bind]
  dsimp only
  have : Ops.mulS A.toMB (1 : K) = .ok (Mat.ofFn n n fun _ _ => 0 * 1) := mapMat_eq h.rep fun _ _ _ _ => rfl
  rw [this, Res.ok_bind, h.rep.rows, h.rep.cols, hf.wmul, Util.eye_eq hn hn hf, Res.ok_bind, Res.ok_bind]
  have hS : Stores (Mat.ofFn n n fun _ _ => (0 : K) * 1) (0 : Matrix (Fin n) (Fin n) K) := ⟨_, rfl, by funext i j; simp [toM_apply]⟩
  have hzero : Stores (Mat.ofFn n n fun _ _ => (0 : K)) (0 : Matrix (Fin n) (Fin n) K) := ⟨_, rfl, rfl⟩
  have hone : Stores (Mat.ofFn n n fun r c => if r = c then (1 : K) else 0) (1 : Matrix (Fin n) (Fin n) K) := ⟨_, rfl, toM_one⟩
  have h1f : isz (1 : K) = false := by
    cases hh : isz 1
    · rfl
    · exact absurd ((hz _).1 hh) one_ne_zero
  have ht : ∀ p, taylor (0 : Matrix (Fin n) (Fin n) K) p = 1 := by
    intro p
    induction p with
    | zero => exact taylor_zero _
    | succ p ih => rw [taylor_succ, ih, zero_pow (by omega), smul_zero, add_zero]
  obtain ⟨m', a', e2, hm', ha'⟩ := expmBatch_eq hz hf (p := 0) hS (by simpa using hone) hzero (n * n)
  rw [ht, ht, sub_self, add_zero] at ha'
  obtain ⟨r', e3, hr'⟩ := hone.addAssign hf ha'
  rw [add_zero] at hr'
  obtain ⟨q, e4, hq⟩ := ha'.mul hf ha'
  rw [Matrix.mul_zero] at hq
  obtain ⟨d, e5, hd⟩ := hr'.mul hf hr'
  rw [Matrix.mul_one] at hd
  have e6 : ∃ d', addS d.toMB accuracy = .ok d' ∧ d'.toMB.Is (1 + Matrix.of fun _ _ => accuracy : Matrix (Fin n) (Fin n) K) := by
    obtain ⟨E, rfl, hE⟩ := hd
    refine ⟨_, mapMat_eq (ofFn_rep hf E) fun _ _ _ _ => rfl, ⟨_, ofFn_rep hf _, ?_⟩⟩
    rw [← hE]; rfl
  obtain ⟨d', e6, hd'⟩ := e6
  have hdet : (1 + Matrix.of fun _ _ => accuracy : Matrix (Fin n) (Fin n) K).det ≠ 0 := by
    have : (Matrix.of fun _ _ => accuracy : Matrix (Fin n) (Fin n) K) =
        Matrix.replicateCol Unit (fun _ => accuracy) * Matrix.replicateRow Unit (fun _ => (1 : K)) := by
      funext i j; simp [Matrix.mul_apply]
    rw [this, Matrix.det_one_add_replicateCol_mul_replicateRow]
    have : (fun _ => (1 : K)) ⬝ᵥ (fun _ : Fin n => accuracy) = n * accuracy := by simp [dotProduct]
    rw [this]
    have : 0 ≤ (n : K) * accuracy := mul_nonneg (Nat.cast_nonneg n) hacc
    exact ne_of_gt (by linarith)
  obtain ⟨rel, e7, hrel⟩ := Stores.of_yields (div_zero_num hz (hq.is hf) hd' hdet)
  have e8 : squareNorm sqrt rel.toMB = .ok 0 := by
    obtain ⟨E, rfl, hE⟩ := hrel
    rw [(C44_square_norm sqrt (v := []) (p := 0) (f := fun _ => 0) ⟨allocMax_pos, rfl, fun _ h => absurd h (by omega)⟩ (ofFn_rep hf E).toRepAt).2]
    have : ∀ (i j : Fin n), E i j = 0 := fun i j => congrFun (congrFun hE i) j
    simp [this, hs0]
  rw [whileFuel_some (s' := ⟨1 + n * n, m', r', (((0 + n * n).factorial : K)⁻¹), 0⟩)]
  · rw [whileFuel_none]
    · rw [Res.ok_bind]
      obtain ⟨E, rfl, hE⟩ := hr'
      exact ⟨_, rfl, (ofFn_holds hf E).wf, hE ▸ (ofFn_rep hf E).is⟩
    · dsimp only
      refine if_neg ?_
      rintro ⟨h', -⟩
      have : 0 ≤ accuracy * accuracy * 1 * 1 := by rw [mul_one, mul_one]; exact mul_self_nonneg accuracy
      exact absurd h' (not_lt.2 this)
  · have e2' : expmBatch isz (Mat.ofFn n n fun _ _ => (0 : K) * 1) 1 (n * n) (Mat.ofFn n n fun r c => if r = c then (1 : K) else 0)
        (Mat.ofFn n n fun _ _ => 0) 1 = .ok (m', a', (((0 + n * n).factorial : K)⁻¹), false) := by
      simpa using e2
    dsimp only
    rw [if_pos ⟨lt_add_one _, h1f⟩, Mat.new_eq hf, Res.ok_bind, e2', Res.ok_bind]
    dsimp only
    rw [e3, Res.ok_bind, e4, Res.ok_bind, e5, Res.ok_bind, e6, Res.ok_bind, e7, Res.ok_bind, e8]
    rfl

end

example : expm (fun x : ℚ => decide (x = 0)) (|·|) (fun x => x) (1/2) (⟨2, 2, [0, 1, 0, 0]⟩ : Mat ℚ).toMB (1/10) 4 =
    .ok ⟨2, 2, [1, 1, 0, 1]⟩ := by decide +kernel
example : expm (fun x : ℚ => decide (x = 0)) (|·|) (fun x => x) (1/2) (⟨1, 1, [2]⟩ : Mat ℚ).toMB 1 4 =
    .ok ⟨1, 1, [4]⟩ := by decide +kernel

end Malg
