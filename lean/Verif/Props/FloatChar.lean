import Verif.Props.FloatAcc
import Verif.Props.FloatNorm
import Verif.Props.IntInv
import Mathlib.Analysis.Complex.Basic
import Mathlib.LinearAlgebra.Matrix.ToLinearEquiv
/-!
# Property C133: characteristic polynomials in floating point
-/
namespace Malg
open Ops Lin Control Polynomial Matrix

section
variable {T : Type} [Zero T] [One T] [Add T] [Sub T] [Mul T] [Neg T] [NatCast T] [CDiv T] {n : Nat}

/-- The element that `t / static_cast<double>(m)` is, when the division is defined. -/
def quot (t : T) (m : Nat) : T := match cdiv t (m : T) with | .ok z => z | _ => 0

/-- The matrix `B` and the number `last_c` of `poly` after `k + 1` coefficients, `control.hpp:268-281`. -/
def levStep (n : Nat) (e : Nat → Nat → T) : Nat → (Nat → Nat → T) × T
  | 0 => (e, lsum n fun i => e i i)
  | k + 1 =>
    let b : Nat → Nat → T := fun i j => lsum n fun l => e i l * ((levStep n e k).1 l j - (if l = j then 1 else 0) * (levStep n e k).2)
    (b, quot (lsum n fun i => b i i) (k + 2))

/-- What `poly` computes of a square matrix. -/
theorem polyMat_tables {A : MB T} {e : Nat → Nat → T} (hA : Rep A n n e) (hn : 2 ≤ n)
    (hdiv : ∀ (t : T) (m : Nat), 2 ≤ m → m ≤ n → ∃ z, cdiv t (m : T) = .ok z) :
    polyMat A = .ok (vtab (n + 1) fun i => if i = 0 then 1 else -(levStep n e (i - 1)).2) := by
  have hf := hA.fits
  have hnn : n + 1 ≤ n * n := by nlinarith
  have hna : n + 1 < allocMax := lt_of_le_of_lt hnn hf.1
  have hW := allocMax_lt_W
  unfold polyMat polyMatD
  have hpos : 0 < n * n := by positivity
  rw [hA.size, if_neg (by omega), hA.rows, hA.cols, if_neg (by omega)]
  have hsq : Util.isSquare A = true := by simp [Util.isSquare, hA.rows, hA.cols]
  rw [hsq, Bool.not_true, if_neg Bool.false_ne_true]
  dsimp only
  rw [wadd_eq (by omega), vnew_ok (by omega), Res.ok_bind, Mat.ofMB_eq hA, Res.ok_bind]
  dsimp only [id]
  have hB := ofFn_rep hf e
  rw [C41_trace_partial hB.toRepAt le_rfl, Res.ok_bind, replicate_eq_vtab, vset_vtab (by omega), Res.ok_bind,
    vset_vtab (by omega), Res.ok_bind]
  show (Util.identity n (1 : T) >>= _) = _
  have hI := ofFn_rep hf (fun r c => if r = c then (1 : T) else 0)
  rw [show Util.identity n (1 : T) = _ from Util.eye_eq (by omega : 0 < n) (by omega) hf 1, Res.ok_bind]
  generalize hId : Mat.ofFn n n (fun r c => if r = c then (1 : T) else 0) = I at hI
  obtain ⟨s, h1, h2, -, -⟩ := forRange_inv (lo := 2) (hi := n + 1) (by omega)
    (fun k (s : List T × Mat T × T) =>
      s.1 = vtab (n + 1) (fun i => if i = 0 then 1 else if i < k then -(levStep n e (i - 1)).2 else 0) ∧
      Rep s.2.1.toMB n n (levStep n e (k - 2)).1 ∧ s.2.2 = (levStep n e (k - 2)).2)
    (s := (vtab (n + 1) (Function.update (Function.update (fun _ => (0 : T)) 0 1) 1 (- lsum n fun i => e i i)), Mat.ofFn n n e,
      lsum n fun i => e i i))
    (body := fun m s => do
      let J ← mulS I.toMB s.2.2
      let D ← sub s.2.1.toMB J.toMB
      let P ← mul A D.toMB
      let B := (s.2.1.moveAssign P).1
      let tr ← trace B.toMB
      let last ← cdiv tr (m : T)
      let c ← vset s.1 m (-last)
      return (c, B, last))
    (by
      refine ⟨?_, hB, rfl⟩
      apply vtab_congr; intro i hi
      by_cases h1 : i = 1
      · subst h1; rw [Function.update_self, if_neg (by omega), if_pos (by omega)]; rfl
      · rw [Function.update_of_ne h1]
        by_cases h0 : i = 0
        · subst h0; rw [Function.update_self, if_pos rfl]
        · rw [Function.update_of_ne h0, if_neg h0, if_neg (by omega)])
    (by
      rintro k ⟨c, B, last⟩ hm1 hm2 ⟨hc, hBm, hl⟩
      dsimp only at hc hBm hl
      subst hc hl
      obtain ⟨J, eJ, hJ⟩ := (C33_scalar hI (levStep n e (k - 2)).2).2.2.1
      obtain ⟨D, eD, hD⟩ := (C33_add_sub hBm hJ.rep).2
      obtain ⟨P, eP, hP⟩ := C35_entries hA.toRepAt hD.rep.toRepAt hf
      obtain ⟨k, rfl⟩ : ∃ l, k = l + 2 := ⟨k - 2, by omega⟩
      rw [Nat.add_sub_cancel] at *
      have hPr : Rep P.toMB n n (levStep n e (k + 1)).1 := hP.rep
      obtain ⟨z, hz⟩ := hdiv (lsum n fun i => (levStep n e (k + 1)).1 i i) (k + 2) (by omega) (by omega)
      have hz2 : z = (levStep n e (k + 1)).2 := by
        show z = quot (lsum n fun i => (levStep n e (k + 1)).1 i i) (k + 2)
        unfold quot; rw [hz]
      dsimp only
      rw [eJ, Res.ok_bind, eD, Res.ok_bind, eP, Res.ok_bind, moveAssign_fst (by rw [show P.size = n * n from hP.rep.size]; exact hpos),
        C41_trace_partial hPr.toRepAt le_rfl, Res.ok_bind, hz, Res.ok_bind, vset_vtab (by omega), Res.ok_bind]
      refine ⟨_, rfl, ?_, hPr, hz2⟩
      apply vtab_congr; intro i hi
      by_cases h : i = k + 2
      · subst h; rw [Function.update_self, if_neg (by omega), if_pos (by omega), hz2]; rfl
      · rw [Function.update_of_ne h]
        by_cases h0 : i = 0
        · rw [if_pos h0, if_pos h0]
        · rw [if_neg h0, if_neg h0]
          by_cases h2 : i < k + 2
          · rw [if_pos h2, if_pos (by omega)]
          · rw [if_neg h2, if_neg (by omega)])
  rw [h1, Res.ok_bind]
  show Res.ok s.1 = _
  rw [h2]
  congr 1
  apply vtab_congr; intro i hi
  by_cases h0 : i = 0
  · rw [if_pos h0, if_pos h0]
  · rw [if_neg h0, if_neg h0, if_pos (by omega)]

end

section
variable {T K : Type} [Zero T] [One T] [Add T] [Sub T] [Mul T] [CDiv T] [Field K] [LinearOrder K] [IsStrictOrderedRing K]
  {val : T → K} {u η : K} (R : Rounds val u η)
include R

omit [One T] in
theorem Near.lsum {n a : Nat} {x : Nat → T} {ξ X : Nat → K} {ε : K} (hε : 0 ≤ ε) (hx : ∀ i, i < n → Near val u a ε (x i) (ξ i) (X i)) :
    Near val u (a + n) ((1 + u) ^ n * (n * ε)) (lsum n x) (∑ i ∈ Finset.range n, ξ i) (∑ i ∈ Finset.range n, X i) := by
  have hu := R.u_nonneg
  induction n with
  | zero => exact ⟨by simp [Malg.lsum, R.zero], by simp, by simp⟩
  | succ n ih =>
    have h1 : (1 : K) ≤ (1 + u) ^ n := one_le_pow₀ (by linarith)
    rw [Finset.sum_range_succ, Finset.sum_range_succ]
    refine ((ih fun i hi => hx i (by omega)).add R ((hx n (by omega)).mono hu (by omega : a ≤ a + n) (ε' := (1 + u) ^ n * ε) ?_ le_rfl)).mono hu le_rfl ?_ le_rfl
    · nlinarith
    · rw [pow_succ]; push_cast; exact le_of_eq (by ring)

omit [One T] in
theorem Near.quot [NatCast T] {k m : Nat} {x : T} {ξ X ε : K} (hx : Near val u k ε x ξ X) (hm : 1 ≤ m) (hv : val (m : T) = m) :
    (∃ z, cdiv x (m : T) = .ok z) ∧ Near val u (k + 1) ((1 + u) * ε + η) (Malg.quot x m) (ξ / m) (X / m) := by
  have hu := R.u_nonneg
  have hm1 : (1 : K) ≤ m := by exact_mod_cast hm
  have hm0 : (0 : K) < m := by linarith
  obtain ⟨z, hz, he⟩ := R.div x (m : T) (by rw [hv]; exact hm0.ne')
  refine ⟨⟨z, hz⟩, ?_⟩
  have hq : Malg.quot x m = z := by unfold Malg.quot; rw [hz]
  rw [hq]
  rw [hv] at he
  have hS : |ξ / m| ≤ X / m := by rw [abs_div, abs_of_pos hm0]; exact (div_le_div_iff_of_pos_right hm0).2 hx.size
  refine ⟨?_, hS, add_nonneg (mul_nonneg (by linarith) hx.nonneg) R.η_nonneg⟩
  have e1 : val x / m = (val x - ξ) / m + ξ / m := by ring
  have h0 : |(val x - ξ) / m| ≤ ((1 + u) ^ k - 1) * (X / m) + ε := by
    rw [abs_div, abs_of_pos hm0]
    have := (div_le_div_iff_of_pos_right hm0).2 hx.err
    refine this.trans ?_
    rw [add_div, mul_div_assoc]
    have : ε / m ≤ ε := div_le_self hx.nonneg hm1
    linarith
  have h2 : |val x / m| ≤ |(val x - ξ) / m| + X / m := by
    rw [e1]; exact (abs_add_le _ _).trans (add_le_add le_rfl hS)
  have e2 : val z - ξ / m = (val z - val x / m) + (val x - ξ) / m := by ring
  have h3 : |val z - ξ / m| ≤ (u * |val x / m| + η) + |(val x - ξ) / m| := by
    rw [e2]; exact (abs_add_le _ _).trans (add_le_add he le_rfl)
  have h4 := mul_le_mul_of_nonneg_left h2 hu
  have h5 := mul_le_mul_of_nonneg_left h0 (by linarith : 0 ≤ 1 + u)
  rw [pow_succ]
  linarith

omit R in
/-- The matrices and numbers of `levStep` with all signs chosen so that nothing cancels. -/
def levAbs {n : Nat} (A : Matrix (Fin n) (Fin n) K) : Nat → Matrix (Fin n) (Fin n) K × K
  | 0 => (A, A.trace)
  | k + 1 =>
    let B := A * ((levAbs A k).1 + (levAbs A k).2 • 1)
    (B, B.trace / (k + 2 : ℕ))

omit R in
/-- The underflow of `levStep`. -/
def levUnder (n : Nat) (μ : K) : Nat → K
  | 0 => 0
  | k + 1 => μ * ((n + 1) * levUnder n μ k + 2) + n

omit R in
theorem levUnder_nonneg (n : Nat) {μ : K} (hμ : 0 ≤ μ) (k : Nat) : 0 ≤ levUnder n μ k := by
  induction k with
  | zero => exact le_rfl
  | succ k ih => unfold levUnder; positivity

omit R in
theorem levUnder_le (n : Nat) {μ : K} (hμ : 0 ≤ μ) (k : Nat) : levUnder n μ k + 2 ≤ 2 * (2 * ((n + 1) * (μ + 1))) ^ k := by
  have hn : (0 : K) ≤ n := Nat.cast_nonneg n
  induction k with
  | zero => simp [levUnder]
  | succ k ih =>
    have h0 := levUnder_nonneg n hμ k
    set Z := levUnder n μ k
    have hs : levUnder n μ (k + 1) = μ * ((n + 1) * Z + 2) + n := rfl
    rw [hs, pow_succ]
    have hq : (1 : K) ≤ (n + 1) * (μ + 1) := by nlinarith
    have h1 := mul_le_mul_of_nonneg_right ih (by linarith : (0 : K) ≤ 2 * ((n + 1) * (μ + 1)))
    refine le_trans ?_ (h1.trans (le_of_eq (by ring)))
    nlinarith [mul_nonneg hn hμ, mul_nonneg h0 hμ, mul_nonneg h0 hn, mul_nonneg (mul_nonneg h0 hn) hμ]

/-- Entry errors of the steps. -/
theorem levStep_near [NatCast T] (one : val 1 = 1) {n : Nat} {e : Nat → Nat → T} {μ : K} (hμ : ∀ i : Fin n, ∑ j : Fin n, |val (e i j)| ≤ μ)
    (hn : 1 ≤ n) (hcast : ∀ m : Nat, 2 ≤ m → m ≤ n → val (m : T) = m) {k : Nat} (hk : k + 1 ≤ n) :
    (∀ i j : Fin n, Near val u ((2 * n + 3) * k) ((1 + u) ^ ((2 * n + 3) * k) * levUnder n μ k * η) ((levStep n e k).1 i j)
      (((toM n n e).map val * adjCoeff ((toM n n e).map val) (n - (k + 1))) i j) ((levAbs ((toM n n e).map (|val ·|)) k).1 i j)) ∧
    Near val u ((2 * n + 3) * k + n + 1) ((1 + u) ^ ((2 * n + 3) * k + n + 1) * (n * levUnder n μ k + 1) * η) (levStep n e k).2
      (-((toM n n e).map val).charpoly.coeff (n - (k + 1))) (levAbs ((toM n n e).map (|val ·|)) k).2 := by
  have hu := R.u_nonneg
  have hη := R.η_nonneg
  have h1u : (1 : K) ≤ 1 + u := by linarith
  have hμ0 : 0 ≤ μ := (Finset.sum_nonneg fun j _ => abs_nonneg _).trans (hμ ⟨0, hn⟩)
  set Z := (toM n n e).map val with hZ
  set Y := (toM n n e).map (|val ·|) with hY
  -- the trace of a matrix
  have htr : ∀ {a : Nat} {ε : K} {b : Nat → Nat → T} {M N : Matrix (Fin n) (Fin n) K}, 0 ≤ ε →
      (∀ i j : Fin n, Near val u a ε (b i j) (M i j) (N i j)) →
      Near val u (a + n) ((1 + u) ^ n * (n * ε)) (lsum n fun i => b i i) M.trace N.trace := by
    intro a ε b M N hε h
    have := Near.lsum R (n := n) (a := a) (x := fun i => b i i) (ξ := fun i => tab M i i) (X := fun i => tab N i i) hε
      (fun i hi => by rw [tab_lt _ hi hi, tab_lt _ hi hi]; exact h ⟨i, hi⟩ ⟨i, hi⟩)
    rw [Finset.sum_range, Finset.sum_range] at this
    simp only [tab_lt _ (Fin.is_lt _) (Fin.is_lt _)] at this
    exact this
  induction k with
  | zero =>
    have hb : ∀ i j : Fin n, Near val u 0 0 (e i j) ((Z * adjCoeff Z (n - 1)) i j) (Y i j) := by
      intro i j
      rw [adjCoeff_top Z hn, Matrix.mul_one]
      exact Near.exact _
    have ht := htr le_rfl hb
    have e1 : (Z * adjCoeff Z (n - 1)).trace = -Z.charpoly.coeff (n - 1) := by
      rw [trace_mul_adjCoeff Z (m := 1) hn]; simp
    rw [e1] at ht
    refine ⟨fun i j => ?_, ?_⟩
    · simpa [levUnder, levStep, levAbs] using hb i j
    · refine ht.mono hu (by omega) ?_ le_rfl
      rw [mul_zero, mul_zero]
      have := levUnder_nonneg n hμ0 0
      positivity
  | succ k ih =>
    obtain ⟨hB, hl⟩ := ih (by omega)
    have hz0 := levUnder_nonneg n hμ0 k
    have hz1 := levUnder_nonneg n hμ0 (k + 1)
    set b := (levStep n e k).1 with hb
    set t := (levStep n e k).2 with ht
    set P := (levAbs Y k).1 with hP
    set s := (levAbs Y k).2 with hs
    set L := (2 * n + 3) * k + n + 1 with hL
    have hadj : Z * adjCoeff Z (n - (k + 1)) - (-Z.charpoly.coeff (n - (k + 1))) • (1 : Matrix (Fin n) (Fin n) K) = adjCoeff Z (n - (k + 2)) := by
      have : n - (k + 1) = (n - (k + 2)) + 1 := by omega
      rw [adjCoeff_rec Z (n - (k + 2)), this, neg_smul, sub_neg_eq_add]
    -- the difference
    have hD : ∀ i j : Fin n, Near val u (L + 2) ((1 + u) ^ (L + 2) * ((n + 1) * levUnder n μ k + 2) * η)
        (b i j - (if (i : Nat) = j then 1 else 0) * t) (adjCoeff Z (n - (k + 2)) i j) ((P + s • (1 : Matrix (Fin n) (Fin n) K)) i j) := by
      intro i j
      have h1 : Near val u (L + 1) ((1 + u) ^ (L + 1) * (n * levUnder n μ k + 1 + 1) * η) ((if (i : Nat) = j then 1 else 0) * t)
          (((-Z.charpoly.coeff (n - (k + 1))) • (1 : Matrix (Fin n) (Fin n) K)) i j) ((s • (1 : Matrix (Fin n) (Fin n) K)) i j) := by
        have h := Near.mul' R (y := if (i : Nat) = j then (1 : T) else 0) hl
        have hv : val (if (i : Nat) = j then (1 : T) else 0) = (1 : Matrix (Fin n) (Fin n) K) i j := by
          rw [Matrix.one_apply]
          by_cases h : i = j
          · rw [if_pos h, if_pos (by rw [h]), one]
          · rw [if_neg h, if_neg (fun h' => h (Fin.ext h')), R.zero]
        have hv0 : |(1 : Matrix (Fin n) (Fin n) K) i j| = (1 : Matrix (Fin n) (Fin n) K) i j := by
          rw [Matrix.one_apply]; split <;> simp
        have hv1 : (1 : Matrix (Fin n) (Fin n) K) i j ≤ 1 := by
          rw [Matrix.one_apply]; split <;> simp
        rw [hv, hv0, mul_comm _ (-Z.charpoly.coeff (n - (k + 1))), mul_comm _ s] at h
        rw [Matrix.smul_apply, Matrix.smul_apply, smul_eq_mul, smul_eq_mul]
        refine h.mono hu le_rfl ?_ le_rfl
        have h3 := mul_le_mul_of_nonneg_left hv1 hl.nonneg
        have h4 : (1 : K) ≤ (1 + u) ^ (L + 1) := one_le_pow₀ h1u
        have h5 := mul_le_mul_of_nonneg_right h4 hη
        have h6 := mul_le_mul_of_nonneg_left h3 (by linarith : 0 ≤ 1 + u)
        rw [pow_succ (1 + u) L] at h5 ⊢
        linarith
      have h2 := ((hB i j).mono hu (by omega : (2 * n + 3) * k ≤ L + 1) (ε' := (1 + u) ^ (L + 1) * levUnder n μ k * η) (by
        have := pow_le_pow_right₀ h1u (by omega : (2 * n + 3) * k ≤ L + 1)
        have := mul_le_mul_of_nonneg_right this hz0
        exact mul_le_mul_of_nonneg_right this hη) le_rfl).sub R h1
      rw [← hadj]
      refine h2.mono hu le_rfl (le_of_eq ?_) le_rfl
      rw [pow_succ (1 + u) (L + 1)]; ring
    -- the product
    have hP' : ∀ i j : Fin n, Near val u ((2 * n + 3) * (k + 1)) ((1 + u) ^ ((2 * n + 3) * (k + 1)) * levUnder n μ (k + 1) * η)
        ((levStep n e (k + 1)).1 i j) ((Z * adjCoeff Z (n - (k + 2))) i j) ((levAbs Y (k + 1)).1 i j) := by
      intro i j
      have h := Near.lsum_mul' R (n := n) (a := L + 2) (y := fun l => e i l) (x := fun l => b l j - (if l = (j : Nat) then 1 else 0) * t)
        (ξ := fun l => tab (adjCoeff Z (n - (k + 2))) l j) (X := fun l => tab (P + s • (1 : Matrix (Fin n) (Fin n) K)) l j)
        (ε := fun _ => (1 + u) ^ (L + 2) * ((n + 1) * levUnder n μ k + 2) * η)
        (fun l hl => by rw [tab_lt _ hl j.2, tab_lt _ hl j.2]; exact hD ⟨l, hl⟩ j)
      rw [Finset.sum_range, Finset.sum_range, Finset.sum_range] at h
      simp only [tab_lt _ (Fin.is_lt _) j.2] at h
      refine Near.mono hu (h : Near val u _ _ ((levStep n e (k + 1)).1 i j) ((Z * adjCoeff Z (n - (k + 2))) i j) ((levAbs Y (k + 1)).1 i j)) ?_ ?_ le_rfl
      · rw [hL]; exact le_of_eq (by ring)
      · rw [← Finset.sum_mul]
        have h1 := mul_le_mul_of_nonneg_right (hμ i) (by positivity : 0 ≤ (1 + u) ^ (L + 2) * ((n + 1) * levUnder n μ k + 2) * η)
        have h2 := mul_le_mul_of_nonneg_left h1 (by positivity : 0 ≤ (1 + u) ^ n)
        have h3 : (1 + u) ^ (n - 1) ≤ (1 + u) ^ ((2 * n + 3) * (k + 1)) := pow_le_pow_right₀ h1u (by nlinarith [Nat.sub_le n 1])
        have h4 := mul_le_mul_of_nonneg_right h3 (mul_nonneg (Nat.cast_nonneg (α := K) n) hη)
        have e1 : (1 + u) ^ ((2 * n + 3) * (k + 1)) = (1 + u) ^ n * (1 + u) ^ (L + 2) := by rw [← pow_add, hL]; congr 1; ring
        have e2 : levUnder n μ (k + 1) = μ * ((n + 1) * levUnder n μ k + 2) + n := rfl
        rw [e2]
        rw [e1] at h4 ⊢
        linarith
    refine ⟨hP', ?_⟩
    have h1 := (htr (by positivity) hP').quot R (m := k + 2) (by omega) (hcast (k + 2) (by omega) (by omega))
    have e1 : (Z * adjCoeff Z (n - (k + 2))).trace / ((k + 2 : ℕ) : K) = -Z.charpoly.coeff (n - (k + 1 + 1)) := by
      rw [trace_mul_adjCoeff Z (m := k + 2) (by omega)]
      have : ((k + 2 : ℕ) : K) ≠ 0 := Nat.cast_ne_zero.2 (by omega)
      field_simp
    rw [e1] at h1
    refine Near.mono hu (h1.2 : Near val u _ _ (levStep n e (k + 1)).2 _ (levAbs Y (k + 1)).2) le_rfl ?_ le_rfl
    have h3 : (1 : K) ≤ (1 + u) ^ ((2 * n + 3) * (k + 1) + n + 1) := one_le_pow₀ h1u
    have h4 := mul_le_mul_of_nonneg_right h3 hη
    rw [pow_succ, pow_add] at h4 ⊢
    linarith

omit R in
/-- Without cancellation the numbers stay below those of the matrix `μ`, that is the coefficients of `1 / (1 - μ x)^n`. -/
theorem levAbs_le {n : Nat} {A : Matrix (Fin n) (Fin n) K} (hA : ∀ i j, 0 ≤ A i j) {μ : K} (hμ : ∀ i, ∑ j, A i j ≤ μ) (hμ0 : 0 ≤ μ) (k : Nat) :
    (∀ i j, 0 ≤ (levAbs A k).1 i j) ∧ (∀ i, ∑ j, (levAbs A k).1 i j ≤ (n + k).choose k * μ ^ (k + 1)) ∧ 0 ≤ (levAbs A k).2 ∧
      (levAbs A k).2 ≤ (n + k).choose (k + 1) * μ ^ (k + 1) := by
  have htr : ∀ {B : Matrix (Fin n) (Fin n) K} {β : K}, (∀ i j, 0 ≤ B i j) → (∀ i, ∑ j, B i j ≤ β) → 0 ≤ B.trace ∧ B.trace ≤ n * β := by
    intro B β h0 h1
    refine ⟨Finset.sum_nonneg fun i _ => h0 i i, ?_⟩
    have : ∑ i : Fin n, B i i ≤ ∑ _i : Fin n, β :=
      Finset.sum_le_sum fun i _ => (Finset.single_le_sum (fun j _ => h0 i j) (Finset.mem_univ i)).trans (h1 i)
    simpa [Matrix.trace] using this
  induction k with
  | zero =>
    have := htr hA hμ
    exact ⟨hA, by simpa [levAbs] using hμ, this.1, by simpa [levAbs] using this.2⟩
  | succ k ih =>
    obtain ⟨h1, h2, h3, h4⟩ := ih
    have e : (levAbs A (k + 1)).1 = A * ((levAbs A k).1 + (levAbs A k).2 • 1) := rfl
    have h5 : ∀ i j, 0 ≤ (levAbs A (k + 1)).1 i j := by
      intro i j
      rw [e, Matrix.mul_apply]
      refine Finset.sum_nonneg fun l _ => mul_nonneg (hA i l) ?_
      rw [Matrix.add_apply, Matrix.smul_apply, smul_eq_mul, Matrix.one_apply]
      have := h1 l j
      split <;> linarith
    have h6 : ∀ i, ∑ j, (levAbs A (k + 1)).1 i j ≤ (n + (k + 1)).choose (k + 1) * μ ^ (k + 1 + 1) := by
      intro i
      have h7 : ∀ l, ∑ j, ((levAbs A k).1 + (levAbs A k).2 • (1 : Matrix (Fin n) (Fin n) K)) l j ≤ (n + (k + 1)).choose (k + 1) * μ ^ (k + 1) := by
        intro l
        simp only [Matrix.add_apply, Matrix.smul_apply, smul_eq_mul, Finset.sum_add_distrib, ← Finset.mul_sum]
        have : ∑ j, (1 : Matrix (Fin n) (Fin n) K) l j = 1 := by simp [Matrix.one_apply]
        rw [this, mul_one]
        have e2 : (n + (k + 1)).choose (k + 1) = (n + k).choose k + (n + k).choose (k + 1) := Nat.choose_succ_succ (n + k) k
        rw [e2]
        push_cast
        have := h2 l
        linarith
      simp only [e, Matrix.mul_apply]
      rw [Finset.sum_comm]
      simp only [← Finset.mul_sum]
      calc _ ≤ ∑ l, A i l * ((n + (k + 1)).choose (k + 1) * μ ^ (k + 1)) := Finset.sum_le_sum fun l _ => mul_le_mul_of_nonneg_left (h7 l) (hA i l)
        _ = (∑ l, A i l) * ((n + (k + 1)).choose (k + 1) * μ ^ (k + 1)) := (Finset.sum_mul _ _ _).symm
        _ ≤ μ * ((n + (k + 1)).choose (k + 1) * μ ^ (k + 1)) := mul_le_mul_of_nonneg_right (hμ i) (by positivity)
        _ = _ := by rw [pow_succ μ (k + 1)]; ring
    obtain ⟨h8, h9⟩ := htr h5 h6
    have hk : (0 : K) < (k + 2 : ℕ) := by exact_mod_cast Nat.succ_pos _
    refine ⟨h5, h6, div_nonneg h8 hk.le, ?_⟩
    show (levAbs A (k + 1)).1.trace / ((k + 2 : ℕ) : K) ≤ _
    rw [div_le_iff₀ hk]
    refine h9.trans (le_of_eq ?_)
    have e3 : (n + (k + 1)).choose (k + 1 + 1) * (k + 1 + 1) = (n + (k + 1)).choose (k + 1) * n := by
      rw [Nat.choose_succ_right_eq]; congr 1; omega
    have e4 : (((n + (k + 1)).choose (k + 1 + 1) : ℕ) : K) * ((k + 2 : ℕ) : K) = ((n + (k + 1)).choose (k + 1) : ℕ) * (n : K) := by
      exact_mod_cast e3
    linear_combination -(μ ^ (k + 1 + 1)) * e4

omit [One T] in
theorem sub_mul_near {x y z : T} (hz : val z = 1) (hx : val x = 0) :
    |val (x - y * z) - -val y| ≤ ((1 + u) ^ 2 - 1) * |val y| + (1 + u) * η := by
  have hu := R.u_nonneg
  have h1 := R.mul y z
  have h2 := R.sub x (y * z)
  rw [hz, mul_one] at h1
  rw [hx, zero_sub, abs_neg] at h2
  have h3 : |val (y * z)| ≤ (1 + u) * |val y| + η := by
    have e : val (y * z) = (val (y * z) - val y) + val y := by ring
    rw [e]
    have := abs_add_le (val (y * z) - val y) (val y)
    linarith
  have e : val (x - y * z) - -val y = (val (x - y * z) - -val (y * z)) - (val (y * z) - val y) := by ring
  rw [e]
  have h4 := abs_sub (val (x - y * z) - -val (y * z)) (val (y * z) - val y)
  have h5 := mul_le_mul_of_nonneg_left h3 hu
  nlinarith

omit R [Add T] [Field K] [LinearOrder K] [IsStrictOrderedRing K] in
theorem polyMat_single [Add T] [Neg T] [NatCast T] {A : MB T} {e : Nat → Nat → T} (hA : Rep A 1 1 e) : polyMat A = .ok [1, 0 - e 0 0 * 1] := by
  have h2 : (2 : Nat) < allocMax := by rw [allocMax_eq]; decide
  unfold polyMat polyMatD
  rw [hA.size, if_neg (by omega), hA.rows, if_pos (Or.inl rfl), initCoeff' (by omega)]
  unfold polyLoop
  rw [forRange_succ_last (Nat.le_refl 0), forRange_self, Res.ok_bind, forRange_succ_last (Nat.le_refl 0), forRange_self, Res.ok_bind, hA.lin' (by omega)]
  rfl

/-- C133, the part that holds: `poly(A)` are the coefficients of the characteristic polynomial, the one of `x^(n-i)` up to `(2 n + 3) i` roundings relative to
`(n+i-1 choose i) μ^i`, where `μ` is the largest sum of absolute values in a row; that is the largest value the coefficient can have, up to the
binomial. Missing: a small relative error, see `C133_relative_false`. -/
theorem C133_poly_partial [Neg T] [NatCast T] (one : val 1 = 1) (neg : ∀ x, val (-x) = -val x) {A : MB T} {n : Nat} {M : Matrix (Fin n) (Fin n) T} (hA : A.Is M)
    (hcast : ∀ m : Nat, 2 ≤ m → m ≤ n → val (m : T) = m) {μ : K} (hμ0 : 0 ≤ μ) (hμ : ∀ i, ∑ j, |val (M i j)| ≤ μ) :
    ∃ c, polyMat A = .ok c ∧ c.length = n + 1 ∧ ∀ i x, c[i]? = some x →
      |val x - (M.map val).charpoly.coeff (n - i)| ≤ ((1 + u) ^ ((2 * n + 3) * i) - 1) * ((n + i - 1).choose i * μ ^ i) +
        (n + 1) * ((1 + u) ^ ((2 * n + 3) * i) * (2 * ((n + 1) * (μ + 1))) ^ i * η) := by
  obtain ⟨e, hA, rfl⟩ := hA
  have hu := R.u_nonneg
  have hη := R.η_nonneg
  have h1u : (1 : K) ≤ 1 + u := by linarith
  by_cases h0 : n = 0
  · subst h0
    refine ⟨[1], ?_, rfl, fun i x hx => ?_⟩
    · unfold polyMat polyMatD; rw [hA.size, if_pos rfl]
    · obtain rfl : i = 0 := by
        by_contra h
        rw [List.getElem?_eq_none (by simp; omega)] at hx
        cases hx
      injection hx with hx
      subst hx
      rw [Matrix.charpoly, Matrix.det_isEmpty, Nat.zero_sub, coeff_one_zero, one]
      simp [hη]
  have hfirst : ∀ N : Matrix (Fin n) (Fin n) K, |val 1 - N.charpoly.coeff (n - 0)| ≤ ((1 + u) ^ ((2 * n + 3) * 0) - 1) * ((n + 0 - 1).choose 0 * μ ^ 0) +
        (n + 1) * ((1 + u) ^ ((2 * n + 3) * 0) * (2 * ((n + 1) * (μ + 1))) ^ 0 * η) := by
    intro N
    rw [Nat.sub_zero, charpoly_coeff_top, one, sub_self, abs_zero]
    have : (0 : K) ≤ (n + 1) * η := by positivity
    simpa using this
  by_cases h1 : n = 1
  · subst h1
    refine ⟨_, polyMat_single hA, rfl, fun i x hx => ?_⟩
    obtain rfl | rfl : i = 0 ∨ i = 1 := by
      by_contra h
      rw [List.getElem?_eq_none (by simp; omega)] at hx
      cases hx
    · injection hx with hx
      subst hx
      exact hfirst _
    · injection hx with hx
      subst hx
      have h2 := sub_mul_near R (x := (0 : T)) (y := e 0 0) (z := 1) one R.zero
      have h3 : |val (e 0 0)| ≤ μ := by simpa [toM_apply] using hμ 0
      rw [Matrix.charpoly, Matrix.det_unique]
      have e1 : (((toM 1 1 e).map val).charmatrix default default).coeff (1 - 1) = -val (e 0 0) := by
        simp [toM_apply]
      rw [e1]
      refine h2.trans (add_le_add ?_ ?_)
      · have h4 : (1 + u) ^ 2 ≤ (1 + u) ^ ((2 * 1 + 3) * 1) := pow_le_pow_right₀ h1u (by omega)
        have h5 : (1 : K) ≤ (1 + u) ^ 2 := one_le_pow₀ h1u
        simp only [Nat.add_sub_cancel, Nat.choose_self, Nat.cast_one, one_mul, pow_one]
        exact mul_le_mul (by linarith) h3 (abs_nonneg _) (by linarith)
      · have h4 : 1 + u ≤ (1 + u) ^ ((2 * 1 + 3) * 1) := le_self_pow₀ h1u (by omega)
        have h5 := mul_le_mul_of_nonneg_right h4 hη
        have h6 : 0 ≤ (1 + u) ^ ((2 * 1 + 3) * 1) * η := by positivity
        have h7 := mul_nonneg h6 hμ0
        rw [pow_one, Nat.cast_one]
        linarith
  have hn : 2 ≤ n := by omega
  have hY : ∀ i j : Fin n, 0 ≤ (toM n n e).map (|val ·|) i j := fun i j => abs_nonneg _
  refine ⟨_, polyMat_tables hA hn fun t m h2 h3 => ?_, by simp, fun i x hx => ?_⟩
  · obtain ⟨z, hz, -⟩ := R.div t (m : T) (by rw [hcast m h2 h3]; exact Nat.cast_ne_zero.2 (by omega))
    exact ⟨z, hz⟩
  have hi : i < n + 1 := by
    by_contra hc
    rw [List.getElem?_eq_none (by simp; omega)] at hx
    cases hx
  rw [vtab, List.getElem?_map, List.getElem?_range hi] at hx
  injection hx with hx
  subst hx
  cases i with
  | zero => exact hfirst _
  | succ k =>
    show |val (-(levStep n e k).2) - _| ≤ _
    rw [neg]
    have hN := (levStep_near R one (e := e) (n := n) hμ (by omega) hcast (k := k) (by omega)).2
    have hX := (levAbs_le hY hμ hμ0 k).2.2.2
    have hz := levUnder_nonneg n hμ0 k
    have hz2 := levUnder_le n hμ0 k
    have h2 := (hN.mono hu (l := (2 * n + 3) * (k + 1)) (by rw [Nat.mul_succ]; omega) le_rfl hX).err
    have e1 : val (levStep n e k).2 - -((toM n n e).map val).charpoly.coeff (n - (k + 1)) =
        -(-val (levStep n e k).2 - ((toM n n e).map val).charpoly.coeff (n - (k + 1))) := by ring
    rw [e1, abs_neg] at h2
    refine h2.trans (add_le_add le_rfl ?_)
    have h3 : (1 + u) ^ ((2 * n + 3) * k + n + 1) ≤ (1 + u) ^ ((2 * n + 3) * (k + 1)) := pow_le_pow_right₀ h1u (by rw [Nat.mul_succ]; omega)
    have h4 : n * levUnder n μ k + 1 ≤ (n + 1) * (2 * ((n + 1) * (μ + 1))) ^ (k + 1) := by
      have hn0 : (0 : K) ≤ n := Nat.cast_nonneg n
      have hq : (1 : K) ≤ (n + 1) * (μ + 1) := by nlinarith
      have hp : (1 : K) ≤ (2 * ((n + 1) * (μ + 1))) ^ k := one_le_pow₀ (by linarith)
      rw [pow_succ]
      set P := (2 * (((n : K) + 1) * (μ + 1))) ^ k
      have h5 : 2 * P ≤ P * (2 * ((n + 1) * (μ + 1))) := by nlinarith
      have h6 := mul_le_mul_of_nonneg_left hz2 hn0
      have h7 := mul_le_mul_of_nonneg_left h5 (by linarith : (0 : K) ≤ n + 1)
      linarith
    have h5 := mul_le_mul h3 h4 (by positivity) (by positivity)
    refine (mul_le_mul_of_nonneg_right h5 hη).trans (le_of_eq (by ring))
end

set_option exponentiation.threshold 3000 in
/-- C133 for `double` (without overflow). -/
theorem C133_double_partial {A : MB Double} {n : Nat} {M : Matrix (Fin n) (Fin n) Double} (hA : A.Is M) (hn : (2 * n + 3) * n ≤ 2 ^ 52)
    {μ : ℚ} (hμ0 : 0 ≤ μ) (hμ : ∀ i, ∑ j, |(M i j).val| ≤ μ) :
    ∃ c : List Double, polyMat A = .ok c ∧ c.length = n + 1 ∧ ∀ i x, c[i]? = some x →
      |x.val - (M.map Fl.val).charpoly.coeff (n - i)| ≤ ((2 * n + 3) * i : ℕ) / 2 ^ 52 * ((n + i - 1).choose i * μ ^ i) +
        (n + 1) * (2 * ((n + 1) * (μ + 1))) ^ i / 2 ^ 1074 := by
  have hp : (53 : ℕ) ≠ 0 := by norm_num
  have h1 : (1 : Double).val = 1 := by decide +kernel
  obtain ⟨c, hc, hl, h⟩ := C133_poly_partial (Fl.rounds ℚ (p := 53) (by norm_num) (-1074)) h1 (fun x => rfl) hA
    (fun m _ hm => natCast_val (by norm_num) (by norm_num) (by nlinarith [(by norm_num : 2 ^ 52 ≤ 2 ^ 53)])) hμ0 hμ
  refine ⟨c, hc, hl, fun i x hx => (h i x hx).trans ?_⟩
  have hi : i ≤ n := by
    by_contra hc
    rw [List.getElem?_eq_none (by omega)] at hx
    cases hx
  have hk : (2 * n + 3) * i ≤ 2 ^ 52 := (Nat.mul_le_mul_left _ hi).trans hn
  have hu : (2 : ℚ) ^ (-((53 : ℕ) : ℤ)) = 1 / 2 ^ 53 := by norm_num
  rw [hu]
  refine add_le_add (mul_le_mul_of_nonneg_right (double_factor hk) (by positivity)) ?_
  have h2 := double_factor_le hk
  have h3 : (0 : ℚ) ≤ (2 * ((n + 1) * (μ + 1))) ^ i := by positivity
  rw [two_zpow_emin]
  have h4 : (1 + 1 / 2 ^ 53 : ℚ) ^ ((2 * n + 3) * i) * (2 * ((n + 1) * (μ + 1))) ^ i * (1 / 2 ^ 1074 / 2) ≤ 2 * (2 * ((n + 1) * (μ + 1))) ^ i * (1 / 2 ^ 1074 / 2) :=
    mul_le_mul_of_nonneg_right (mul_le_mul_of_nonneg_right h2 h3) (by positivity)
  refine (mul_le_mul_of_nonneg_left h4 (by positivity)).trans (le_of_eq ?_)
  ring

/-- The eigenvalues of a matrix are at most its largest sum of absolute values in a row. -/
theorem eigenvalue_le {n : Nat} {A : Matrix (Fin n) (Fin n) ℝ} {μ : ℝ} (hμ : ∀ i, ∑ j, |A i j| ≤ μ) {z : ℂ}
    (hz : (A.map ((↑) : ℝ → ℂ)).charpoly.IsRoot z) : ‖z‖ ≤ μ := by
  rw [IsRoot, Matrix.eval_charpoly] at hz
  obtain ⟨v, hv, h⟩ := Matrix.exists_mulVec_eq_zero_iff.2 hz
  obtain ⟨l, hl⟩ : ∃ l, v l ≠ 0 := by
    by_contra hc
    push Not at hc
    exact hv (funext hc)
  have : Nonempty (Fin n) := ⟨l⟩
  obtain ⟨i, hi⟩ := Finite.exists_max fun i => ‖v i‖
  have hpos : 0 < ‖v i‖ := lt_of_lt_of_le (norm_pos_iff.2 hl) (hi l)
  have h1 : z * v i = ∑ j, (A i j : ℂ) * v j := by
    have := congrFun h i
    rw [Matrix.sub_mulVec, Pi.sub_apply, Pi.zero_apply, sub_eq_zero] at this
    simpa [Matrix.mulVec, dotProduct, Matrix.scalar_apply, Matrix.diagonal_apply] using this
  have h2 : ‖z‖ * ‖v i‖ ≤ μ * ‖v i‖ := by
    rw [← norm_mul, h1]
    calc _ ≤ ∑ j, ‖(A i j : ℂ) * v j‖ := norm_sum_le _ _
      _ ≤ ∑ j, |A i j| * ‖v i‖ := Finset.sum_le_sum fun j _ => by
          rw [norm_mul, Complex.norm_real, Real.norm_eq_abs]; exact mul_le_mul_of_nonneg_left (hi j) (abs_nonneg _)
      _ = (∑ j, |A i j|) * ‖v i‖ := (Finset.sum_mul _ _ _).symm
      _ ≤ _ := mul_le_mul_of_nonneg_right (hμ i) (norm_nonneg _)
  exact le_of_mul_le_mul_right h2 hpos

/-- C133: every eigenvalue of the matrix is nearly a root of the computed polynomial. -/
theorem C133_eigenvalue {T : Type} [Zero T] [One T] [Add T] [Sub T] [Mul T] [CDiv T] [Neg T] [NatCast T] {val : T → ℝ} {u η : ℝ} (R : Rounds val u η)
    (one : val 1 = 1) (neg : ∀ x, val (-x) = -val x) {A : MB T} {n : Nat} {M : Matrix (Fin n) (Fin n) T} (hA : A.Is M) (hn : 1 ≤ n)
    (hcast : ∀ m : Nat, 2 ≤ m → m ≤ n → val (m : T) = m) {μ : ℝ} (hμ : ∀ i, ∑ j, |val (M i j)| ≤ μ) :
    ∃ c, polyMat A = .ok c ∧ c.length = n + 1 ∧ ∀ z : ℂ, (M.map fun x => (val x : ℂ)).charpoly.IsRoot z →
      ‖∑ i ∈ Finset.range (n + 1), (val (c.getD i 0) : ℂ) * z ^ (n - i)‖ ≤ ((1 + u) ^ ((2 * n + 3) * n) - 1) * ((2 * n).choose n * μ ^ n) +
        (n + 1) ^ 2 * ((1 + u) ^ ((2 * n + 3) * n) * (2 * ((n + 1) * (μ + 1))) ^ n * η) := by
  have hu := R.u_nonneg
  have hη := R.η_nonneg
  have h1u : (1 : ℝ) ≤ 1 + u := by linarith
  have hμ0 : 0 ≤ μ := (Finset.sum_nonneg fun j _ => abs_nonneg _).trans (hμ ⟨0, hn⟩)
  obtain ⟨c, hc, hl, h⟩ := C133_poly_partial R one neg hA hcast hμ0 hμ
  refine ⟨c, hc, hl, fun z hz => ?_⟩
  have em : (M.map fun x => (val x : ℂ)) = (M.map val).map ((↑) : ℝ → ℂ) := rfl
  have hzμ : ‖z‖ ≤ μ := eigenvalue_le (A := M.map val) hμ (em ▸ hz)
  have hroot : ∑ i ∈ Finset.range (n + 1), ((M.map val).charpoly.coeff (n - i) : ℂ) * z ^ (n - i) = 0 := by
    rw [em, IsRoot, show ((↑) : ℝ → ℂ) = Complex.ofRealHom from rfl, Matrix.charpoly_map, eval_eq_sum_range' (n := n + 1)
      (Nat.lt_succ_of_le ((natDegree_map_le).trans (charpoly_degree _))), ← Finset.sum_range_reflect] at hz
    rw [← hz]
    refine Finset.sum_congr rfl fun i hi => ?_
    rw [coeff_map, show n + 1 - 1 - i = n - i by omega]
    rfl
  rw [← sub_zero (∑ i ∈ Finset.range (n + 1), (val (c.getD i 0) : ℂ) * z ^ (n - i)), ← hroot, ← Finset.sum_sub_distrib]
  set W := (1 + u) ^ ((2 * n + 3) * n) with hW
  set Q := 2 * (((n : ℝ) + 1) * (μ + 1)) with hQ
  have hn0 : (0 : ℝ) ≤ n := Nat.cast_nonneg n
  have hQ1 : 1 ≤ Q := by rw [hQ]; nlinarith [mul_nonneg hn0 hμ0]
  have hQμ : μ ≤ Q := by rw [hQ]; nlinarith [mul_nonneg hn0 hμ0]
  have hW1 : 1 ≤ W := one_le_pow₀ h1u
  have hterm : ∀ i ∈ Finset.range (n + 1), ‖(val (c.getD i 0) : ℂ) * z ^ (n - i) - ((M.map val).charpoly.coeff (n - i) : ℂ) * z ^ (n - i)‖ ≤
      (W - 1) * ((i + (n - 1)).choose (n - 1) * μ ^ n) + (n + 1) * (W * Q ^ n * η) := by
    intro i hi
    have hi : i ≤ n := Nat.le_of_lt_succ (Finset.mem_range.1 hi)
    have hx := h i (c.getD i 0) (by rw [List.getD_eq_getElem?_getD, List.getElem?_eq_getElem (by omega)]; rfl)
    rw [← sub_mul, norm_mul, norm_pow, ← Complex.ofReal_sub, Complex.norm_real, Real.norm_eq_abs]
    have h2 : ‖z‖ ^ (n - i) ≤ μ ^ (n - i) := pow_le_pow_left₀ (norm_nonneg _) hzμ _
    have hw : (1 + u) ^ ((2 * n + 3) * i) ≤ W := pow_le_pow_right₀ h1u (Nat.mul_le_mul_left _ hi)
    have e1 : (n + i - 1).choose i = (i + (n - 1)).choose (n - 1) := by
      rw [show n + i - 1 = i + (n - 1) by omega, Nat.choose_symm_add]
    have e2 : μ ^ i * μ ^ (n - i) = μ ^ n := by rw [← pow_add]; congr 1; omega
    have e3 : Q ^ i * Q ^ (n - i) = Q ^ n := by rw [← pow_add]; congr 1; omega
    have h3 : μ ^ (n - i) ≤ Q ^ (n - i) := pow_le_pow_left₀ hμ0 hQμ _
    have h4 := mul_le_mul hx h2 (by positivity) ((abs_nonneg _).trans hx)
    refine h4.trans ?_
    rw [add_mul, e1]
    refine add_le_add ?_ ?_
    · rw [mul_assoc, mul_assoc, e2]
      exact mul_le_mul_of_nonneg_right (by linarith) (by positivity)
    · have h5 : (1 + u) ^ ((2 * n + 3) * i) * Q ^ i * η * μ ^ (n - i) ≤ W * Q ^ n * η := by
        rw [← e3]
        have := mul_le_mul hw h3 (by positivity) (by positivity)
        have h6 := mul_le_mul_of_nonneg_right this (by positivity : 0 ≤ Q ^ i * η)
        linarith
      have := mul_le_mul_of_nonneg_left h5 (by positivity : (0 : ℝ) ≤ n + 1)
      linarith
  refine (norm_sum_le _ _).trans ((Finset.sum_le_sum hterm).trans (le_of_eq ?_))
  rw [Finset.sum_add_distrib, ← Finset.mul_sum, ← Finset.sum_mul, Finset.sum_const, Finset.card_range, nsmul_eq_mul]
  have e5 : ∑ i ∈ Finset.range (n + 1), (((i + (n - 1)).choose (n - 1) : ℕ) : ℝ) = ((2 * n).choose n : ℕ) := by
    rw [← Nat.cast_sum, Nat.sum_range_add_choose]
    congr 2 <;> omega
  rw [e5]
  push_cast
  ring

/-- C133 is false for relative errors: the determinant of `diag(1, 2^-60)` is `2^-60`, and `determinant` returns it, but the last coefficient of `poly` is
`2^-61`. -/
theorem C133_relative_false : ∃ x : Double, x.val = 1 / 2 ^ 60 ∧ ∃ c, polyMat (⟨2, 2, [1, 0, 0, x]⟩ : Mat Double).toMB = .ok c ∧
    (c.map Fl.val)[2]? = some (1 / 2 ^ 61) ∧ (!![(1 : ℚ), 0; 0, 1 / 2 ^ 60]).charpoly.coeff 0 = 1 / 2 ^ 60 ∧
    determinant (Feq.approxZero Fl.abs tol6) (⟨2, 2, [1, 0, 0, x]⟩ : Mat Double).toMB = .ok x := by
  refine ⟨Fl.of 53 (-1074) (1 / 2 ^ 60), by decide +kernel, [1, Fl.of 53 (-1074) (-1), Fl.of 53 (-1074) (1 / 2 ^ 61)], by decide +kernel, by decide +kernel, ?_,
    by decide +kernel⟩
  rw [Matrix.charpoly_fin_two]
  simp [Matrix.trace_fin_two, Matrix.det_fin_two]

/-- The sum of the diagonal elements `0.1` and `0.7` is not the number next to `0.8`. -/
example : polyMat (⟨2, 2, doubles [1 / 10, 1, 1, 7 / 10]⟩ : Mat Double).toMB = .ok (doubles [1, -7205759403792793 / 2 ^ 53, -93 / 100]) ∧
    (doubles [-7205759403792793 / 2 ^ 53]) ≠ doubles [-8 / 10] := by decide +kernel

end Malg
