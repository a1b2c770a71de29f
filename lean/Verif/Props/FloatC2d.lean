import Verif.Props.ExpmDouble
import Verif.Props.SampleErr
import Verif.Props.FloatAcc
/-!
# Property C126: discretisation and simulation in floating point

C117 bounds the error of a simulation that comes from the matrix exponential, C116 the one that comes from rounding in the steps. Here `c2d` itself is
computed in floating point, and all errors are put together.
-/
namespace Malg
open Ops Control Lin Matrix

section
variable {𝔸 : Type} [NormedRing 𝔸] [NormedAlgebra ℝ 𝔸] [NormOneClass 𝔸] [CompleteSpace 𝔸]

/-- The exponential function does not change much with its argument. -/
theorem exp_perturb {P Q : 𝔸} {y : ℝ} (hP : ‖P‖ ≤ y) (hQ : ‖Q‖ ≤ y) : ‖NormedSpace.exp P - NormedSpace.exp Q‖ ≤ ‖P - Q‖ * Real.exp y := by
  have h := (NormedSpace.exp_series_hasSum_exp' (𝕂 := ℝ) P).sub (NormedSpace.exp_series_hasSum_exp' (𝕂 := ℝ) Q)
  have h1 := (hasSum_nat_add_iff' 1).2 h
  have h2 := (real_exp_hasSum y).mul_left ‖P - Q‖
  simp only [Finset.range_one, Finset.sum_singleton, Nat.factorial_zero, pow_zero, sub_self, sub_zero] at h1
  refine h1.tsum_eq ▸ tsum_of_norm_bounded h2 fun j => ?_
  rw [← smul_sub, norm_smul, Real.norm_of_nonneg (by positivity)]
  have h3 := norm_pow_sub_pow_le hP hQ (j + 1)
  rw [Nat.add_sub_cancel] at h3
  refine (mul_le_mul_of_nonneg_left h3 (by positivity)).trans (le_of_eq ?_)
  rw [Nat.factorial_succ]
  push_cast
  have : (j.factorial : ℝ) ≠ 0 := by exact_mod_cast (Nat.factorial_pos j).ne'
  have : (j : ℝ) + 1 ≠ 0 := by positivity
  field_simp

end

section
variable {T : Type} [Zero T] [Add T] [Sub T] [Mul T] [CDiv T] {val : T → ℝ} {u η : ℝ} (R : Rounds val u η)
include R

/-- A computed product of two matrices that are known up to an error. -/
theorem rows_prod {n l m : Nat} {x y : Nat → Nat → T} {Ξ : Matrix (Fin n) (Fin l) ℝ} {Υ : Matrix (Fin l) (Fin m) ℝ} {A N B L : ℝ}
    (hX : ∀ i : Fin n, ∑ j : Fin l, |val (x i j) - Ξ i j| ≤ A - N) (hΞ : ∀ i, ∑ j, |Ξ i j| ≤ N) (hY : ∀ i : Fin l, ∑ j : Fin m, |val (y i j) - Υ i j| ≤ B - L)
    (hΥ : ∀ i, ∑ j, |Υ i j| ≤ L) (hL : 0 ≤ L) (hB : L ≤ B) (i : Fin n) :
    ∑ j : Fin m, |val (lsum l fun k => x i k * y k j) - (Ξ * Υ) i j| ≤ (1 + u) ^ l * (A * B) - N * L + m * (l * (1 + u) ^ (l - 1) * η) := by
  have hu := R.u_nonneg
  have hη := R.η_nonneg
  have h1 : (1 : ℝ) ≤ (1 + u) ^ l := one_le_pow₀ (by linarith)
  have hB0 : 0 ≤ B := hL.trans hB
  have hXA : ∑ k : Fin l, |val (x i k)| ≤ A := by
    calc ∑ k : Fin l, |val (x i k)| ≤ ∑ k : Fin l, (|val (x i k) - Ξ i k| + |Ξ i k|) := Finset.sum_le_sum fun k _ => by
          have := abs_add_le (val (x i k) - Ξ i k) (Ξ i k)
          rwa [sub_add_cancel] at this
      _ ≤ A := by rw [Finset.sum_add_distrib]; linarith [hX i, hΞ i]
  have hYB : ∀ k : Fin l, ∑ j : Fin m, |val (y k j)| ≤ B := fun k => by
    calc ∑ j : Fin m, |val (y k j)| ≤ ∑ j : Fin m, (|val (y k j) - Υ k j| + |Υ k j|) := Finset.sum_le_sum fun j _ => by
          have := abs_add_le (val (y k j) - Υ k j) (Υ k j)
          rwa [sub_add_cancel] at this
      _ ≤ B := by rw [Finset.sum_add_distrib]; linarith [hY k, hΥ k]
  have hprod : ∀ f : Fin l → ℝ, ∀ g : Fin l → Fin m → ℝ, (∀ k, 0 ≤ f k) → ∀ {F G : ℝ}, ∑ k, f k ≤ F → (∀ k, ∑ j, g k j ≤ G) → 0 ≤ G →
      ∑ j : Fin m, ∑ k : Fin l, f k * g k j ≤ F * G := by
    intro f g hf F G hF hG hG0
    rw [Finset.sum_comm]
    calc ∑ k, ∑ j, f k * g k j = ∑ k, f k * ∑ j, g k j := by simp only [Finset.mul_sum]
      _ ≤ ∑ k, f k * G := Finset.sum_le_sum fun k _ => mul_le_mul_of_nonneg_left (hG k) (hf k)
      _ = (∑ k, f k) * G := by rw [Finset.sum_mul]
      _ ≤ F * G := mul_le_mul_of_nonneg_right hF hG0
  have hentry : ∀ j : Fin m, |val (lsum l fun k => x i k * y k j) - (Ξ * Υ) i j| ≤
      ((1 + u) ^ l - 1) * (∑ k : Fin l, |val (x i k)| * |val (y k j)|) + l * (1 + u) ^ (l - 1) * η +
        (∑ k : Fin l, |val (x i k) - Ξ i k| * |val (y k j)| + ∑ k : Fin l, |Ξ i k| * |val (y k j) - Υ k j|) := by
    intro j
    have h2 := lsum_mul_err R (fun k => x i k) (fun k => y k j) l
    rw [Finset.sum_range, Finset.sum_range] at h2
    have h3 : |∑ k : Fin l, val (x i k) * val (y k j) - (Ξ * Υ) i j| ≤
        ∑ k : Fin l, |val (x i k) - Ξ i k| * |val (y k j)| + ∑ k : Fin l, |Ξ i k| * |val (y k j) - Υ k j| := by
      rw [Matrix.mul_apply, ← Finset.sum_sub_distrib, ← Finset.sum_add_distrib]
      refine (Finset.abs_sum_le_sum_abs _ _).trans (Finset.sum_le_sum fun k _ => ?_)
      rw [← abs_mul, ← abs_mul]
      have e : val (x i k) * val (y k j) - Ξ i k * Υ k j = (val (x i k) - Ξ i k) * val (y k j) + Ξ i k * (val (y k j) - Υ k j) := by ring
      rw [e]
      exact abs_add_le _ _
    have h4 := abs_sub_le (val (lsum l fun k => x i k * y k j)) (∑ k : Fin l, val (x i k) * val (y k j)) ((Ξ * Υ) i j)
    linarith
  refine (Finset.sum_le_sum fun j _ => hentry j).trans ?_
  rw [Finset.sum_add_distrib, Finset.sum_add_distrib, Finset.sum_add_distrib, ← Finset.mul_sum, Finset.sum_const, Finset.card_univ, Fintype.card_fin, nsmul_eq_mul]
  have g1 := hprod (fun k => |val (x i k)|) (fun k j => |val (y k j)|) (fun _ => abs_nonneg _) hXA hYB hB0
  have g2 := hprod (fun k => |val (x i k) - Ξ i k|) (fun k j => |val (y k j)|) (fun _ => abs_nonneg _) (hX i) hYB hB0
  have g3 := hprod (fun k => |Ξ i k|) (fun k j => |val (y k j) - Υ k j|) (fun _ => abs_nonneg _) (hΞ i) hY (by linarith)
  have g4 := mul_le_mul_of_nonneg_left g1 (by linarith : 0 ≤ (1 + u) ^ l - 1)
  linarith

end

section
variable {T : Type} [Zero T] [One T] [Add T] [Sub T] [Mul T] [Neg T] [CDiv T] {val : T → ℝ} {u η : ℝ} (R : Rounds val u η)
variable {n m p : Nat} {sys : StateSpace T} {A : Matrix (Fin n) (Fin n) T} {B : Matrix (Fin n) (Fin m) T} {C : Matrix (Fin p) (Fin n) T}
  {D : Matrix (Fin p) (Fin m) T}

/-- The bound of C126 for the input matrix. -/
noncomputable def inputErr (u η : ℝ) (n m : Nat) (α ρ ψ ε b : ℝ) : ℝ :=
  (1 + u) ^ n * (((1 + u) ^ (n + 1) * ((α + ρ) * (ψ + ε)) + n * (n * (1 + u) ^ (n - 1) * η)) * b) - α * ψ * b + m * (n * (1 + u) ^ (n - 1) * η)

/-- The input matrix that `c2d` computes from the tables of the exponential, of the inverse and of `B`. -/
def inputTable (n : Nat) (e v b : Nat → Nat → T) : Nat → Nat → T := fun r c =>
  lsum n fun k => (lsum n fun l => v r l * (e l k - if l = k then 1 else 0)) * b k c

/-- What `c2d` computes. -/
theorem c2d_tables (isz : T → Bool) {ex : MB T → Res (Mat T)} (h : sys.Is A B C D) (hn : 0 < n) (hm : 0 < m) (hp : 0 < p) {dt : T}
    {E V : Matrix (Fin n) (Fin n) T} (hE : Yields (mulS sys.A.toMB dt >>= fun X => ex X.toMB) E) (hV : Yields (Lin.inverse isz sys.A.toMB) V) :
    ∃ (d : DiscreteStateSpace T) (e v b : Nat → Nat → T), E = toM n n e ∧ V = toM n n v ∧ B = toM n m b ∧ c2d isz ex sys dt = .ok d ∧
      d.toStateSpace.Is E (toM n m (inputTable n e v b)) C D ∧ d.sampleTime = dt := by
  have hf := h.a.fits
  have hAr : sys.A.rows = n := by obtain ⟨e, hr, -⟩ := h.a; exact hr.rows
  obtain ⟨X, hX⟩ : ∃ X, mulS sys.A.toMB dt = .ok X := by
    obtain ⟨x, hx, -⟩ := hE
    obtain ⟨X, h1, -⟩ := Res.bind_eq_ok.1 hx
    exact ⟨X, h1⟩
  rw [hX, Res.ok_bind] at hE
  obtain ⟨Ed, eE, wE, iE⟩ := hE
  obtain ⟨Vd, eV, wV, iV⟩ := hV
  obtain ⟨e, rE, rfl⟩ := id iE
  obtain ⟨v, rV, rfl⟩ := id iV
  obtain ⟨b, rB, rfl⟩ := id h.b
  obtain ⟨c, hc, rfl⟩ := h.c
  obtain ⟨d, hd, rfl⟩ := h.d
  have eI : Util.identity n (1 : T) = .ok (Mat.ofFn n n fun r c => if r = c then 1 else 0) := Util.eye_eq hn hn hf 1
  set s : Nat → Nat → T := fun r c => e r c - if r = c then 1 else 0 with hs
  have eS : sub Ed.toMB (Mat.ofFn n n fun r c => if r = c then (1 : T) else 0).toMB = .ok (Mat.ofFn n n s) :=
    zipMat_eq rE (ofFn_rep hf _) fun _ _ _ _ => rfl
  set g : Nat → Nat → T := fun r c => lsum n fun k => v r k * s k c with hg
  have eY : mul Vd.toMB (Mat.ofFn n n s).toMB = .ok (Mat.ofFn n n g) := mul_eq rV.toRepAt (ofFn_rep hf s).toRepAt hf
  set z : Nat → Nat → T := fun r c => lsum n fun k => g r k * b k c with hz
  have eZ : mul (Mat.ofFn n n g).toMB sys.B.toMB = .ok (Mat.ofFn n m z) := mul_eq (ofFn_rep hf g).toRepAt rB.toRepAt rB.fits
  have eC : Mat.empty0.assign sys.C.toMB = .ok (Mat.ofFn p n c) := Mat.assign_eq hc.toRepAt (Nat.mul_pos hp hn)
  have eD : Mat.empty0.assign sys.D.toMB = .ok (Mat.ofFn p m d) := Mat.assign_eq hd.toRepAt (Nat.mul_pos hp hm)
  have mE : (Mat.empty0.moveAssign Ed).1 = Ed := moveAssign_fst (by rw [Is.size iE]; exact Nat.mul_pos hn hn)
  have iZ : (Mat.ofFn n m z).toMB.Is (toM n m z) := (ofFn_rep rB.fits z).is
  have mZ : (Mat.empty0.moveAssign (Mat.ofFn n m z)).1 = Mat.ofFn n m z := moveAssign_fst (by rw [Is.size iZ]; exact Nat.mul_pos hn hm)
  refine ⟨⟨⟨Ed, Mat.ofFn n m z, Mat.ofFn p n c, Mat.ofFn p m d⟩, dt⟩, e, v, b, rfl, rfl, rfl, ?_, ⟨iE, iZ, (ofFn_rep hc.fits c).is, (ofFn_rep hd.fits d).is⟩, rfl⟩
  unfold c2d
  rw [hX, Res.ok_bind, eE, Res.ok_bind]
  dsimp only
  rw [mE, eV, Res.ok_bind, hAr, eI, Res.ok_bind, eS, Res.ok_bind, eY, Res.ok_bind, eZ, Res.ok_bind, mZ, eC, Res.ok_bind, eD, Res.ok_bind,
    if_neg (by rw [show Ed.rows = n from rE.rows, show Ed.cols = n from rE.cols]; simp), if_neg (by rw [show Ed.rows = n from rE.rows]; exact fun h => h rfl),
    if_neg (by rw [show Ed.rows = n from rE.rows]; exact fun h => h rfl)]
  rfl

omit [Neg T] in
include R in
theorem input_near (one : val 1 = 1) (e v b : Nat → Nat → T) (V₀ F : Matrix (Fin n) (Fin n) ℝ) {α ρ ψ ε β : ℝ} (hα : ∀ i, ∑ j, |V₀ i j| ≤ α)
    (hρ : ∀ i, ∑ j, |val (toM n n v i j) - V₀ i j| ≤ ρ) (hψ : ∀ i, ∑ j, |(F - 1) i j| ≤ ψ) (hε : ∀ i, ∑ j, |val (toM n n e i j) - F i j| ≤ ε)
    (hb : ∀ i, ∑ j, |val (toM n m b i j)| ≤ β) (i : Fin n) :
    ∑ j, |val (toM n m (inputTable n e v b) i j) - (V₀ * (F - 1) * (toM n m b).map val : Matrix (Fin n) (Fin m) ℝ) i j| ≤ inputErr u η n m α ρ ψ ε β := by
  set s : Nat → Nat → T := fun r c => e r c - if r = c then 1 else 0 with hs
  set g : Nat → Nat → T := fun r c => lsum n fun k => v r k * s k c with hg
  have hu := R.u_nonneg
  have hα0 : 0 ≤ α := (Finset.sum_nonneg fun j _ => abs_nonneg _).trans (hα i)
  have hψ0 : 0 ≤ ψ := (Finset.sum_nonneg fun j _ => abs_nonneg _).trans (hψ i)
  have hε0 : 0 ≤ ε := (Finset.sum_nonneg fun j _ => abs_nonneg _).trans (hε i)
  have hβ0 : 0 ≤ β := (Finset.sum_nonneg fun j _ => abs_nonneg _).trans (hb i)
  have hS : ∀ r : Fin n, ∑ j : Fin n, |val (s r j) - (F - 1) r j| ≤ (1 + u) * (ψ + ε) - ψ := by
    intro r
    have hv : ∀ j : Fin n, val (if (r : Nat) = j then (1 : T) else 0) = (1 : Matrix (Fin n) (Fin n) ℝ) r j := by
      intro j
      rw [Matrix.one_apply]
      by_cases hrj : r = j
      · rw [if_pos hrj, if_pos (congrArg _ hrj), one]
      · rw [if_neg hrj, if_neg (fun h => hrj (Fin.ext h)), R.zero]
    have h1 : ∀ j : Fin n, |val (s r j) - (F - 1) r j| ≤ u * (|val (e r j) - F r j| + |(F - 1) r j|) + |val (e r j) - F r j| := by
      intro j
      have h2 := R.sub (e r j) (if (r : Nat) = j then (1 : T) else 0)
      rw [hv] at h2
      have h3 : |val (e r j) - (1 : Matrix (Fin n) (Fin n) ℝ) r j| ≤ |val (e r j) - F r j| + |(F - 1) r j| := by
        rw [Matrix.sub_apply]; exact abs_sub_le _ _ _
      have h4 := mul_le_mul_of_nonneg_left h3 hu
      have h5 := abs_sub_le (val (s r j)) (val (e r j) - (1 : Matrix (Fin n) (Fin n) ℝ) r j) ((F - 1) r j)
      have h6 : val (e r j) - (1 : Matrix (Fin n) (Fin n) ℝ) r j - (F - 1) r j = val (e r j) - F r j := by rw [Matrix.sub_apply]; ring
      rw [h6] at h5
      linarith
    refine (Finset.sum_le_sum fun j _ => h1 j).trans ?_
    rw [Finset.sum_add_distrib, ← Finset.mul_sum, Finset.sum_add_distrib]
    have h7 := mul_le_mul_of_nonneg_left (add_le_add (hε r) (hψ r)) hu
    have h8 := hε r
    dsimp only [toM, Matrix.of_apply] at h7 h8 ⊢
    linarith
  have hG := rows_prod R (x := v) (y := s) (A := α + ρ) (N := α) (fun i => by rw [add_sub_cancel_left]; exact hρ i) hα hS hψ hψ0 (by nlinarith)
  have hVF : ∀ i, ∑ j, |(V₀ * (F - 1)) i j| ≤ α * ψ := by
    intro i
    calc ∑ j, |(V₀ * (F - 1)) i j| ≤ ∑ j, ∑ k, |V₀ i k| * |(F - 1) k j| := Finset.sum_le_sum fun j _ => by
          rw [Matrix.mul_apply]
          exact (Finset.abs_sum_le_sum_abs _ _).trans (le_of_eq (Finset.sum_congr rfl fun k _ => abs_mul _ _))
      _ = ∑ k, |V₀ i k| * ∑ j, |(F - 1) k j| := by rw [Finset.sum_comm]; simp only [Finset.mul_sum]
      _ ≤ ∑ k, |V₀ i k| * ψ := Finset.sum_le_sum fun k _ => mul_le_mul_of_nonneg_left (hψ k) (abs_nonneg _)
      _ = (∑ k, |V₀ i k|) * ψ := by rw [Finset.sum_mul]
      _ ≤ α * ψ := mul_le_mul_of_nonneg_right (hα i) hψ0
  have hZ := rows_prod R (x := g) (y := b) (Ξ := V₀ * (F - 1)) (Υ := (toM n m b).map val)
    (A := (1 + u) ^ (n + 1) * ((α + ρ) * (ψ + ε)) + n * (n * (1 + u) ^ (n - 1) * η)) (N := α * ψ) (B := β) (L := β)
    (fun i => (hG i).trans (le_of_eq (by rw [pow_succ]; ring))) hVF
    (fun i => by rw [sub_self]; exact le_of_eq (Finset.sum_eq_zero fun j _ => by rw [Matrix.map_apply]; exact abs_eq_zero.2 (sub_self _)))
    hb hβ0 le_rfl i
  exact hZ

include R in
/-- C126: `c2d` in floating point. If `V` is the computed inverse of `A`, and `E` the computed exponential, `c2d` returns the system `E`, `Bd`, `C`, `D`.
If `V` is near some matrix `V₀` and `E` near some `F`, then `Bd` is near `V₀ (F - 1) B`. -/
theorem C126_c2d (one : val 1 = 1) (isz : T → Bool) {ex : MB T → Res (Mat T)} (h : sys.Is A B C D) (hn : 0 < n) (hm : 0 < m) (hp : 0 < p) {dt : T}
    {E V : Matrix (Fin n) (Fin n) T} (hE : Yields (mulS sys.A.toMB dt >>= fun X => ex X.toMB) E) (hV : Yields (Lin.inverse isz sys.A.toMB) V) :
    ∃ (d : DiscreteStateSpace T) (Bd : Matrix (Fin n) (Fin m) T), c2d isz ex sys dt = .ok d ∧ d.toStateSpace.Is E Bd C D ∧ d.sampleTime = dt ∧
      ∀ (V₀ F : Matrix (Fin n) (Fin n) ℝ) {α ρ ψ ε b : ℝ}, (∀ i, ∑ j, |V₀ i j| ≤ α) → (∀ i, ∑ j, |val (V i j) - V₀ i j| ≤ ρ) →
        (∀ i, ∑ j, |(F - 1) i j| ≤ ψ) → (∀ i, ∑ j, |val (E i j) - F i j| ≤ ε) → (∀ i, ∑ j, |val (B i j)| ≤ b) →
        ∀ i, ∑ j, |val (Bd i j) - (V₀ * (F - 1) * B.map val : Matrix (Fin n) (Fin m) ℝ) i j| ≤ inputErr u η n m α ρ ψ ε b := by
  obtain ⟨d, e, v, b, rfl, rfl, rfl, h1, h2, h3⟩ := c2d_tables isz h hn hm hp hE hV
  exact ⟨d, _, h1, h2, h3, fun V₀ F α ρ ψ ε β hα hρ hψ hε hb => input_near R one e v b V₀ F hα hρ hψ hε hb⟩

end

section
variable {n m : Nat}

/-- How far two trajectories drift apart when both matrices are known up to an error. -/
theorem traj_drift' {E F : Matrix (Fin n) (Fin n) ℝ} {G H : Matrix (Fin n) (Fin m) ℝ} {x0 : Fin n → ℝ} {w : Nat → Fin m → ℝ} {ε φ ω ξ υ : ℝ}
    (hE : ∀ i, ∑ j, |E i j - F i j| ≤ ε) (hF : ∀ i, ∑ j, |F i j| ≤ φ) (hG : ∀ i, ∑ j, |G i j - H i j| ≤ ω) {N : Nat}
    (hx : ∀ k, k < N → ∀ i, |traj F H x0 w k i| ≤ ξ) (hw : ∀ k, k < N → ∀ i, |w k i| ≤ υ) (ε0 : 0 ≤ ε) (ω0 : 0 ≤ ω) (φ0 : 0 ≤ φ) (ξ0 : 0 ≤ ξ) (υ0 : 0 ≤ υ)
    (k : Nat) (hk : k ≤ N) (i : Fin n) :
    |traj E G x0 w k i - traj F H x0 w k i| ≤ (ε * ξ + ω * υ) * ∑ j ∈ Finset.range k, (φ + ε) ^ j := by
  induction k generalizing i with
  | zero => simp [traj]
  | succ k ih =>
    set X := traj E G x0 w k with hX
    set Y := traj F H x0 w k with hY
    set δ := (ε * ξ + ω * υ) * ∑ j ∈ Finset.range k, (φ + ε) ^ j with hδ
    have δ0 : 0 ≤ δ := by positivity
    have hE' : ∀ i, ∑ j, |E i j| ≤ φ + ε := fun i => by
      calc ∑ j, |E i j| ≤ ∑ j, (|F i j| + |E i j - F i j|) := Finset.sum_le_sum fun j _ => by
            have := abs_add_le (F i j) (E i j - F i j)
            rwa [add_sub_cancel] at this
        _ ≤ φ + ε := by rw [Finset.sum_add_distrib]; exact add_le_add (hF i) (hE i)
    have e : traj E G x0 w (k + 1) - traj F H x0 w (k + 1) = E *ᵥ (X - Y) + ((E - F) *ᵥ Y + (G - H) *ᵥ w k) := by
      rw [traj, traj, ← hX, ← hY, sub_mulVec, sub_mulVec, mulVec_sub]
      abel
    have e2 := congrFun e i
    rw [Pi.sub_apply] at e2
    rw [e2]
    have hs : (ε * ξ + ω * υ) * ∑ j ∈ Finset.range (k + 1), (φ + ε) ^ j = (φ + ε) * δ + (ε * ξ + ω * υ) := by
      rw [Finset.sum_range_succ', hδ, pow_zero, mul_add, mul_one]
      have : ∑ j ∈ Finset.range k, (φ + ε) ^ (j + 1) = (φ + ε) * ∑ j ∈ Finset.range k, (φ + ε) ^ j := by
        rw [Finset.mul_sum]; exact Finset.sum_congr rfl fun j _ => pow_succ' _ _
      rw [this]; ring
    rw [hs, Pi.add_apply, Pi.add_apply]
    have h1 := mulVec_bound hE' (v := X - Y) (fun j => ih (by omega) j) δ0 i
    have h2 := mulVec_bound (M := E - F) hE (hx k (by omega)) ξ0 i
    have h3 := mulVec_bound (M := G - H) hG (hw k (by omega)) υ0 i
    exact (abs_add_le _ _).trans (add_le_add h1 ((abs_add_le _ _).trans (add_le_add h2 h3)))

/-- A bound for the states of a trajectory. -/
theorem traj_bound {E : Matrix (Fin n) (Fin n) ℝ} {G : Matrix (Fin n) (Fin m) ℝ} {x0 : Fin n → ℝ} {w : Nat → Fin m → ℝ} {θ β χ υ : ℝ}
    (hE : ∀ i, ∑ j, |E i j| ≤ θ) (hG : ∀ i, ∑ j, |G i j| ≤ β) {N : Nat} (hx : ∀ i, |x0 i| ≤ χ) (hw : ∀ k, k < N → ∀ i, |w k i| ≤ υ) (θ0 : 0 ≤ θ) (β0 : 0 ≤ β)
    (χ0 : 0 ≤ χ) (υ0 : 0 ≤ υ) (k : Nat) (hk : k ≤ N) (i : Fin n) : |traj E G x0 w k i| ≤ θ ^ k * χ + β * υ * ∑ j ∈ Finset.range k, θ ^ j := by
  induction k generalizing i with
  | zero => simpa [traj] using hx i
  | succ k ih =>
    rw [traj, Pi.add_apply]
    have h1 := mulVec_bound hE (fun j => ih (by omega) j) (by positivity) i
    have h2 := mulVec_bound hG (hw k (by omega)) υ0 i
    refine (abs_add_le _ _).trans ((add_le_add h1 h2).trans (le_of_eq ?_))
    rw [Finset.sum_range_succ', pow_zero]
    have : ∑ j ∈ Finset.range k, θ ^ (j + 1) = θ * ∑ j ∈ Finset.range k, θ ^ j := by
      rw [Finset.mul_sum]; exact Finset.sum_congr rfl fun j _ => pow_succ' _ _
    rw [this]; ring

/-- What underflow adds to `k` steps of a simulation. -/
noncomputable def underSum (u η : ℝ) (n m : Nat) (θ : ℝ) (k : Nat) : ℝ :=
  ∑ l ∈ Finset.range k, (1 + u) ^ ((n + 1) * l) * ((1 + u) * ((n * (1 + u) ^ (n - 1) + m * (1 + u) ^ (m - 1)) * η)) * θ ^ l

theorem simUnder_bound {u η : ℝ} (hu : 0 ≤ u) (hη : 0 ≤ η) {E : Matrix (Fin n) (Fin n) ℝ} {θ : ℝ} (hE : ∀ i, ∑ j, |E i j| ≤ θ) (θ0 : 0 ≤ θ) (k : Nat)
    (i : Fin n) : |simUnder u η m E k i| ≤ underSum u η n m θ k := by
  unfold simUnder underSum
  rw [Finset.sum_apply]
  refine (Finset.abs_sum_le_sum_abs _ _).trans (Finset.sum_le_sum fun l hl => ?_)
  clear hl
  rw [Pi.smul_apply, smul_eq_mul, abs_mul, abs_of_nonneg (by positivity)]
  refine mul_le_mul_of_nonneg_left ?_ (by positivity)
  induction l generalizing i with
  | zero => simp
  | succ l ih =>
    rw [pow_succ', ← mulVec_mulVec, pow_succ']
    exact mulVec_bound hE ih (by positivity) i

end

section
variable {T : Type} [Zero T] [One T] [Add T] [Sub T] [Mul T] [Neg T] [CDiv T] {val : T → ℝ} {u η : ℝ} (R : Rounds val u η)
variable {n m p : Nat} {sys : StateSpace T} {A : Matrix (Fin n) (Fin n) T} {B : Matrix (Fin n) (Fin m) T} {C : Matrix (Fin p) (Fin n) T}
  {D : Matrix (Fin p) (Fin m) T}

/-- The bound of C126 for the state after `k` steps: the errors `ε` and `ω` of the two matrices, rounding, underflow. -/
noncomputable def stateErr (u η : ℝ) (n m : Nat) (ε ω θ β ξ υ : ℝ) (k : Nat) : ℝ :=
  (ε * ξ + ω * υ) * ∑ j ∈ Finset.range k, θ ^ j + ((1 + u) ^ (k * (max n m + 1)) - 1) * (θ ^ k * ξ + β * υ * ∑ j ∈ Finset.range k, θ ^ j) + underSum u η n m θ k

/-- The bound of C126 for the output of step `k`. -/
noncomputable def outputErr (u η : ℝ) (n m : Nat) (ε ω θ β ξ υ γ δ : ℝ) (k : Nat) : ℝ :=
  γ * ((ε * ξ + ω * υ) * ∑ j ∈ Finset.range k, θ ^ j) +
    ((1 + u) ^ ((k + 1) * (max n m + 1)) - 1) * (γ * (θ ^ k * ξ + β * υ * ∑ j ∈ Finset.range k, θ ^ j) + δ * υ) +
    (1 + u) * ((1 + u) ^ n * (γ * underSum u η n m θ k) + n * (1 + u) ^ (n - 1) * η + m * (1 + u) ^ (m - 1) * η)

omit [Zero T] [One T] [Add T] [Sub T] [Mul T] [Neg T] [CDiv T] in
/-- The states and outputs of a simulation whose errors are those of C116 are near the solution of the differential equation. Here `P` and `Q` say which
elements have these errors. -/
theorem ode_near (hu : 0 ≤ u) (hη : 0 ≤ η) {A E : Matrix (Fin n) (Fin n) T} {B Bd : Matrix (Fin n) (Fin m) T} {C : Matrix (Fin p) (Fin n) T}
    {D : Matrix (Fin p) (Fin m) T} (hn : 0 < n) (hm : 0 < m) (hp : 0 < p) {τ : ℝ} (hdt : 0 < τ) (hA : (A.map val).det ≠ 0) {N K : Nat} (w : Nat → Nat → T)
    (x0 : Nat → T) {x : ℝ → Fin n → ℝ} (hx : Solves (A.map val) (B.map val) (vtab N fun l j => val (w l j)) τ x)
    (hx0 : ∀ i : Fin n, x 0 i = val (x0 i)) {ε φ ψ α b ξ υ γ δ ω θ β : ℝ}
    (hε : ∀ i, ∑ j, |val (E i j) - NormedSpace.exp (τ • A.map val) i j| ≤ ε) (hφ : ∀ i, ∑ j, |NormedSpace.exp (τ • A.map val) i j| ≤ φ)
    (hψ : ∀ i, ∑ j, |(NormedSpace.exp (τ • A.map val) - 1) i j| ≤ ψ) (hα : ∀ i, ∑ j, |(A.map val)⁻¹ i j| ≤ α) (hb : ∀ i, ∑ j, |val (B i j)| ≤ b)
    (hG : ∀ i, ∑ j, |val (Bd i j) - ((A.map val)⁻¹ * (NormedSpace.exp (τ • A.map val) - 1) * B.map val : Matrix (Fin n) (Fin m) ℝ) i j| ≤ ω)
    (hξ : ∀ k, k < min N K → ∀ i, |x (k * τ) i| ≤ ξ) (hυ : ∀ k, k < min N K → ∀ j, j < m → |val (w k j)| ≤ υ)
    (hγ : ∀ i, ∑ j, |val (C i j)| ≤ γ) (hδ : ∀ i, ∑ j, |val (D i j)| ≤ δ) (hθ : θ = φ + ε) (hβ : β = α * ψ * b + ω) {X Y : Nat → Nat → T}
    {P : Nat → Fin n → Prop} {Q : Nat → Fin p → Prop}
    (hX : ∀ k (i : Fin n), P k i → |val (X k i) - traj (E.map val) (Bd.map val) (fun j => val (x0 j)) (fun l j => val (w l j)) k i| ≤
      ((1 + u) ^ (k * (max n m + 1)) - 1) * traj (E.map (|val ·|)) (Bd.map (|val ·|)) (fun j => |val (x0 j)|) (fun l j => |val (w l j)|) k i +
        simUnder u η m (E.map (|val ·|)) k i)
    (hY : ∀ k (i : Fin p), Q k i →
      |val (Y k i) - (C.map val *ᵥ traj (E.map val) (Bd.map val) (fun j => val (x0 j)) (fun l j => val (w l j)) k + D.map val *ᵥ fun l => val (w k l)) i| ≤
      ((1 + u) ^ ((k + 1) * (max n m + 1)) - 1) *
          (C.map (|val ·|) *ᵥ traj (E.map (|val ·|)) (Bd.map (|val ·|)) (fun j => |val (x0 j)|) (fun l j => |val (w l j)|) k +
            D.map (|val ·|) *ᵥ fun l => |val (w k l)|) i +
        (1 + u) * ((1 + u) ^ n * (C.map (|val ·|) *ᵥ simUnder u η m (E.map (|val ·|)) k) i + n * (1 + u) ^ (n - 1) * η + m * (1 + u) ^ (m - 1) * η)) :
    (∀ k, k ≤ min N K → ∀ i : Fin n, P k i → |val (X k i) - x (k * τ) i| ≤ stateErr u η n m ε ω θ β ξ υ k) ∧
    (∀ k, k < min N K → ∀ i : Fin p, Q k i → |val (Y k i) - (C.map val *ᵥ x (k * τ) + D.map val *ᵥ fun j => val (w k j)) i| ≤
      outputErr u η n m ε ω θ β ξ υ γ δ k) := by
  have ε0 : 0 ≤ ε := (Finset.sum_nonneg fun j _ => abs_nonneg _).trans (hε ⟨0, hn⟩)
  have φ0 : 0 ≤ φ := (Finset.sum_nonneg fun j _ => abs_nonneg _).trans (hφ ⟨0, hn⟩)
  have ψ0 : 0 ≤ ψ := (Finset.sum_nonneg fun j _ => abs_nonneg _).trans (hψ ⟨0, hn⟩)
  have α0 : 0 ≤ α := (Finset.sum_nonneg fun j _ => abs_nonneg _).trans (hα ⟨0, hn⟩)
  have b0 : 0 ≤ b := (Finset.sum_nonneg fun j _ => abs_nonneg _).trans (hb ⟨0, hn⟩)
  have ω0 : 0 ≤ ω := (Finset.sum_nonneg fun j _ => abs_nonneg _).trans (hG ⟨0, hn⟩)
  have γ0 : 0 ≤ γ := (Finset.sum_nonneg fun j _ => abs_nonneg _).trans (hγ ⟨0, hp⟩)
  have θ0 : 0 ≤ θ := by rw [hθ]; positivity
  have β0 : 0 ≤ β := by rw [hβ]; positivity
  set F := NormedSpace.exp (τ • A.map val) with hF
  set H : Matrix (Fin n) (Fin m) ℝ := (A.map val)⁻¹ * (F - 1) * B.map val with hH
  set us : List (Fin m → ℝ) := vtab N fun l j => val (w l j) with hus
  have hE' : ∀ i, ∑ j, |(E.map (|val ·|)) i j| ≤ θ := fun i => by
    rw [hθ]
    calc ∑ j, |(E.map (|val ·|)) i j| ≤ ∑ j, (|F i j| + |val (E i j) - F i j|) := Finset.sum_le_sum fun j _ => by
          have := abs_add_le (F i j) (val (E i j) - F i j)
          rw [add_sub_cancel] at this
          rwa [Matrix.map_apply, abs_abs]
      _ ≤ φ + ε := by rw [Finset.sum_add_distrib]; exact add_le_add (hφ i) (hε i)
  have hHb : ∀ i, ∑ j, |H i j| ≤ α * ψ * b := by
    have hmul : ∀ {n l q : Nat} (P : Matrix (Fin n) (Fin l) ℝ) (Q : Matrix (Fin l) (Fin q) ℝ) {s t : ℝ}, (∀ i, ∑ j, |P i j| ≤ s) → (∀ i, ∑ j, |Q i j| ≤ t) →
        0 ≤ t → ∀ i, ∑ j, |(P * Q) i j| ≤ s * t := by
      intro n l q P Q s t hP hQ ht i
      calc ∑ j, |(P * Q) i j| ≤ ∑ j, ∑ k, |P i k| * |Q k j| := Finset.sum_le_sum fun j _ => by
            rw [Matrix.mul_apply]
            exact (Finset.abs_sum_le_sum_abs _ _).trans (le_of_eq (Finset.sum_congr rfl fun k _ => abs_mul _ _))
        _ = ∑ k, |P i k| * ∑ j, |Q k j| := by rw [Finset.sum_comm]; simp only [Finset.mul_sum]
        _ ≤ ∑ k, |P i k| * t := Finset.sum_le_sum fun k _ => mul_le_mul_of_nonneg_left (hQ k) (abs_nonneg _)
        _ = (∑ k, |P i k|) * t := by rw [Finset.sum_mul]
        _ ≤ s * t := mul_le_mul_of_nonneg_right (hP i) ht
    exact hmul _ _ (hmul _ _ hα hψ ψ0) hb b0
  have hG' : ∀ i, ∑ j, |(Bd.map (|val ·|)) i j| ≤ β := fun i => by
    rw [hβ]
    calc ∑ j, |(Bd.map (|val ·|)) i j| ≤ ∑ j, (|H i j| + |val (Bd i j) - H i j|) := Finset.sum_le_sum fun j _ => by
          have := abs_add_le (H i j) (val (Bd i j) - H i j)
          rw [add_sub_cancel] at this
          rwa [Matrix.map_apply, abs_abs]
      _ ≤ α * ψ * b + ω := by rw [Finset.sum_add_distrib]; exact add_le_add (hHb i) (hG i)
  -- the inputs of the differential equation and of the simulation
  have hcong : ∀ k, k ≤ min N K → traj (E.map val) (Bd.map val) (fun j => val (x0 j)) (fun l j => val (w l j)) k =
      traj (E.map val) (Bd.map val) (x 0) (fun j => us.getD j 0) k := by
    intro k
    induction k with
    | zero => intro _; exact funext fun i => (hx0 i).symm
    | succ k ih =>
      intro hk
      rw [traj, traj, ih (by omega)]
      have : us.getD k 0 = fun j : Fin m => val (w k j) := by
        rw [List.getD_eq_getElem?_getD, List.getElem?_eq_getElem (by rw [hus, vtab_length]; omega)]
        simp [hus, vtab]
      rw [this]
  have hS := solves_traj hA hdt hx
  have hsize : ∀ k, k ≤ min N K → ∀ i, |traj (E.map (|val ·|)) (Bd.map (|val ·|)) (fun j : Fin n => |val (x0 j)|) (fun l (j : Fin m) => |val (w l j)|) k i| ≤
      (if k = 0 then |val (x0 i)| else θ ^ k * ξ + β * υ * ∑ j ∈ Finset.range k, θ ^ j) := by
    intro k hk i
    rcases Nat.eq_zero_or_pos k with rfl | hk0
    · simp [traj]
    have ξ0 : 0 ≤ ξ := (abs_nonneg _).trans (hξ 0 (by omega) ⟨0, hn⟩)
    have υ0 : 0 ≤ υ := (abs_nonneg _).trans (hυ 0 (by omega) 0 hm)
    rw [if_neg (by omega)]
    refine traj_bound hE' hG' (N := min N K) (fun i => ?_) (fun k hk j => ?_) θ0 β0 ξ0 υ0 k hk i
    · rw [abs_abs, ← hx0]
      have := hξ 0 (by omega) i
      rwa [Nat.cast_zero, zero_mul] at this
    · rw [abs_abs]; exact hυ k hk j j.2
  have hdrift : ∀ k, k ≤ min N K → ∀ i, |traj (E.map val) (Bd.map val) (fun j => val (x0 j)) (fun l j => val (w l j)) k i - x (k * τ) i| ≤
      (ε * ξ + ω * υ) * ∑ j ∈ Finset.range k, θ ^ j := by
    intro k hk i
    rcases Nat.eq_zero_or_pos k with rfl | hk0
    · simp [traj, hx0]
    have ξ0 : 0 ≤ ξ := (abs_nonneg _).trans (hξ 0 (by omega) ⟨0, hn⟩)
    have υ0 : 0 ≤ υ := (abs_nonneg _).trans (hυ 0 (by omega) 0 hm)
    rw [hcong k hk, hS k, hθ]
    refine traj_drift' hε hφ hG (N := min N K) (fun j hj i => by rw [← hS j]; exact hξ j hj i) (fun k hk j => ?_) ε0 ω0 φ0 ξ0 υ0 k hk i
    have : us.getD k 0 = fun j : Fin m => val (w k j) := by
      rw [List.getD_eq_getElem?_getD, List.getElem?_eq_getElem (by rw [hus, vtab_length]; omega)]
      simp [hus, vtab]
    rw [this]
    exact hυ k hk j j.2
  have hpow : ∀ k : Nat, 0 ≤ (1 + u) ^ k - 1 := fun k => by
    have : (1 : ℝ) ≤ (1 + u) ^ k := one_le_pow₀ (by linarith)
    linarith
  have hund : ∀ k (i : Fin n), |simUnder u η m (E.map (|val ·|)) k i| ≤ underSum u η n m θ k := simUnder_bound hu hη hE' θ0
  constructor
  · intro k hk i hP
    have h1 := hX k i hP
    have h2 := hdrift k hk i
    have h3 := hsize k hk i
    have h4 := (le_abs_self _).trans (hund k i)
    have h5 := abs_sub_le (val (X k i)) (traj (E.map val) (Bd.map val) (fun j => val (x0 j)) (fun l j => val (w l j)) k i) (x (k * τ) i)
    have h6 : ((1 + u) ^ (k * (max n m + 1)) - 1) *
        traj (E.map (|val ·|)) (Bd.map (|val ·|)) (fun j : Fin n => |val (x0 j)|) (fun l (j : Fin m) => |val (w l j)|) k i ≤
        ((1 + u) ^ (k * (max n m + 1)) - 1) * (θ ^ k * ξ + β * υ * ∑ j ∈ Finset.range k, θ ^ j) := by
      rcases Nat.eq_zero_or_pos k with rfl | hk0
      · simp
      · rw [if_neg (by omega)] at h3
        exact mul_le_mul_of_nonneg_left ((le_abs_self _).trans h3) (hpow _)
    unfold stateErr
    linarith
  · intro k hk i hQ
    have ξ0 : 0 ≤ ξ := (abs_nonneg _).trans (hξ 0 (by omega) ⟨0, hn⟩)
    have υ0 : 0 ≤ υ := (abs_nonneg _).trans (hυ 0 (by omega) 0 hm)
    have hU0 : 0 ≤ underSum u η n m θ k := (abs_nonneg _).trans (hund k ⟨0, hn⟩)
    have h1 := hY k i hQ
    have hγ' : ∀ i, ∑ j, |(C.map (|val ·|)) i j| ≤ γ := fun i => by simpa [abs_abs] using hγ i
    have hδ' : ∀ i, ∑ j, |(D.map (|val ·|)) i j| ≤ δ := fun i => by simpa [abs_abs] using hδ i
    have hsz : ∀ i, |traj (E.map (|val ·|)) (Bd.map (|val ·|)) (fun j : Fin n => |val (x0 j)|) (fun l (j : Fin m) => |val (w l j)|) k i| ≤
        θ ^ k * ξ + β * υ * ∑ j ∈ Finset.range k, θ ^ j := by
      intro i
      have h3 := hsize k hk.le i
      rcases Nat.eq_zero_or_pos k with rfl | hk0
      · rw [if_pos rfl, ← hx0] at h3
        have := hξ 0 (by omega) i
        rw [Nat.cast_zero, zero_mul] at this
        simpa using h3.trans this
      · rwa [if_neg (by omega)] at h3
    have h2 := mulVec_bound (M := C.map val) hγ (v := traj (E.map val) (Bd.map val) (fun j => val (x0 j)) (fun l j => val (w l j)) k - x (k * τ))
      (fun j => hdrift k hk.le j) ((abs_nonneg _).trans (hdrift k hk.le ⟨0, hn⟩)) i
    have h3 := mulVec_bound hγ' hsz ((abs_nonneg _).trans (hsz ⟨0, hn⟩)) i
    have h4 := mulVec_bound hδ' (v := fun l : Fin m => |val (w k l)|) (fun l => by rw [abs_abs]; exact hυ k hk l l.2) υ0 i
    have h5 := mulVec_bound hγ' (hund k) hU0 i
    have h6 := mul_le_mul_of_nonneg_left (add_le_add ((le_abs_self _).trans h3) ((le_abs_self _).trans h4)) (hpow ((k + 1) * (max n m + 1)))
    have h7 := mul_le_mul_of_nonneg_left ((le_abs_self _).trans h5) (show 0 ≤ (1 + u) * (1 + u) ^ n by positivity)
    rw [mulVec_sub] at h2
    have h8 := abs_sub_le (val (Y k i)) ((C.map val *ᵥ traj (E.map val) (Bd.map val) (fun j => val (x0 j)) (fun l j => val (w l j)) k +
      D.map val *ᵥ fun l => val (w k l)) i) ((C.map val *ᵥ x (k * τ) + D.map val *ᵥ fun j => val (w k j)) i)
    have h9 : |(C.map val *ᵥ traj (E.map val) (Bd.map val) (fun j => val (x0 j)) (fun l j => val (w l j)) k +
      D.map val *ᵥ fun l => val (w k l)) i - (C.map val *ᵥ x (k * τ) + D.map val *ᵥ fun j => val (w k j)) i| ≤
        γ * ((ε * ξ + ω * υ) * ∑ j ∈ Finset.range k, θ ^ j) := by
      rw [Pi.add_apply, Pi.add_apply, add_sub_add_right_eq_sub]
      exact h2
    rw [← Pi.add_apply] at h6
    unfold outputErr
    linarith

include R in
/-- C126: discretise in floating point, simulate in floating point, and compare with the solution of the differential equation. With `E` and `V` the
computed exponential and inverse, and `ε`, `ρ` bounds for their errors, the states and outputs differ from the ones of the solution at the sample times by at
most `stateErr` and `outputErr`; `ω` is the error of the discrete input matrix. -/
theorem C126_simulate (one : val 1 = 1) (isz : T → Bool) {ex : MB T → Res (Mat T)} (h : sys.Is A B C D) (hn : 0 < n) (hm : 0 < m) (hp : 0 < p)
    (hna : n < allocMax) (hma : m < allocMax) (hpa : p < allocMax) {dt : T} (hdt : 0 < val dt)
    {E V : Matrix (Fin n) (Fin n) T} (hE : Yields (mulS sys.A.toMB dt >>= fun X => ex X.toMB) E) (hV : Yields (Lin.inverse isz sys.A.toMB) V)
    (hA : (A.map val).det ≠ 0) {N K : Nat} (w : Nat → Nat → T) (x0 : Nat → T) {toSize : T → Res Nat} {r st : T} (hr : cdiv st dt = .ok r)
    (hK : toSize r = .ok K) {x : ℝ → Fin n → ℝ} (hx : Solves (A.map val) (B.map val) (vtab N fun l j => val (w l j)) (val dt) x)
    (hx0 : ∀ i : Fin n, x 0 i = val (x0 i)) {ε φ ψ α ρ b ξ υ γ δ ω θ β : ℝ}
    (hε : ∀ i, ∑ j, |val (E i j) - NormedSpace.exp (val dt • A.map val) i j| ≤ ε) (hφ : ∀ i, ∑ j, |NormedSpace.exp (val dt • A.map val) i j| ≤ φ)
    (hψ : ∀ i, ∑ j, |(NormedSpace.exp (val dt • A.map val) - 1) i j| ≤ ψ) (hα : ∀ i, ∑ j, |(A.map val)⁻¹ i j| ≤ α)
    (hρ : ∀ i, ∑ j, |val (V i j) - (A.map val)⁻¹ i j| ≤ ρ) (hb : ∀ i, ∑ j, |val (B i j)| ≤ b)
    (hξ : ∀ k, k < min N K → ∀ i, |x (k * val dt) i| ≤ ξ) (hυ : ∀ k, k < min N K → ∀ j, j < m → |val (w k j)| ≤ υ)
    (hγ : ∀ i, ∑ j, |val (C i j)| ≤ γ) (hδ : ∀ i, ∑ j, |val (D i j)| ≤ δ)
    (hω : ω = inputErr u η n m α ρ ψ ε b) (hθ : θ = φ + ε) (hβ : β = α * ψ * b + ω) :
    ∃ (d : DiscreteStateSpace T) (t : List T) (X Y : Nat → Nat → T), c2d isz ex sys dt = .ok d ∧
      simulate toSize d (vtab N fun l => vtab m (w l)) st (vtab n x0) = .ok (t, vtab (min N K + 1) fun k => vtab n (X k), vtab (min N K) fun k => vtab p (Y k)) ∧
      (∀ k, k ≤ min N K → ∀ i : Fin n, |val (X k i) - x (k * val dt) i| ≤ stateErr u η n m ε ω θ β ξ υ k) ∧
      (∀ k, k < min N K → ∀ i : Fin p, |val (Y k i) - (C.map val *ᵥ x (k * val dt) + D.map val *ᵥ fun j => val (w k j)) i| ≤
        outputErr u η n m ε ω θ β ξ υ γ δ k) := by
  have hu := R.u_nonneg
  have hη := R.η_nonneg
  obtain ⟨d, Bd, e1, hd, e3, hBd⟩ := C126_c2d R one isz h hn hm hp hE hV
  have hG := hBd _ _ hα hρ hψ hε hb
  rw [← hω] at hG
  obtain ⟨a', ra, hae⟩ := id hd.a
  obtain ⟨b', rb, hbe⟩ := id hd.b
  obtain ⟨c', rc, hce⟩ := id hd.c
  obtain ⟨d', rd, hde⟩ := id hd.d
  subst e3
  obtain ⟨t, X, Y, e4, hX, hY⟩ := C116_simulate R ra.toRepAt rb.toRepAt rc.toRepAt rd.toRepAt hna hma hpa (N := N) w x0 hr hK
  rw [hae, hbe] at hX
  rw [hae, hbe, hce, hde] at hY
  exact ⟨d, t, X, Y, e1, e4, (ode_near hu hη hn hm hp hdt hA w x0 hx hx0 hε hφ hψ hα hb hG hξ hυ hγ hδ hθ hβ (P := fun _ _ => True) (Q := fun _ _ => True)
    (fun k i _ => hX k i) fun k i _ => hY k i).imp (fun h k hk i => h k hk i trivial) fun h k hk i => h k hk i trivial⟩

end

section
open scoped Matrix.Norms.Operator

/-- The error of the computed exponential of `A dt` in `double`: that of C124 and that of the product `A dt`; `x` bounds the row sums of `A dt`. -/
noncomputable def expFlErr (n k p : Nat) (x : ℝ) : ℝ :=
  (2 ^ k * (((n + 5) * p + n + 4 : Nat) / 2 ^ 52 + ((1 + 1 / 2 ^ 40) * min 1 x) ^ (p + 1) / (p + 1).factorial) + (x / 2 ^ 53 + n / 2 ^ 1075)) * Real.exp x

set_option exponentiation.threshold 3000 in
/-- C126: the matrix exponential that `c2d` computes in `double`. Here `y` bounds the row sums of the rounded product `A dt`. -/
theorem C126_exponential {A : Mat Double} {n : Nat} {M : Matrix (Fin n) (Fin n) Double} (hA : A.toMB.Is M) (hn0 : 0 < n) (hn : n ≤ 2 ^ 10) {tol : Double}
    (ht : |tol.val| ≤ 1 / 4) {sqrt : Double → Double} {half : Double} (hh : half.val = 1 / 2) {accuracy : Double} (hacc : |accuracy.val| ≤ 1)
    {fuel : Nat} {dt : Double} {X : Mat Double}
    (hr : (mulS A.toMB dt >>= fun Z => expm (Feq.approxZero Fl.abs tol) Fl.abs sqrt half Z.toMB accuracy fuel) = .ok X)
    {x : ℝ} (hx : ∀ i, ∑ j, |((M i j).val : ℝ)| * |(dt.val : ℝ)| ≤ x) {y : ℝ} (hy : y = (1 + 1 / 2 ^ 53) * x + n / 2 ^ 1075) (hx29 : y ≤ 2 ^ 30) :
    ∃ (k p : Nat) (E : Matrix (Fin n) (Fin n) Double), X.WF ∧ X.toMB.Is E ∧ (n * n ≤ p ∨ p = 177) ∧ p ≤ 177 ∧
      (0 < k → 2 ^ k < 2 * y * (1 + 1 / 2 ^ 40)) ∧
      ∀ i, ∑ j, |((E i j).val : ℝ) - NormedSpace.exp ((dt.val : ℝ) • M.map fun z => (z.val : ℝ)) i j| ≤ expFlErr n k p y := by
  have : NeZero n := ⟨hn0.ne'⟩
  have hf := hA.fits
  obtain ⟨e, h, rfl⟩ := id hA
  have eZ : mulS A.toMB dt = .ok (Mat.ofFn n n fun i j => e i j * dt) := mapMat_eq h fun _ _ _ _ => rfl
  rw [eZ, Res.ok_bind] at hr
  have hx0 : 0 ≤ x := (Finset.sum_nonneg fun j _ => by positivity).trans (hx ⟨0, hn0⟩)
  have hy0 : 0 ≤ y := by rw [hy]; positivity
  have hxy : x ≤ y := by
    have : 0 ≤ 1 / 2 ^ 53 * x + n / 2 ^ 1075 := by positivity
    rw [hy]; linarith
  have hMn : ‖(dt.val : ℝ) • (toM n n e).map fun z => (z.val : ℝ)‖ ≤ x := by
    refine norm_le_of_rows hx0 fun i => ?_
    refine le_trans (le_of_eq (Finset.sum_congr rfl fun j _ => ?_)) (hx i)
    rw [Matrix.smul_apply, smul_eq_mul, abs_mul, mul_comm]
    rfl
  have hd : ‖(toM n n fun i j => e i j * dt).map (fun z => (z.val : ℝ)) - (dt.val : ℝ) • (toM n n e).map fun z => (z.val : ℝ)‖ ≤ x / 2 ^ 53 + n / 2 ^ 1075 := by
    have h1 := smul_norm_err double_rounds (n := n) e dt
    have h2 : ‖(toM n n e).map fun z => (z.val : ℝ)‖ * |(dt.val : ℝ)| ≤ x := by
      rw [norm_smul, Real.norm_eq_abs, mul_comm] at hMn
      exact hMn
    have h3 := mul_le_mul_of_nonneg_left h2 (show (0 : ℝ) ≤ 1 / 2 ^ 53 by positivity)
    rw [mul_one_div] at h1
    exact h1.trans (by rw [div_eq_mul_one_div x, mul_comm x]; exact add_le_add h3 le_rfl)
  have hZn : ‖(toM n n fun i j => e i j * dt).map (fun z => (z.val : ℝ))‖ ≤ y := by
    have := norm_add_le ((toM n n fun i j => e i j * dt).map (fun z => (z.val : ℝ)) - (dt.val : ℝ) • (toM n n e).map fun z => (z.val : ℝ))
      ((dt.val : ℝ) • (toM n n e).map fun z => (z.val : ℝ))
    rw [sub_add_cancel] at this
    rw [hy]
    linarith
  -- the largest row sum of the computed product
  obtain ⟨i₀, -, hi₀⟩ := Finset.exists_max_image Finset.univ (fun i : Fin n => ∑ j, |((toM n n (fun i j => e i j * dt) i j).val : ℝ)|) ⟨⟨0, hn0⟩, Finset.mem_univ _⟩
  set z := ∑ j, |((toM n n (fun i j => e i j * dt) i₀ j).val : ℝ)| with hz
  have hzy : z ≤ y := (row_sum_le_norm ((toM n n fun i j => e i j * dt).map fun z => (z.val : ℝ)) i₀).trans hZn
  have hz0 : 0 ≤ z := Finset.sum_nonneg fun j _ => abs_nonneg _
  obtain ⟨k, p, E, g1, g2, g3, g4, -, g6, g7⟩ := C124_double (ofFn_rep hf fun i j => e i j * dt).is hn ht hh hacc hr
    (fun i => hi₀ i (Finset.mem_univ _)) ⟨i₀, rfl⟩ (hzy.trans hx29)
  refine ⟨k, p, E, g1, g2, g3, g4, fun hk => (g6 hk).trans_le ?_, fun i => ?_⟩
  · have : 2 * z ≤ 2 * y := by linarith
    exact mul_le_mul_of_nonneg_right this (by norm_num)
  have hp1 := exp_perturb hZn (hMn.trans hxy)
  have hp2 := (row_sum_le_norm (NormedSpace.exp ((toM n n fun i j => e i j * dt).map fun z => (z.val : ℝ)) -
    NormedSpace.exp ((dt.val : ℝ) • (toM n n e).map fun z => (z.val : ℝ))) i).trans (hp1.trans (mul_le_mul_of_nonneg_right hd (Real.exp_pos _).le))
  have hm0 : 0 ≤ min 1 z := le_min zero_le_one hz0
  have hmono : 2 ^ k * Real.exp z * (((n + 5) * p + n + 4 : Nat) / 2 ^ 52 + ((1 + 1 / 2 ^ 40) * min 1 z) ^ (p + 1) / (p + 1).factorial) ≤
      2 ^ k * Real.exp y * (((n + 5) * p + n + 4 : Nat) / 2 ^ 52 + ((1 + 1 / 2 ^ 40) * min 1 y) ^ (p + 1) / (p + 1).factorial) := by gcongr
  have htri : ∑ j, |((E i j).val : ℝ) - NormedSpace.exp ((dt.val : ℝ) • (toM n n e).map fun z => (z.val : ℝ)) i j| ≤
      ∑ j, |((E i j).val : ℝ) - NormedSpace.exp ((toM n n fun i j => e i j * dt).map fun z => (z.val : ℝ)) i j| +
      ∑ j, |(NormedSpace.exp ((toM n n fun i j => e i j * dt).map fun z => (z.val : ℝ)) -
        NormedSpace.exp ((dt.val : ℝ) • (toM n n e).map fun z => (z.val : ℝ))) i j| := by
    rw [← Finset.sum_add_distrib]
    exact Finset.sum_le_sum fun j _ => abs_sub_le _ _ _
  have h7 := g7 i
  have hxe : (x / 2 ^ 53 + n / 2 ^ 1075) * Real.exp y ≤ (y / 2 ^ 53 + n / 2 ^ 1075) * Real.exp y := by gcongr
  unfold expFlErr
  linarith

end
end Malg
