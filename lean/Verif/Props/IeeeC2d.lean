import Verif.Model.IeeeSqrt
import Verif.Props.IeeeInv
import Verif.Props.Oscillator
/-!
# Property C128: discretisation and simulation on IEEE doubles

C126 bounds the error of `c2d` and of the simulation that follows, in an arithmetic without largest number. Here the numbers are IEEE doubles.
-/
namespace Malg
open Ops Lin Control Ieee Matrix

set_option exponentiation.threshold 3000

theorem ireads : Reads (fl : IDouble → Option Double) := reads (by decide) (by decide) (by decide)

/-- The value of a double as a real number. -/
noncomputable def rval (z : IDouble) : ℝ := (z.val : ℝ)

theorem rval_flD (z : IDouble) : rval z = (z.flD.val : ℝ) := rfl

/-- Sums of up to `2^q` numbers. -/
theorem Sz.sum {a : Nat → IDouble} {x : Nat → Double} {e q n : Nat} (hn : n ≤ 2 ^ q) (hq : q ≤ 53) (h : ∀ i, i < n → Sz (a i) (x i) e) (hg : e + q < 1024) :
    Sz (lsum n a) (lsum n x) (e + q) := by
  have key : ∀ k, k ≤ n → (lsum k a).fl = some (lsum k x) ∧ |(lsum k x).val| ≤ k * 2 ^ e := by
    intro k
    induction k with
    | zero => exact fun _ => ⟨ireads.zero, by rw [show (lsum 0 x).val = 0 from rfl]; simp⟩
    | succ k ih =>
      intro hk
      obtain ⟨h1, h2⟩ := ih (by omega)
      obtain ⟨h3, h4⟩ := h k (by omega)
      have h5 : |(lsum k x).val + (x k).val| ≤ (k + 1 : ℕ) * 2 ^ e := (abs_add_le _ _).trans (by push_cast; linarith)
      have h6 : rnd (K := ℚ) 53 (-1074) ((k + 1 : ℕ) * 2 ^ e) = (k + 1 : ℕ) * 2 ^ e := rnd_exact (by decide)
        ⟨(k + 1 : ℕ), e, by omega, by
          rw [abs_of_nonneg (by positivity)]
          exact_mod_cast (hk.trans hn).trans (Nat.pow_le_pow_right (by norm_num) hq), by rw [Int.cast_natCast, zpow_natCast]⟩
      have h7 : |(lsum (k + 1) x).val| ≤ (k + 1 : ℕ) * 2 ^ e := by
        obtain ⟨g1, g2⟩ := abs_le.1 h5
        refine abs_le.2 ⟨?_, ?_⟩
        · have := rnd_mono (p := 53) (by decide) (-1074) g1
          rwa [rnd_neg, h6] at this
        · have := rnd_mono (p := 53) (by decide) (-1074) g2
          rwa [h6] at this
      refine ⟨fl_add h1 h3 (h7.trans_lt ?_), h7⟩
      calc ((k + 1 : ℕ) : ℚ) * 2 ^ e ≤ 2 ^ q * 2 ^ e := by
            refine mul_le_mul_of_nonneg_right ?_ (by positivity)
            exact_mod_cast hk.trans hn
        _ = 2 ^ (e + q) := by rw [← pow_add, add_comm]
        _ < 2 ^ 1024 := pow_lt_max hg
  obtain ⟨h1, h2⟩ := key n le_rfl
  refine ⟨h1, h2.trans ?_⟩
  calc (n : ℚ) * 2 ^ e ≤ 2 ^ q * 2 ^ e := by
        refine mul_le_mul_of_nonneg_right ?_ (by positivity)
        exact_mod_cast hn
    _ = 2 ^ (e + q) := by rw [← pow_add, add_comm]

theorem Sz.zero : Sz 0 0 0 := ⟨ireads.zero, by rw [show (0 : Double).val = 0 from rfl]; norm_num⟩

theorem Sz.of_finite {a : IDouble} {e : Nat} (h : a.Finite) (h2 : |a.val| ≤ 2 ^ e) : Sz a a.flD e := ⟨h.fl_eq, h2⟩

theorem Sz.finite {a : IDouble} {x : Double} {e : Nat} (h : Sz a x e) : a.Finite := Option.isSome_iff_exists.2 ⟨_, h.1⟩

section
variable {n m p : Nat} {sys : StateSpace IDouble} {A : Matrix (Fin n) (Fin n) IDouble} {B : Matrix (Fin n) (Fin m) IDouble} {C : Matrix (Fin p) (Fin n) IDouble}
  {D : Matrix (Fin p) (Fin m) IDouble}

theorem rd_inputTable (n : Nat) (e v b : Nat → Nat → IDouble) (i j : Nat) :
    Rd fl (inputTable n e v b i j) (inputTable n (fun i j => (e i j).flD) (fun i j => (v i j).flD) (fun i j => (b i j).flD) i j) := by
  refine ireads.rd_lsum fun k _ => ireads.rd_mul (ireads.rd_lsum fun l _ => ireads.rd_mul (rd_flD _) (ireads.rd_sub (rd_flD _) ?_)) (rd_flD _)
  split
  · exact ireads.rd_one
  · exact ireads.rd_zero

theorem inputTable_sz {e v b : Nat → Nat → IDouble} {i j : Nat} (hn : n ≤ 2 ^ 10) (he : ∀ i j, i < n → j < n → Sz (e i j) (e i j).flD 200)
    (hv : ∀ i j, i < n → j < n → Sz (v i j) (v i j).flD 200) (hb : ∀ i j, i < n → j < m → Sz (b i j) (b i j).flD 200) (hi : i < n) (hj : j < m) :
    Sz (inputTable n e v b i j) (inputTable n (fun i j => (e i j).flD) (fun i j => (v i j).flD) (fun i j => (b i j).flD) i j) 621 := by
  refine Sz.sum (e := 611) (q := 10) hn (by norm_num) (fun k hk => ?_) (by norm_num)
  refine Sz.mul (e := 411) (f := 200) (Sz.sum (e := 401) (q := 10) hn (by norm_num) (fun l hl => ?_) (by norm_num)) (hb k j hk hj) (by norm_num)
  refine Sz.mul (e := 200) (f := 201) (hv i l hi hl) (Sz.sub (e := 200) (by norm_num) (he l k hl hk) ?_) (by norm_num)
  split
  · exact Sz.one.mono (by norm_num)
  · exact Sz.zero.mono (by norm_num)

theorem inputTable_finite {e v b : Nat → Nat → IDouble} {i j : Nat} (h : (inputTable n e v b i j).Finite) :
    (∀ l, l < n → (v i l).Finite) ∧ (∀ k l, k < n → l < n → (e k l).Finite) ∧ ∀ k, k < n → (b k j).Finite := by
  have h1 := fun k hk => ireads.some_mul (ireads.some_lsum h k hk)
  have h2 := fun k l hk hl => ireads.some_mul (ireads.some_lsum (h1 k hk).1 l hl)
  refine ⟨fun l hl => (h2 l l hl hl).1, fun k l hk hl => ?_, fun k hk => (h1 k hk).2⟩
  exact (ireads.some_sub (h2 l k hl hk).2).1

/-- C128: `c2d` in `double`, with `V` the computed inverse of `A` and `E` the computed exponential. Overflow shows in the input matrix: its elements are finite
only if `E` is and the row of `V` and the column of `B` are. Each finite row satisfies the bound of C126. All rows are finite if the elements of `E`, `V` and `B`
are and do not exceed `2^200`, up to order 1024. -/
theorem C128_c2d (isz : IDouble → Bool) {ex : MB IDouble → Res (Mat IDouble)} (h : sys.Is A B C D) (hn : 0 < n) (hm : 0 < m) (hp : 0 < p) {dt : IDouble}
    {E V : Matrix (Fin n) (Fin n) IDouble} (hE : Yields (mulS sys.A.toMB dt >>= fun X => ex X.toMB) E) (hV : Yields (Lin.inverse isz sys.A.toMB) V) :
    ∃ (d : DiscreteStateSpace IDouble) (Bd : Matrix (Fin n) (Fin m) IDouble), c2d isz ex sys dt = .ok d ∧ d.toStateSpace.Is E Bd C D ∧ d.sampleTime = dt ∧
      (∀ i j, (Bd i j).Finite → (∀ l, (V i l).Finite) ∧ (∀ k l, (E k l).Finite) ∧ ∀ k, (B k j).Finite) ∧
      (n ≤ 2 ^ 10 → (∀ i j, (E i j).Finite ∧ |(E i j).val| ≤ 2 ^ 200) → (∀ i j, (V i j).Finite ∧ |(V i j).val| ≤ 2 ^ 200) →
        (∀ i j, (B i j).Finite ∧ |(B i j).val| ≤ 2 ^ 200) → ∀ i j, (Bd i j).Finite ∧ |(Bd i j).val| ≤ 2 ^ 621) ∧
      ∀ (V₀ F : Matrix (Fin n) (Fin n) ℝ) {α ρ ψ ε b : ℝ}, (∀ i, ∑ j, |V₀ i j| ≤ α) → (∀ i, ∑ j, |rval (V i j) - V₀ i j| ≤ ρ) →
        (∀ i, ∑ j, |(F - 1) i j| ≤ ψ) → (∀ i, ∑ j, |rval (E i j) - F i j| ≤ ε) → (∀ i, ∑ j, |rval (B i j)| ≤ b) →
        ∀ i, (∀ j, (Bd i j).Finite) →
          ∑ j, |rval (Bd i j) - (V₀ * (F - 1) * B.map rval : Matrix (Fin n) (Fin m) ℝ) i j| ≤ inputErr (1 / 2 ^ 53) (1 / 2 ^ 1075) n m α ρ ψ ε b := by
  obtain ⟨d, e, v, b, rfl, rfl, rfl, h1, h2, h3⟩ := c2d_tables isz h hn hm hp hE hV
  refine ⟨d, _, h1, h2, h3, fun i j hf => ?_, fun hn' hE' hV' hB' i j => ?_, fun V₀ F α ρ ψ ε β hα hρ hψ hε hb i hf => ?_⟩
  · obtain ⟨g1, g2, g3⟩ := inputTable_finite (n := n) hf
    exact ⟨fun l => g1 l l.2, fun k l => g2 k l k.2 l.2, fun k => g3 k k.2⟩
  · have := inputTable_sz (m := m) hn' (fun i j hi hj => Sz.of_finite (hE' ⟨i, hi⟩ ⟨j, hj⟩).1 (hE' ⟨i, hi⟩ ⟨j, hj⟩).2)
      (fun i j hi hj => Sz.of_finite (hV' ⟨i, hi⟩ ⟨j, hj⟩).1 (hV' ⟨i, hi⟩ ⟨j, hj⟩).2)
      (fun i j hi hj => Sz.of_finite (hB' ⟨i, hi⟩ ⟨j, hj⟩).1 (hB' ⟨i, hi⟩ ⟨j, hj⟩).2) i.2 j.2
    refine ⟨this.finite, ?_⟩
    rw [Ieee.val, Ieee.flD, toM_apply, this.1]
    exact this.2
  · refine le_trans (le_of_eq (Finset.sum_congr rfl fun j _ => ?_))
      (input_near double_rounds double_one (fun i j => (e i j).flD) (fun i j => (v i j).flD) (fun i j => (b i j).flD) V₀ F hα hρ hψ hε hb i)
    rw [rval_flD, (hf j).eq (rd_inputTable n e v b i j)]
    rfl

/-- What `simulate` computes for a discretised system, and its error where it is finite. -/
theorem sim_ieee {d : DiscreteStateSpace IDouble} {e f c g : Nat → Nat → IDouble} (rE : Rep d.A.toMB n n e) (rB : Rep d.B.toMB n m f) (rC : Rep d.C.toMB p n c)
    (rD : Rep d.D.toMB p m g) (hna : n < allocMax) (hma : m < allocMax) (hpa : p < allocMax) {N K : Nat} (w : Nat → Nat → IDouble) (x0 : Nat → IDouble)
    {toSize : IDouble → Res Nat} {r st : IDouble} (hr : cdiv st d.sampleTime = .ok r) (hK : toSize r = .ok K) :
    ∃ (t : List IDouble) (X Y : Nat → Nat → IDouble),
      simulate toSize d (vtab N fun l => vtab m (w l)) st (vtab n x0) = .ok (t, vtab (min N K + 1) fun k => vtab n (X k), vtab (min N K) fun k => vtab p (Y k)) ∧
      (X = stateSeq n m e f x0 w ∧ Y = fun k j => (lsum n fun l => c j l * stateSeq n m e f x0 w k l) + lsum m fun l => g j l * w k l) ∧
      (∀ k (i : Fin n), (X k i).Finite →
        |rval (X k i) - traj ((toM n n e).map rval) ((toM n m f).map rval) (fun j => rval (x0 j)) (fun l j => rval (w l j)) k i| ≤
          ((1 + 1 / 2 ^ 53) ^ (k * (max n m + 1)) - 1) *
            traj ((toM n n e).map (|rval ·|)) ((toM n m f).map (|rval ·|)) (fun j => |rval (x0 j)|) (fun l j => |rval (w l j)|) k i +
          simUnder (1 / 2 ^ 53) (1 / 2 ^ 1075) m ((toM n n e).map (|rval ·|)) k i) ∧
      (∀ k (i : Fin p), (Y k i).Finite →
        |rval (Y k i) - ((toM p n c).map rval *ᵥ traj ((toM n n e).map rval) ((toM n m f).map rval) (fun j => rval (x0 j)) (fun l j => rval (w l j)) k +
            (toM p m g).map rval *ᵥ fun l => rval (w k l)) i| ≤
          ((1 + 1 / 2 ^ 53) ^ ((k + 1) * (max n m + 1)) - 1) *
            ((toM p n c).map (|rval ·|) *ᵥ traj ((toM n n e).map (|rval ·|)) ((toM n m f).map (|rval ·|)) (fun j => |rval (x0 j)|) (fun l j => |rval (w l j)|) k +
              (toM p m g).map (|rval ·|) *ᵥ fun l => |rval (w k l)|) i +
          (1 + 1 / 2 ^ 53) * ((1 + 1 / 2 ^ 53) ^ n * ((toM p n c).map (|rval ·|) *ᵥ simUnder (1 / 2 ^ 53) (1 / 2 ^ 1075) m ((toM n n e).map (|rval ·|)) k) i +
            n * (1 + 1 / 2 ^ 53) ^ (n - 1) * (1 / 2 ^ 1075) + m * (1 + 1 / 2 ^ 53) ^ (m - 1) * (1 / 2 ^ 1075))) := by
  have hst : ∀ i r, Rd fl (stateSeq n m e f x0 w i r)
      (stateSeq n m (fun i j => (e i j).flD) (fun i j => (f i j).flD) (fun j => (x0 j).flD) (fun i j => (w i j).flD) i r) := fun i r =>
    ireads.rd_stateSeq (fun r c => rd_flD _) (fun r c => rd_flD _) (fun r => rd_flD _) (fun r c => rd_flD _) i r
  have hnear := fun i j => stateSeq_near double_rounds (n := n) (m := m) (fun i j => (e i j).flD) (fun i j => (f i j).flD) (fun j => (x0 j).flD)
    (fun i j => (w i j).flD) i j
  refine ⟨_, _, _, simulate_exec rE.toRepAt rB.toRepAt rC.toRepAt rD.toRepAt hna hma hpa w x0 hr hK, ⟨rfl, rfl⟩, fun i j hfin => ?_, fun i j hfin => ?_⟩
  · have := (hnear i j).err
    rw [← hfin.eq (hst i j)] at this
    exact this
  · have := Near.line double_rounds (n := n) (m := m) (k := i)
      (x := stateSeq n m (fun i j => (e i j).flD) (fun i j => (f i j).flD) (fun j => (x0 j).flD) (fun i j => (w i j).flD) i)
      (y := fun l => (c j l).flD) (z := fun l => (g j l).flD) (w := fun l => (w i l).flD)
      (ξ := fun j => if h : j < n then traj ((toM n n e).map rval) ((toM n m f).map rval) (fun j => rval (x0 j)) (fun l j => rval (w l j)) i ⟨j, h⟩ else 0)
      (X := fun j => if h : j < n then traj ((toM n n e).map (|rval ·|)) ((toM n m f).map (|rval ·|)) (fun j => |rval (x0 j)|)
        (fun l j => |rval (w l j)|) i ⟨j, h⟩ else 0)
      (ε := fun j => if h : j < n then simUnder (1 / 2 ^ 53) (1 / 2 ^ 1075) m ((toM n n e).map (|rval ·|)) i ⟨j, h⟩ else 0)
      (fun j hj => by rw [dif_pos hj, dif_pos hj, dif_pos hj]; exact hnear i ⟨j, hj⟩)
    simp only [Finset.sum_range, Fin.is_lt, dif_pos, Fin.eta] at this
    have h2 := this.err
    have h3 := hfin.eq (ireads.rd_add (ireads.rd_lsum fun l _ => ireads.rd_mul (rd_flD (c j l)) (hst i l))
      (ireads.rd_lsum fun l _ => ireads.rd_mul (rd_flD (g j l)) (rd_flD (w i l))))
    rw [← h3] at h2
    exact h2

/-- C128: discretise in `double`, simulate in `double`, and compare with the solution of the differential equation. If the discrete input matrix is finite, each
finite state and each finite output satisfies the bound of C126. If in addition the elements of `E`, `V`, `B`, `C`, `D` and of the inputs are finite and at most
`2^200`, the order and the number of inputs are at most 1024, and the solution with its error stays below `2^200`, then everything is finite. -/
theorem C128_simulate (isz : IDouble → Bool) {ex : MB IDouble → Res (Mat IDouble)} (h : sys.Is A B C D) (hn : 0 < n) (hm : 0 < m) (hp : 0 < p)
    (hna : n < allocMax) (hma : m < allocMax) (hpa : p < allocMax) {dt : IDouble} (hdt : 0 < rval dt)
    {E V : Matrix (Fin n) (Fin n) IDouble} (hE : Yields (mulS sys.A.toMB dt >>= fun X => ex X.toMB) E) (hV : Yields (Lin.inverse isz sys.A.toMB) V)
    (hA : (A.map rval).det ≠ 0) {N K : Nat} (w : Nat → Nat → IDouble) (x0 : Nat → IDouble) {toSize : IDouble → Res Nat} {r st : IDouble}
    (hr : cdiv st dt = .ok r) (hK : toSize r = .ok K) {x : ℝ → Fin n → ℝ}
    (hx : Solves (A.map rval) (B.map rval) (vtab N fun l j => rval (w l j)) (rval dt) x)
    (hx0 : ∀ i : Fin n, x 0 i = rval (x0 i)) {ε φ ψ α ρ b ξ υ γ δ ω θ β : ℝ}
    (hε : ∀ i, ∑ j, |rval (E i j) - NormedSpace.exp (rval dt • A.map rval) i j| ≤ ε) (hφ : ∀ i, ∑ j, |NormedSpace.exp (rval dt • A.map rval) i j| ≤ φ)
    (hψ : ∀ i, ∑ j, |(NormedSpace.exp (rval dt • A.map rval) - 1) i j| ≤ ψ) (hα : ∀ i, ∑ j, |(A.map rval)⁻¹ i j| ≤ α)
    (hρ : ∀ i, ∑ j, |rval (V i j) - (A.map rval)⁻¹ i j| ≤ ρ) (hb : ∀ i, ∑ j, |rval (B i j)| ≤ b)
    (hξ : ∀ k, k < min N K → ∀ i, |x (k * rval dt) i| ≤ ξ) (hυ : ∀ k, k < min N K → ∀ j, j < m → |rval (w k j)| ≤ υ)
    (hγ : ∀ i, ∑ j, |rval (C i j)| ≤ γ) (hδ : ∀ i, ∑ j, |rval (D i j)| ≤ δ)
    (hω : ω = inputErr (1 / 2 ^ 53) (1 / 2 ^ 1075) n m α ρ ψ ε b) (hθ : θ = φ + ε) (hβ : β = α * ψ * b + ω) :
    ∃ (d : DiscreteStateSpace IDouble) (Bd : Matrix (Fin n) (Fin m) IDouble) (t : List IDouble) (X Y : Nat → Nat → IDouble), c2d isz ex sys dt = .ok d ∧
      d.toStateSpace.Is E Bd C D ∧
      simulate toSize d (vtab N fun l => vtab m (w l)) st (vtab n x0) = .ok (t, vtab (min N K + 1) fun k => vtab n (X k), vtab (min N K) fun k => vtab p (Y k)) ∧
      ((∀ i j, (Bd i j).Finite) →
        (∀ k, k ≤ min N K → ∀ i : Fin n, (X k i).Finite → |rval (X k i) - x (k * rval dt) i| ≤ stateErr (1 / 2 ^ 53) (1 / 2 ^ 1075) n m ε ω θ β ξ υ k) ∧
        (∀ k, k < min N K → ∀ i : Fin p, (Y k i).Finite → |rval (Y k i) - (C.map rval *ᵥ x (k * rval dt) + D.map rval *ᵥ fun j => rval (w k j)) i| ≤
          outputErr (1 / 2 ^ 53) (1 / 2 ^ 1075) n m ε ω θ β ξ υ γ δ k)) ∧
      (n ≤ 2 ^ 10 → m ≤ 2 ^ 10 → (∀ i j, (E i j).Finite ∧ |(E i j).val| ≤ 2 ^ 200) → (∀ i j, (V i j).Finite ∧ |(V i j).val| ≤ 2 ^ 200) →
        (∀ i j, (B i j).Finite ∧ |(B i j).val| ≤ 2 ^ 200) → (∀ i j, (C i j).Finite ∧ |(C i j).val| ≤ 2 ^ 200) →
        (∀ i j, (D i j).Finite ∧ |(D i j).val| ≤ 2 ^ 200) → (∀ k j, k < min N K → j < m → (w k j).Finite ∧ |(w k j).val| ≤ 2 ^ 200) →
        (∀ i, i < n → (x0 i).Finite) → (∀ k, k < min N K → ξ + stateErr (1 / 2 ^ 53) (1 / 2 ^ 1075) n m ε ω θ β ξ υ k ≤ 2 ^ 200) →
        (∀ i j, (Bd i j).Finite) ∧ (∀ k, k ≤ min N K → ∀ i, i < n → (X k i).Finite) ∧ ∀ k, k < min N K → ∀ i, i < p → (Y k i).Finite) := by
  obtain ⟨d, e, v, f, rfl, rfl, rfl, h1, h2, h3⟩ := c2d_tables isz h hn hm hp hE hV
  subst h3
  obtain ⟨Bd', rB, hBd⟩ := h2.b
  obtain ⟨c, rC, rfl⟩ := h2.c
  obtain ⟨g, rD, rfl⟩ := h2.d
  obtain ⟨E', rE, hE'⟩ := h2.a
  obtain ⟨t, X, Y, e4, ⟨eX, eY⟩, hX, hY⟩ := sim_ieee rE rB rC rD hna hma hpa (N := N) w x0 hr hK
  rw [hE', hBd] at hX hY
  have bounds : (∀ i j, (toM n m (inputTable n e v f) i j).Finite) →
        (∀ k, k ≤ min N K → ∀ i : Fin n, (X k i).Finite → |rval (X k i) - x (k * rval d.sampleTime) i| ≤
          stateErr (1 / 2 ^ 53) (1 / 2 ^ 1075) n m ε ω θ β ξ υ k) ∧
        (∀ k, k < min N K → ∀ i : Fin p, (Y k i).Finite →
          |rval (Y k i) - ((toM p n c).map rval *ᵥ x (k * rval d.sampleTime) + (toM p m g).map rval *ᵥ fun j => rval (w k j)) i| ≤
          outputErr (1 / 2 ^ 53) (1 / 2 ^ 1075) n m ε ω θ β ξ υ γ δ k) := by
    intro hfin
    refine ode_near (val := rval) (by positivity) (by positivity) hn hm hp hdt hA w x0 hx hx0 hε hφ hψ hα hb (Bd := toM n m (inputTable n e v f)) (fun i => ?_)
      hξ hυ hγ hδ hθ hβ (P := fun k i => (X k i).Finite) (Q := fun k i => (Y k i).Finite) hX hY
    rw [hω]
    refine le_trans (le_of_eq (Finset.sum_congr rfl fun j _ => ?_))
      (input_near double_rounds double_one (fun i j => (e i j).flD) (fun i j => (v i j).flD) (fun i j => (f i j).flD) _ _ hα hρ hψ hε hb i)
    rw [rval_flD, (hfin i j).eq (rd_inputTable n e v f i j)]
    rfl
  refine ⟨d, _, t, X, Y, h1, h2, e4, bounds, fun hn' hm' fE fV fB fC fD fw fx hS => ?_⟩
  have hBs : ∀ i j, i < n → j < m → Sz (inputTable n e v f i j) (inputTable n e v f i j).flD 621 := by
    intro i j hi hj
    have := inputTable_sz (m := m) hn' (fun i j hi hj => Sz.of_finite (fE ⟨i, hi⟩ ⟨j, hj⟩).1 (fE ⟨i, hi⟩ ⟨j, hj⟩).2)
      (fun i j hi hj => Sz.of_finite (fV ⟨i, hi⟩ ⟨j, hj⟩).1 (fV ⟨i, hi⟩ ⟨j, hj⟩).2)
      (fun i j hi hj => Sz.of_finite (fB ⟨i, hi⟩ ⟨j, hj⟩).1 (fB ⟨i, hi⟩ ⟨j, hj⟩).2) hi hj
    refine Sz.of_finite this.finite ?_
    rw [Ieee.val, Ieee.flD, this.1]
    exact this.2
  have hBf : ∀ i j, (toM n m (inputTable n e v f) i j).Finite := fun i j => (hBs i j i.2 j.2).finite
  obtain ⟨bX, -⟩ := bounds hBf
  -- the tables of the system
  have tE : ∀ i j, i < n → j < n → E' i j = e i j := fun i j hi hj => congrFun (congrFun hE' ⟨i, hi⟩) ⟨j, hj⟩
  have tB : ∀ i j, i < n → j < m → Bd' i j = inputTable n e v f i j := fun i j hi hj => congrFun (congrFun hBd ⟨i, hi⟩) ⟨j, hj⟩
  have sw : ∀ k j, k < min N K → j < m → Sz (w k j) (w k j).flD 200 := fun k j hk hj => Sz.of_finite (fw k j hk hj).1 (fw k j hk hj).2
  have small : ∀ k, k < min N K → (∀ i, i < n → (X k i).Finite) → ∀ i, i < n → Sz (X k i) (X k i).flD 200 := by
    intro k hk hf i hi
    refine Sz.of_finite (hf i hi) ?_
    have h5 := bX k hk.le ⟨i, hi⟩ (hf i hi)
    have h6 := hξ k hk ⟨i, hi⟩
    have h7 := hS k hk
    have h8 : |rval (X k i)| ≤ 2 ^ 200 := by
      have := abs_sub_abs_le_abs_sub (rval (X k i)) (x (k * rval d.sampleTime) ⟨i, hi⟩)
      linarith
    rw [rval] at h8
    exact_mod_cast h8
  have states : ∀ k, k ≤ min N K → ∀ i, i < n → (X k i).Finite := by
    intro k
    induction k with
    | zero => intro _ i hi; rw [eX]; exact fx i hi
    | succ k ih =>
      intro hk i hi
      have hs := small k (by omega) (ih (by omega))
      rw [eX]
      show ((lsum n fun j => E' i j * stateSeq n m E' Bd' x0 w k j) + lsum m fun j => Bd' i j * w k j).Finite
      refine (Sz.add (e := 831) (x := lsum n fun j => (E' i j).flD * (X k j).flD) (y := lsum m fun j => (Bd' i j).flD * (w k j).flD) (by norm_num)
        (Sz.mono (Sz.sum (e := 400) (q := 10) hn' (by norm_num) (fun j hj => ?_) (by norm_num)) (by norm_num))
        (Sz.sum (e := 821) (q := 10) hm' (by norm_num) (fun j hj => ?_) (by norm_num))).finite
      · rw [tE i j hi hj, ← eX]
        exact Sz.mul (e := 200) (f := 200) (Sz.of_finite (fE ⟨i, hi⟩ ⟨j, hj⟩).1 (fE ⟨i, hi⟩ ⟨j, hj⟩).2) (hs j hj) (by norm_num)
      · rw [tB i j hi hj]
        exact Sz.mul (e := 621) (f := 200) (hBs i j hi hj) (sw k j (by omega) hj) (by norm_num)
  refine ⟨hBf, states, fun k hk i hi => ?_⟩
  have hs := small k hk (states k hk.le)
  rw [eY]
  show ((lsum n fun l => c i l * stateSeq n m E' Bd' x0 w k l) + lsum m fun l => g i l * w k l).Finite
  refine (Sz.add (e := 410) (x := lsum n fun j => (c i j).flD * (X k j).flD) (y := lsum m fun j => (g i j).flD * (w k j).flD) (by norm_num)
    (Sz.sum (e := 400) (q := 10) hn' (by norm_num) (fun j hj => ?_) (by norm_num))
    (Sz.sum (e := 400) (q := 10) hm' (by norm_num) (fun j hj => ?_) (by norm_num))).finite
  · rw [← eX]
    exact Sz.mul (e := 200) (f := 200) (Sz.of_finite (fC ⟨i, hi⟩ ⟨j, hj⟩).1 (fC ⟨i, hi⟩ ⟨j, hj⟩).2) (hs j hj) (by norm_num)
  · exact Sz.mul (e := 200) (f := 200) (Sz.of_finite (fD ⟨i, hi⟩ ⟨j, hj⟩).1 (fD ⟨i, hi⟩ ⟨j, hj⟩).2) (sw k j hk hj) (by norm_num)

end

section
open scoped Matrix.Norms.Operator

/-- C128: the matrix exponential that `c2d` computes in `double`, if the row sums of `A dt` are at most 699. -/
theorem C128_exponential {A : Mat IDouble} {n : Nat} {M : Matrix (Fin n) (Fin n) IDouble} (hA : A.toMB.Is M) (hn0 : 0 < n) (hn : n ≤ 2 ^ 10)
    (hM : ∀ i j, (M i j).Finite) {sqrt : IDouble → IDouble} {accuracy : IDouble} (hacc : accuracy.Finite) (hacc1 : |accuracy.val| ≤ 1) {fuel : Nat}
    (hf : 1076 ≤ fuel) {dt : IDouble} (hdt : dt.Finite) {X : Mat IDouble}
    (hr : (mulS A.toMB dt >>= fun Z => expm dIsZero Ieee.abs sqrt dhalf Z.toMB accuracy fuel) = .ok X)
    {x : ℝ} (hx : ∀ i, ∑ j, |rval (M i j)| * |rval dt| ≤ x) {y : ℝ} (hy : y = (1 + 1 / 2 ^ 53) * x + n / 2 ^ 1075) (hy7 : y ≤ 700) :
    ∃ (k p : Nat) (E : Matrix (Fin n) (Fin n) IDouble), X.WF ∧ X.toMB.Is E ∧ (∀ i j, (E i j).Finite) ∧ (n * n ≤ p ∨ p = 177) ∧ p ≤ 177 ∧
      (0 < k → 2 ^ k < 2 * y * (1 + 1 / 2 ^ 40)) ∧
      ∀ i, ∑ j, |rval (E i j) - NormedSpace.exp (rval dt • M.map rval) i j| ≤ expFlErr n k p y := by
  have : NeZero n := ⟨hn0.ne'⟩
  have hfit := hA.fits
  obtain ⟨e, h, rfl⟩ := id hA
  have eZ : mulS A.toMB dt = .ok (Mat.ofFn n n fun i j => e i j * dt) := mapMat_eq h fun _ _ _ _ => rfl
  rw [eZ, Res.ok_bind] at hr
  have hx0 : 0 ≤ x := (Finset.sum_nonneg fun j _ => by positivity).trans (hx ⟨0, hn0⟩)
  have hy0 : 0 ≤ y := by rw [hy]; positivity
  have hxy : x ≤ y := by
    have : 0 ≤ 1 / 2 ^ 53 * x + n / 2 ^ 1075 := by positivity
    rw [hy]; linarith
  have hprod : ∀ i j : Fin n, (e i j * dt).fl = some ((e i j).flD * dt.flD) := fun i j => by
    refine fl_mul_small (hM i j).fl_eq hdt.fl_eq ?_
    have h1 := (Finset.single_le_sum (f := fun j => |rval (toM n n e i j)| * |rval dt|) (fun _ _ => by positivity) (Finset.mem_univ j)).trans (hx i)
    exact (h1.trans (hxy.trans hy7)).trans (by norm_num)
  have hpv : ∀ i j : Fin n, rval (e i j * dt) = (((e i j).flD * dt.flD).val : ℝ) := fun i j => by
    rw [rval, Ieee.val, Ieee.flD, hprod i j]; rfl
  have hmap : (toM n n fun i j => e i j * dt).map rval = (toM n n fun i j => (e i j).flD * dt.flD).map fun z => (z.val : ℝ) := by
    funext i j; exact hpv i j
  have hMn : ‖rval dt • (toM n n e).map rval‖ ≤ x := by
    refine norm_le_of_rows hx0 fun i => ?_
    refine le_trans (le_of_eq (Finset.sum_congr rfl fun j _ => ?_)) (hx i)
    rw [Matrix.smul_apply, smul_eq_mul, abs_mul, mul_comm]
    rfl
  have hd : ‖(toM n n fun i j => e i j * dt).map rval - rval dt • (toM n n e).map rval‖ ≤ x / 2 ^ 53 + n / 2 ^ 1075 := by
    have h1 := smul_norm_err double_rounds (n := n) (fun i j => (e i j).flD) dt.flD
    rw [← hmap] at h1
    have h2 : ‖(toM n n e).map rval‖ * |rval dt| ≤ x := by
      rw [norm_smul, Real.norm_eq_abs, mul_comm] at hMn
      exact hMn
    have h3 := mul_le_mul_of_nonneg_left h2 (show (0 : ℝ) ≤ 1 / 2 ^ 53 by positivity)
    rw [mul_one_div] at h1
    exact h1.trans (by rw [div_eq_mul_one_div x, mul_comm x]; exact add_le_add h3 le_rfl)
  have hZn : ‖(toM n n fun i j => e i j * dt).map rval‖ ≤ y := by
    have := norm_add_le ((toM n n fun i j => e i j * dt).map rval - rval dt • (toM n n e).map rval) (rval dt • (toM n n e).map rval)
    rw [sub_add_cancel] at this
    rw [hy]
    linarith
  -- the largest row sum of the computed product
  obtain ⟨i₀, -, hi₀⟩ := Finset.exists_max_image Finset.univ (fun i : Fin n => ∑ j, |rval (toM n n (fun i j => e i j * dt) i j)|) ⟨⟨0, hn0⟩, Finset.mem_univ _⟩
  set z := ∑ j, |rval (toM n n (fun i j => e i j * dt) i₀ j)| with hz
  have hzy : z ≤ y := (row_sum_le_norm ((toM n n fun i j => e i j * dt).map rval) i₀).trans hZn
  have hz0 : 0 ≤ z := Finset.sum_nonneg fun j _ => abs_nonneg _
  obtain ⟨k, p, E, g1, g2, gf, g3, g4, -, g6, g7⟩ := C127_expm (ofFn_rep hfit fun i j => e i j * dt).is hn
    (fun i j => Option.isSome_iff_exists.2 ⟨_, hprod i j⟩) hacc hacc1 hf hr (fun i => hi₀ i (Finset.mem_univ _)) ⟨i₀, rfl⟩ (hzy.trans hy7)
  refine ⟨k, p, E, g1, g2, gf, g3, g4, fun hk => (g6 hk).trans_le ?_, fun i => ?_⟩
  · have : 2 * z ≤ 2 * y := by linarith
    exact mul_le_mul_of_nonneg_right this (by norm_num)
  have hp1 := exp_perturb hZn (hMn.trans hxy)
  have hp2 := (row_sum_le_norm (NormedSpace.exp ((toM n n fun i j => e i j * dt).map rval) - NormedSpace.exp (rval dt • (toM n n e).map rval)) i).trans
    (hp1.trans (mul_le_mul_of_nonneg_right hd (Real.exp_pos _).le))
  have hm0 : 0 ≤ min 1 z := le_min zero_le_one hz0
  have hmono : 2 ^ k * Real.exp z * (((n + 5) * p + n + 4 : Nat) / 2 ^ 52 + ((1 + 1 / 2 ^ 40) * min 1 z) ^ (p + 1) / (p + 1).factorial) ≤
      2 ^ k * Real.exp y * (((n + 5) * p + n + 4 : Nat) / 2 ^ 52 + ((1 + 1 / 2 ^ 40) * min 1 y) ^ (p + 1) / (p + 1).factorial) := by gcongr
  have htri : ∑ j, |rval (E i j) - NormedSpace.exp (rval dt • (toM n n e).map rval) i j| ≤
      ∑ j, |rval (E i j) - NormedSpace.exp ((toM n n fun i j => e i j * dt).map rval) i j| +
      ∑ j, |(NormedSpace.exp ((toM n n fun i j => e i j * dt).map rval) - NormedSpace.exp (rval dt • (toM n n e).map rval)) i j| := by
    rw [← Finset.sum_add_distrib]
    exact Finset.sum_le_sum fun j _ => abs_sub_le _ _ _
  have h7 : ∑ j, |rval (E i j) - NormedSpace.exp ((toM n n fun i j => e i j * dt).map rval) i j| ≤ _ := g7 i
  have hxe : (x / 2 ^ 53 + n / 2 ^ 1075) * Real.exp y ≤ (y / 2 ^ 53 + n / 2 ^ 1075) * Real.exp y := by gcongr
  unfold expFlErr
  linarith

end

/-! ## The oscillator of C126 once more -/

def ioscA : Nat → Nat → IDouble := fun i j => if i = j then 0 else if i < j then dbl 1 else dbl (-1)
def ioscB : Nat → Nat → IDouble := fun i _ => if i = 0 then 0 else dbl 1
def ioscC : Nat → Nat → IDouble := fun _ j => if j = 0 then dbl 1 else 0
def ioscS : StateSpace IDouble := ⟨Mat.ofFn 2 2 ioscA, Mat.ofFn 2 1 ioscB, Mat.ofFn 1 2 ioscC, Mat.ofFn 1 1 fun _ _ => 0⟩

/-- The matrix exponential as `c2d` uses it. -/
def ioscExp : MB IDouble → Res (Mat IDouble) := fun Z => expm dIsZero Ieee.abs Ieee.sqrt dhalf Z (dbl (1 / 100000)) 1076

set_option maxRecDepth 100000 in
theorem ioscExp_ok : (match mulS ioscS.A.toMB (dbl (1 / 1024)) >>= fun Z => ioscExp Z.toMB with | .ok _ => true | _ => false) = true := by decide +kernel

def ioscV : Nat → Nat → IDouble := fun i j => Ieee.div (adjTable 1 ioscA i j) (closedDet ioscA 2)

theorem ioscInv_ok : Lin.inverse dIsZero ioscS.A.toMB = .ok (Mat.ofFn 2 2 ioscV) := inverse_table (by norm_num) (by decide +kernel)

theorem rnd_rat_zero (p : ℕ) (emin : ℤ) : rnd p emin (0 : ℚ) = 0 := by
  simp only [rnd, zero_div, show rne (0 : ℚ) = 0 by exact_mod_cast rne_int (K := ℚ) 0]; simp

/-- The square root of a finite number that is not negative is finite, and rounded once. -/
theorem isqrt_val {a : IDouble} (h : a.Finite) (h0 : 0 ≤ a.val) : (Ieee.sqrt a).Finite ∧ rval (Ieee.sqrt a) = rnd 53 (-1074) √(rval a) := by
  match a, h with
  | .fin x z hz hx, _ =>
    have h0 : 0 ≤ x.val := h0
    have hv := Fl.sqrtRat_val (by decide) x h0
    by_cases h1 : x.val = 0
    · have e : Ieee.sqrt (.fin x z hz hx) = (.fin x z hz hx : IDouble) := by
        unfold Ieee.sqrt; dsimp only; rw [if_neg (not_lt.2 h0), if_pos h1]
      rw [e]
      refine ⟨rfl, ?_⟩
      show (x.val : ℝ) = rnd 53 (-1074) √(x.val : ℝ)
      rw [h1, Rat.cast_zero, Real.sqrt_zero, ← Rat.cast_zero, ← rnd_ratCast, rnd_rat_zero]
    · have hlt : |(Fl.sqrtRat x).val| ≤ 2 ^ 512 := by
        have g1 : |((Fl.sqrtRat x).val : ℝ)| ≤ 2 ^ 512 := by
          rw [hv]
          have g2 : (x.val : ℝ) ≤ (2 ^ 512) ^ 2 := by
            have : x.val ≤ (2 ^ 512) ^ 2 := by
              rw [← pow_mul]; exact (le_abs_self _).trans hx.le
            exact_mod_cast this
          have g3 : √(x.val : ℝ) ≤ 2 ^ 512 := (Real.sqrt_le_sqrt g2).trans_eq (Real.sqrt_sq (by positivity))
          have g4 : rnd (K := ℝ) 53 (-1074) (2 ^ 512) = 2 ^ 512 :=
            rnd_exact (by decide) ⟨1, 512, by norm_num, by norm_num, by norm_num⟩
          have g5 := rnd_mono (p := 53) (by decide) (-1074) g3
          have g6 := rnd_mono (p := 53) (by decide) (-1074) (Real.sqrt_nonneg (x.val : ℝ))
          rw [g4] at g5
          rw [show (0 : ℝ) = ((0 : ℚ) : ℝ) by norm_num, ← rnd_ratCast, rnd_rat_zero, Rat.cast_zero] at g6
          rwa [abs_of_nonneg g6]
        exact_mod_cast g1
      have e : (Ieee.sqrt (.fin x z hz hx) : IDouble).fl = some (Fl.sqrtRat x) := by
        unfold Ieee.sqrt; dsimp only; rw [if_neg (not_lt.2 h0), if_neg h1]
        exact fl_mk (hlt.trans_lt (pow_lt_max (by norm_num)))
      refine ⟨Option.isSome_iff_exists.2 ⟨_, e⟩, ?_⟩
      rw [rval, Ieee.val, Ieee.flD, e]
      exact hv

set_option maxRecDepth 100000 in
example : Ieee.sqrt (dbl 2) = dbl (6369051672525773 / 2 ^ 52) ∧ Ieee.sqrt (dbl (-1)) = .nan ∧ Ieee.sqrt (-0) = (-0 : IDouble) := by decide +kernel

open scoped Matrix.Norms.Operator in
/-- C128 for the oscillator: in IEEE `double` a thousand steps of `simulate`, after `c2d`, are finite and follow cosine and sine to nine digits. -/
theorem C128_oscillator : ∃ (d : DiscreteStateSpace IDouble) (t : List IDouble) (X Y : Nat → Nat → IDouble),
    c2d dIsZero ioscExp ioscS (dbl (1 / 1024)) = .ok d ∧
    simulate Ieee.toSize d (vtab 1024 fun _ => vtab 1 fun _ => 0) 1 (vtab 2 fun i => if i = 0 then 1 else 0) =
      .ok (t, vtab 1025 fun k => vtab 2 (X k), vtab 1024 fun k => vtab 1 (Y k)) ∧
    (∀ k : Nat, k < 1024 → (Y k 0).Finite) ∧
    ∀ k : Nat, k ≤ 1024 → (X k 0).Finite ∧ (X k 1).Finite ∧ |rval (X k 0) - Real.cos (k / 1024)| ≤ 1 / 10 ^ 9 ∧ |rval (X k 1) + Real.sin (k / 1024)| ≤ 1 / 10 ^ 9 := by
  have f22 : Fits 2 2 := fits_small (by norm_num) (by norm_num)
  have h : ioscS.Is (toM 2 2 ioscA) (toM 2 1 ioscB) (toM 1 2 ioscC) (toM 1 1 fun _ _ => (0 : IDouble)) :=
    ⟨(ofFn_rep f22 _).is, (ofFn_rep (fits_small (by norm_num) (by norm_num)) _).is, (ofFn_rep (fits_small (by norm_num) (by norm_num)) _).is,
      (ofFn_rep (fits_small (by norm_num) (by norm_num)) _).is⟩
  obtain ⟨X, hX⟩ : ∃ X, (mulS ioscS.A.toMB (dbl (1 / 1024)) >>= fun Z => ioscExp Z.toMB) = .ok X := by
    have := ioscExp_ok
    split at this
    · exact ⟨_, ‹_›⟩
    · cases this
  have hdt : rval (dbl (1 / 1024)) = 1 / 1024 := by
    rw [rval, show (dbl (1 / 1024)).val = 1 / 1024 by decide +kernel]; norm_num
  have hone : rval 1 = 1 := by
    rw [rval, show (1 : IDouble).val = 1 by decide +kernel]; norm_num
  have hzero : rval 0 = 0 := by
    rw [rval, show (0 : IDouble).val = 0 by decide +kernel]; norm_num
  have fA : ∀ i j : Fin 2, (toM 2 2 ioscA i j).Finite ∧ |(toM 2 2 ioscA i j).val| ≤ 2 ^ 200 := fun i j => by
    fin_cases i <;> fin_cases j <;> exact ⟨by decide +kernel, by decide +kernel⟩
  have fV : ∀ i j : Fin 2, (toM 2 2 ioscV i j).Finite ∧ |(toM 2 2 ioscV i j).val| ≤ 2 ^ 200 := fun i j => by
    fin_cases i <;> fin_cases j <;> exact ⟨by decide +kernel, by decide +kernel⟩
  have fB : ∀ (i : Fin 2) (j : Fin 1), (toM 2 1 ioscB i j).Finite ∧ |(toM 2 1 ioscB i j).val| ≤ 2 ^ 200 := fun i j => by
    fin_cases i <;> fin_cases j <;> exact ⟨by decide +kernel, by decide +kernel⟩
  have fC : ∀ (i : Fin 1) (j : Fin 2), (toM 1 2 ioscC i j).Finite ∧ |(toM 1 2 ioscC i j).val| ≤ 2 ^ 200 := fun i j => by
    fin_cases i; fin_cases j <;> exact ⟨by decide +kernel, by decide +kernel⟩
  have f0 : (0 : IDouble).Finite ∧ |(0 : IDouble).val| ≤ 2 ^ 200 := by decide +kernel
  have hrow : ∀ i : Fin 2, ∑ j, |rval (toM 2 2 ioscA i j)| = 1 := by
    intro i
    have : ∀ i : Fin 2, ∑ j, |(toM 2 2 ioscA i j).val| = 1 := by decide +kernel
    have := congrArg (fun q : ℚ => (q : ℝ)) (this i)
    push_cast at this
    exact this
  set A : Matrix (Fin 2) (Fin 2) ℝ := (toM 2 2 ioscA).map rval with hAdef
  have hA : A = !![0, 1; -1, 0] := by
    have e : (toM 2 2 ioscA 0 0).val = 0 ∧ (toM 2 2 ioscA 0 1).val = 1 ∧ (toM 2 2 ioscA 1 0).val = -1 ∧ (toM 2 2 ioscA 1 1).val = 0 := by decide +kernel
    obtain ⟨e1, e2, e3, e4⟩ := e
    rw [hAdef, Matrix.eta_fin_two ((toM 2 2 ioscA).map _)]
    simp only [Matrix.map_apply, rval, e1, e2, e3, e4]
    norm_num
  -- the exponential
  obtain ⟨k, p, E, wX, iX, fE, hp1, hp2, hk, hE⟩ := C128_exponential h.a (by norm_num) (by norm_num) (fun i j => (fA i j).1)
    (accuracy := dbl (1 / 100000)) (by decide +kernel) (by decide +kernel) (le_refl 1076) (dt := dbl (1 / 1024)) (by decide +kernel) hX (x := 1 / 1024)
    (fun i => by rw [← Finset.sum_mul, hrow, one_mul, hdt]; norm_num) rfl (by norm_num)
  rw [hdt] at hE
  set y : ℝ := (1 + 1 / 2 ^ 53) * (1 / 1024) + (2 : Nat) / 2 ^ 1075 with hy
  have hy0 : 0 ≤ y := by positivity
  have hy1 : y ≤ 1 / 1000 := by rw [hy]; norm_num
  clear_value y
  clear hy
  have hk0 : k = 0 := by
    by_contra hc
    have h1 := hk (Nat.pos_of_ne_zero hc)
    have h2 : (1 : ℝ) ≤ 2 ^ k := one_le_pow₀ (by norm_num)
    have h3 : 2 * y * (1 + 1 / 2 ^ 40) ≤ 2 * (1 / 1000) * (1 + 1 / 2 ^ 40) := by gcongr
    have h4 : (2 * (1 / 1000) * (1 + 1 / 2 ^ 40) : ℝ) < 1 := by norm_num
    linarith
  subst hk0
  have hp4 : 4 ≤ p := by omega
  have hε : expFlErr 2 0 p y ≤ 2.8 / 10 ^ 13 := osc_exp_bound hp4 hp2 hy0 hy1
  have hε0 : 0 ≤ expFlErr 2 0 p y := by
    have hm0 : 0 ≤ min 1 y := le_min zero_le_one hy0
    unfold expFlErr
    positivity
  generalize hεd : expFlErr 2 0 p y = ε at hE hε hε0
  -- the exact exponential
  have hφ : ∀ i, ∑ j, |NormedSpace.exp ((1 / 1024 : ℝ) • A) i j| ≤ 1.00098 := osc_exp_rows hA
  have hdet : A.det ≠ 0 := by rw [hA, Matrix.det_fin_two_of]; norm_num
  have hsol : Solves A ((toM 2 1 ioscB).map rval) (vtab 1024 fun _ _ => rval 0) (1 / 1024) (fun t => ![Real.cos t, -Real.sin t]) := osc_solves hA _ hzero
  obtain ⟨ψ, hψ⟩ := row_bound_exists (NormedSpace.exp ((1 / 1024 : ℝ) • A) - 1)
  obtain ⟨α, hα⟩ := row_bound_exists A⁻¹
  obtain ⟨ρ, hρ⟩ := row_bound_exists ((toM 2 2 ioscV).map rval - A⁻¹)
  obtain ⟨b, hb⟩ := row_bound_exists ((toM 2 1 ioscB).map rval)
  obtain ⟨γ, hγ⟩ := row_bound_exists ((toM 1 2 ioscC).map rval)
  obtain ⟨δ, hδ⟩ := row_bound_exists ((toM 1 1 fun _ _ => (0 : IDouble)).map rval)
  obtain ⟨d, Bd, t, X', Y', e1, -, e2, e3, e4⟩ := C128_simulate dIsZero (ex := ioscExp) h (by norm_num)
    (by norm_num) (by norm_num) (by rw [allocMax_eq]; norm_num) (by rw [allocMax_eq]; norm_num) (by rw [allocMax_eq]; norm_num) (dt := dbl (1 / 1024))
    (by rw [hdt]; norm_num) ⟨X, hX, wX, iX⟩ (Yields.of_eq f22 ioscInv_ok) hdet (N := 1024) (K := 1024) (fun _ _ => 0) (fun i => if i = 0 then 1 else 0)
    (toSize := Ieee.toSize) (r := dbl 1024) (st := 1) (by decide +kernel) (by decide +kernel)
    (x := fun t => ![Real.cos t, -Real.sin t]) (by rw [hdt]; exact hsol)
    (fun i => by fin_cases i <;> simp [hone, hzero]) (ε := ε) (φ := 1.00098) (ψ := ψ) (α := α) (ρ := ρ) (b := b) (ξ := 1) (υ := 0) (γ := γ) (δ := δ)
    (by rw [hdt]; exact hE) (by rw [hdt]; exact hφ) (by rw [hdt]; exact hψ) hα hρ hb
    (fun k _ i => by
      fin_cases i
      · exact Real.abs_cos_le_one _
      · exact (abs_neg _).trans_le (Real.abs_sin_le_one _))
    (fun _ _ _ _ => by rw [hzero, abs_zero]) hγ hδ rfl rfl rfl
  have hbd : ∀ k, k ≤ 1024 → stateErr (1 / 2 ^ 53) (1 / 2 ^ 1075) 2 1 ε (inputErr (1 / 2 ^ 53) (1 / 2 ^ 1075) 2 1 α ρ ψ ε b) (1.00098 + ε)
      (α * ψ * b + inputErr (1 / 2 ^ 53) (1 / 2 ^ 1075) 2 1 α ρ ψ ε b) 1 0 k ≤ 1 / 10 ^ 9 := fun k hk => osc_bound hε hε0 hk
  have hEs : ∀ i j, |(E i j).val| ≤ 2 ^ 200 := by
    intro i j
    have h1 := (Finset.single_le_sum (f := fun j => |rval (E i j) - NormedSpace.exp ((1 / 1024 : ℝ) • A) i j|) (fun _ _ => abs_nonneg _) (Finset.mem_univ j)).trans (hE i)
    have h2 := (Finset.single_le_sum (f := fun j => |NormedSpace.exp ((1 / 1024 : ℝ) • A) i j|) (fun _ _ => abs_nonneg _) (Finset.mem_univ j)).trans (hφ i)
    have h3 := abs_sub_abs_le_abs_sub (rval (E i j)) (NormedSpace.exp ((1 / 1024 : ℝ) • A) i j)
    have h4 : (2.8 / 10 ^ 13 + 1.00098 : ℝ) ≤ 2 ^ 200 := by norm_num
    have h5 : |rval (E i j)| ≤ 2 ^ 200 := by linarith
    rw [rval] at h5
    exact_mod_cast h5
  obtain ⟨g1, g2, g3⟩ := e4 (by norm_num) (by norm_num) (fun i j => ⟨fE i j, hEs i j⟩) fV fB fC (fun _ _ => f0) (fun _ _ _ _ => f0)
    (fun i _ => by split <;> decide +kernel) (fun k hk => by
      have := hbd k hk.le
      have h4 : (1 + 1 / 10 ^ 9 : ℝ) ≤ 2 ^ 200 := by norm_num
      linarith)
  refine ⟨d, t, X', Y', e1, e2, fun k hk => g3 k hk 0 (by norm_num), fun k hk => ⟨g2 k hk 0 (by norm_num), g2 k hk 1 (by norm_num), ?_⟩⟩
  have hx := fun i : Fin 2 => ((e3 g1).1 k hk i (g2 k hk i i.2)).trans (hbd k hk)
  rw [hdt, mul_one_div] at hx
  refine ⟨hx 0, ?_⟩
  have := hx 1
  rwa [show (![Real.cos (k / 1024), -Real.sin (k / 1024)] : Fin 2 → ℝ) 1 = -Real.sin (k / 1024) from rfl, sub_neg_eq_add] at this

end Malg
