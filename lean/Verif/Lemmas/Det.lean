import Verif.Lemmas.Linalg
import Mathlib.LinearAlgebra.Matrix.Block
import Mathlib.LinearAlgebra.Matrix.Adjugate
import Mathlib.Tactic.Ring
/-!
# `determinant`, `adjoint`, `inverse`
-/
namespace Malg
namespace Lin
open Ops
variable {T K : Type}

/-- Table after elimination below row `c` with the ratios `q`. -/
def elimT [Sub T] [Mul T] (e : Nat → Nat → T) (c : Nat) (q : Nat → T) : Nat → Nat → T := fun i k =>
  if c < i ∧ c ≤ k then e i k - q i * e c k else e i k

theorem eliminate_eq [Sub T] [Mul T] [CDiv T] {N c : Nat} (hf : Fits N N) (hc : c < N) {e : Nat → Nat → T} {p : T}
    {q : Nat → T} (hq : ∀ r, c < r → r < N → cdiv (e r c) p = .ok (q r)) :
    eliminate N c p (Mat.ofFn N N e) = .ok (Mat.ofFn N N (elimT e c q)) := by
  unfold eliminate
  rw [forRange_eq (by omega : c + 1 ≤ N)
    (fun r => Mat.ofFn N N fun i k => if c < i ∧ i < r ∧ c ≤ k then e i k - q i * e c k else e i k)]
  · congr 1; apply ofFn_congr; intro i k hi hk; simp only [elimT]; apply if_congr (by omega) rfl rfl
  · apply ofFn_congr; intro i k hi hk; rw [if_neg (by omega)]
  · intro r h1 h2
    have hne : ¬ (c < r ∧ r < r ∧ c ≤ c) := by omega
    rw [ofFn_at hf h2 hc, Res.ok_bind, if_neg hne, hq r (by omega) h2, Res.ok_bind,
      forRange_eq (by omega : c ≤ N) (fun k' => Mat.ofFn N N fun i k =>
        if c < i ∧ (i < r ∧ c ≤ k ∨ i = r ∧ c ≤ k ∧ k < k') then e i k - q i * e c k else e i k)]
    · congr 1; apply ofFn_congr; intro i k hi hk; apply if_congr (by omega) rfl rfl
    · apply ofFn_congr; intro i k hi hk; apply if_congr (by omega) rfl rfl
    · intro k h3 h4
      rw [ofFn_at hf h2 h4, Res.ok_bind, ofFn_at hf hc h4, Res.ok_bind, ofFn_setAt hf h2 h4,
        if_neg (by omega), if_neg (by omega)]
      congr 1; apply ofFn_congr; intro i j hi hj
      simp only [upd]
      by_cases h : i = r ∧ j = k
      · obtain ⟨rfl, rfl⟩ := h; rw [if_pos ⟨rfl, rfl⟩, if_pos (by omega)]
      · rw [if_neg h]; apply if_congr (by omega) rfl rfl

/-- Table with rows `c` and `k` exchanged. -/
def swapT (e : Nat → Nat → T) (c k : Nat) : Nat → Nat → T := fun r j =>
  e (if r = c then k else if r = k then c else r) j

section field
variable [Field K] [DecidableEq K] {isz : K → Bool} (hz : ∀ x, isz x = true ↔ x = 0)
include hz

theorem pivotRow_eq {N c : Nat} (hf : Fits N N) (hc : c < N) (e : Nat → Nat → K) :
    (pivotRow isz (Mat.ofFn N N e) c = .ok none ∧ ∀ k, c < k → k < N → e k c = 0) ∨
    ∃ k, pivotRow isz (Mat.ofFn N N e) c = .ok (some k) ∧ c < k ∧ k < N ∧ e k c ≠ 0 := by
  unfold pivotRow
  by_cases h : ∃ k, c < k ∧ k < N ∧ e k c ≠ 0
  · right
    obtain ⟨h1, h2, h3⟩ := Nat.find_spec h
    refine ⟨Nat.find h, forSearch_some h1 h2 (fun i hi1 hi2 => ?_) ?_, h1, h2, h3⟩
    · rw [ofFn_at hf (by omega) hc, Res.ok_bind]
      have := Nat.find_min h hi2
      have h0 : e i c = 0 := by by_contra h'; exact this ⟨by omega, by omega, h'⟩
      rw [if_pos ((hz _).2 h0)]; rfl
    · rw [ofFn_at hf h2 hc, Res.ok_bind, if_neg (fun h' => h3 ((hz _).1 h'))]; rfl
  · left
    have h0 : ∀ k, c < k → k < N → e k c = 0 := fun k h1 h2 => by by_contra h'; exact h ⟨k, h1, h2, h'⟩
    refine ⟨forSearch_none fun i h1 h2 => ?_, h0⟩
    have h2' : i < N := h2
    rw [ofFn_at hf h2' hc, Res.ok_bind, if_pos ((hz _).2 (h0 i (by omega) h2'))]; rfl

/-- The three ways an iteration of the elimination can go. -/
theorem elimStep_eq {N c : Nat} (hf : Fits N N) (hc : c < N) (e : Nat → Nat → K) (d : K) :
    (elimStep isz N c ⟨Mat.ofFn N N e, d, false⟩ = .ok ⟨Mat.ofFn N N e, d, true⟩ ∧
      ∀ k, c ≤ k → k < N → e k c = 0) ∨
    (e c c ≠ 0 ∧ elimStep isz N c ⟨Mat.ofFn N N e, d, false⟩ =
      .ok ⟨Mat.ofFn N N (elimT e c fun r => e r c / e c c), d * e c c, false⟩) ∨
    ∃ k, c < k ∧ k < N ∧ e k c ≠ 0 ∧ elimStep isz N c ⟨Mat.ofFn N N e, d, false⟩ =
      .ok ⟨Mat.ofFn N N (elimT (swapT e c k) c fun r => swapT e c k r c / swapT e c k c c),
        d * (-1) * swapT e c k c c, false⟩ := by
  unfold elimStep
  rw [if_neg (by simp)]
  dsimp only
  rw [ofFn_at hf hc hc, Res.ok_bind]
  by_cases h0 : e c c = 0
  · rw [if_pos ((hz _).2 h0)]
    rcases pivotRow_eq hz hf hc e with ⟨h1, h2⟩ | ⟨k, h1, h2, h3, h4⟩
    · left
      rw [h1]
      refine ⟨rfl, fun k hk1 hk2 => ?_⟩
      rcases Nat.eq_or_lt_of_le hk1 with rfl | h
      · exact h0
      · exact h2 k h hk2
    · right; right
      refine ⟨k, h2, h3, h4, ?_⟩
      have hs : swapT e c k c c ≠ 0 := by simpa [swapT] using h4
      rw [h1, Res.ok_bind]
      have hsw := swapRows_self hf (e := e) hc h3
      change _ = Res.ok (Mat.ofFn N N (swapT e c k)) at hsw
      simp only [hsw, Res.ok_bind]
      show ((Mat.ofFn N N (swapT e c k)).at_ c c >>= _) = _
      rw [ofFn_at hf hc hc, Res.ok_bind,
        eliminate_eq hf hc (q := fun r => swapT e c k r c / swapT e c k c c) (fun r _ _ => cdiv_ok _ hs)]
      rfl
  · right; left
    refine ⟨h0, ?_⟩
    rw [if_neg (fun h => h0 ((hz _).1 h))]
    show ((Mat.ofFn N N e).at_ c c >>= _) = _
    rw [ofFn_at hf hc hc, Res.ok_bind, eliminate_eq hf hc (q := fun r => e r c / e c c) (fun r _ _ => cdiv_ok _ h0)]
    rfl

end field

section det
variable [Field K]

/-- Zero below the diagonal in the first `c` columns. -/
def LowZero (N c : Nat) (e : Nat → Nat → K) : Prop := ∀ i j, i < N → j < c → j < i → e i j = 0

theorem det_elimT {N c : Nat} (hc : c < N) (e : Nat → Nat → K) (q : Nat → K) (hl : LowZero N c e) :
    (toM N N (elimT e c q)).det = (toM N N e).det := by
  refine Matrix.det_eq_of_forall_row_eq_smul_add_const (fun i => if c < i.1 then - q i else 0) ⟨c, hc⟩ (by simp) ?_
  intro i j
  simp only [toM_apply, elimT]
  by_cases h : c < i.1
  · by_cases h2 : c ≤ j.1
    · rw [if_pos ⟨h, h2⟩, if_pos h]; ring
    · rw [if_neg (by omega), hl c j hc (by omega) (by omega)]; ring
  · rw [if_neg (by omega), if_neg h]; ring

theorem lowZero_elimT {N c : Nat} (hc : c < N) {e : Nat → Nat → K} (h0 : e c c ≠ 0) (hl : LowZero N c e) :
    LowZero N (c + 1) (elimT e c fun r => e r c / e c c) := by
  intro i j hi hj hij
  simp only [elimT]
  by_cases h : j = c
  · subst h; rw [if_pos ⟨hij, Nat.le_refl _⟩]
    rw [div_mul_cancel₀ _ h0, sub_self]
  · rw [if_neg (by omega)]; exact hl i j hi (by omega) hij

theorem det_swapT {N c k : Nat} (hc : c < N) (hk : k < N) (hne : c ≠ k) (e : Nat → Nat → K) :
    (toM N N (swapT e c k)).det = - (toM N N e).det := by
  have : toM N N (swapT e c k) = (toM N N e).submatrix (Equiv.swap (⟨c, hc⟩ : Fin N) ⟨k, hk⟩) id := by
    funext i j
    simp only [toM_apply, swapT, Matrix.submatrix_apply, id, Equiv.swap_apply_def]
    congr 1
    by_cases h1 : i.1 = c
    · rw [if_pos h1, if_pos (Fin.ext h1)]
    · rw [if_neg h1, if_neg (fun h => h1 (congrArg Fin.val h))]
      by_cases h2 : i.1 = k
      · rw [if_pos h2, if_pos (Fin.ext h2)]
      · rw [if_neg h2, if_neg (fun h => h2 (congrArg Fin.val h))]
  rw [this, Matrix.det_permute, Equiv.Perm.sign_swap (fun h => hne (congrArg Fin.val h))]
  simp

theorem lowZero_swapT {N c k : Nat} (hc : c < N) (hk : k < N) (hck : c < k) {e : Nat → Nat → K} (hl : LowZero N c e) :
    LowZero N c (swapT e c k) := by
  intro i j hi hj hij
  simp only [swapT]
  apply hl _ _ _ hj
  · split
    · omega
    · split <;> omega
  · split
    · omega
    · split <;> omega

theorem det_singular {N c : Nat} (hc : c < N) {e : Nat → Nat → K} (hl : LowZero N c e)
    (h0 : ∀ k, c ≤ k → k < N → e k c = 0) : (toM N N e).det = 0 := by
  rw [Matrix.twoBlockTriangular_det (toM N N e) (fun i => i.1 < c)
    (fun i hi j hj => hl i j i.2 hj (by omega))]
  rw [Matrix.det_eq_zero_of_column_eq_zero
    (A := Matrix.toSquareBlockProp (toM N N e) fun i => ¬ i.1 < c) ⟨⟨c, hc⟩, Nat.lt_irrefl c⟩ (fun i => ?_), mul_zero]
  exact h0 i.1 (by have := i.2; omega) i.1.2

theorem det_lowZero {N : Nat} {e : Nat → Nat → K} (hl : LowZero N N e) :
    (toM N N e).det = ∏ i ∈ Finset.range N, e i i := by
  have hu : (toM N N e).IsUpperTriangular := fun i j hij => hl i j i.2 j.2 hij
  rw [Matrix.det_of_isUpperTriangular hu, Finset.prod_range]
  rfl

end det

/-- Invariant of the elimination loop for the matrix `M`. -/
def ElimInv [Field K] {N : Nat} (M : Matrix (Fin N) (Fin N) K) (c : Nat) (s : ElimState K) : Prop :=
  (s.stop = true ∧ M.det = 0 ∧ s.det ≠ 0) ∨
  ∃ (e : Nat → Nat → K) (g : K), s = ⟨Mat.ofFn N N e, s.det, false⟩ ∧ LowZero N c e ∧ g ≠ 0 ∧ g * (toM N N e).det = M.det ∧
    s.det = g * ∏ i ∈ Finset.range c, e i i ∧ s.det ≠ 0

theorem elim_inv [Field K] [DecidableEq K] {isz : K → Bool} (hz : ∀ x, isz x = true ↔ x = 0) {N : Nat} (hf : Fits N N)
    (M : Matrix (Fin N) (Fin N) K) {c : Nat} (hc : c < N) (s : ElimState K) (h : ElimInv M c s) :
    ∃ s', elimStep isz N c s = .ok s' ∧ ElimInv M (c + 1) s' := by
  rcases h with ⟨h1, h2⟩ | ⟨e, g, hs, hl, hg, hdet, hd, hd0⟩
  · exact ⟨s, by rw [elimStep, if_pos h1], .inl ⟨h1, h2⟩⟩
  · obtain ⟨A, d, b⟩ := s
    obtain ⟨rfl, -, rfl⟩ : A = Mat.ofFn N N e ∧ d = d ∧ b = false := by simpa using hs
    dsimp only at hd hd0
    rcases elimStep_eq hz hf hc e d with ⟨h1, h2⟩ | ⟨h0, h1⟩ | ⟨k, h2, h3, h4, h1⟩
    · refine ⟨_, h1, .inl ⟨rfl, ?_, hd0⟩⟩
      rw [← hdet, det_singular hc hl h2, mul_zero]
    · refine ⟨_, h1, .inr ⟨_, g, rfl, lowZero_elimT hc h0 hl, hg, ?_, ?_, mul_ne_zero hd0 h0⟩⟩
      · rw [det_elimT hc e _ hl, hdet]
      · rw [Finset.prod_range_succ, ← mul_assoc]
        dsimp only
        rw [hd]
        congr 2
        · apply Finset.prod_congr rfl; intro i hi; simp only [elimT]; rw [if_neg (by have := Finset.mem_range.1 hi; omega)]
        · simp only [elimT]; rw [if_neg (by omega)]
    · have h0 : swapT e c k c c ≠ 0 := by simpa [swapT] using h4
      have hl' := lowZero_swapT hc h3 h2 hl
      refine ⟨_, h1, .inr ⟨_, -g, rfl, lowZero_elimT hc h0 hl', neg_ne_zero.2 hg, ?_, ?_,
        mul_ne_zero (mul_ne_zero hd0 (by simp)) h0⟩⟩
      · rw [det_elimT hc _ _ hl', det_swapT hc h3 (by omega), ← hdet]; ring
      · rw [Finset.prod_range_succ]
        dsimp only
        have e1 : ∏ i ∈ Finset.range c, elimT (swapT e c k) c (fun r => swapT e c k r c / swapT e c k c c) i i =
            ∏ i ∈ Finset.range c, e i i := by
          apply Finset.prod_congr rfl; intro i hi
          have := Finset.mem_range.1 hi
          simp only [elimT]; rw [if_neg (by omega)]
          simp only [swapT]; rw [if_neg (by omega), if_neg (by omega)]
        have e2 : elimT (swapT e c k) c (fun r => swapT e c k r c / swapT e c k c c) c c = swapT e c k c c := by
          simp only [elimT]; rw [if_neg (by omega)]
        rw [e1, e2, hd]; ring

/-- The elimination part of `determinant`: right on non-singular matrices, never zero on singular ones. -/
theorem elim_result [Field K] [DecidableEq K] {isz : K → Bool} (hz : ∀ x, isz x = true ↔ x = 0) {N : Nat} {e : Nat → Nat → K}
    (hf : Fits N N) :
    ∃ d, (forRange 0 N (⟨Mat.ofFn N N e, 1, false⟩ : ElimState K) (fun c s => elimStep isz N c s) >>= fun s => .ok s.det) = .ok d ∧
      d ≠ 0 ∧ ((toM N N e).det ≠ 0 → d = (toM N N e).det) := by
  obtain ⟨s, h1, h2⟩ := forRange_inv (Nat.zero_le N) (ElimInv (toM N N e)) (s := ⟨Mat.ofFn N N e, 1, false⟩)
    (body := fun c s => elimStep isz N c s)
    (.inr ⟨e, 1, rfl, fun i j _ hj _ => absurd hj (Nat.not_lt_zero j), one_ne_zero, one_mul _, by simp, one_ne_zero⟩)
    (fun c s _ hc h => elim_inv hz hf _ hc s h)
  refine ⟨s.det, by rw [h1]; rfl, ?_, ?_⟩
  · rcases h2 with ⟨-, -, h⟩ | ⟨_, _, _, _, _, _, _, h⟩ <;> exact h
  · intro hne
    rcases h2 with ⟨-, h, -⟩ | ⟨E, g, _, hl, _, hdet, hd, _⟩
    · exact absurd h hne
    · rw [hd, ← det_lowZero hl, hdet]

theorem isSquare_eq {A : MB T} {n m : Nat} {e} (h : RepAt A n m e) : Util.isSquare A = (n == m) := by
  unfold Util.isSquare; rw [h.rows, h.cols]

theorem det_four [CommRing K] (A : Matrix (Fin 4) (Fin 4) K) :
    A.det = A 0 0 * (A 1 1 * (A 2 2 * A 3 3 - A 2 3 * A 3 2) - A 1 2 * (A 2 1 * A 3 3 - A 2 3 * A 3 1)
          + A 1 3 * (A 2 1 * A 3 2 - A 2 2 * A 3 1))
        - A 0 1 * (A 1 0 * (A 2 2 * A 3 3 - A 2 3 * A 3 2) - A 1 2 * (A 2 0 * A 3 3 - A 2 3 * A 3 0)
          + A 1 3 * (A 2 0 * A 3 2 - A 2 2 * A 3 0))
        + A 0 2 * (A 1 0 * (A 2 1 * A 3 3 - A 2 3 * A 3 1) - A 1 1 * (A 2 0 * A 3 3 - A 2 3 * A 3 0)
          + A 1 3 * (A 2 0 * A 3 1 - A 2 1 * A 3 0))
        - A 0 3 * (A 1 0 * (A 2 1 * A 3 2 - A 2 2 * A 3 1) - A 1 1 * (A 2 0 * A 3 2 - A 2 2 * A 3 0)
          + A 1 2 * (A 2 0 * A 3 1 - A 2 1 * A 3 0)) := by
  rw [Matrix.det_succ_row_zero]
  simp only [Fin.sum_univ_four, Matrix.det_fin_three, Matrix.submatrix_apply]
  simp [Fin.succAbove, Fin.lt_def]
  ring

/-- Sizes up to four, by the closed formulas. -/
theorem determinant_small [CommRing K] [CDiv K] (isz : K → Bool) {A : MB K} {N : Nat} {e} (h : Rep A N N e) (hN : N ≤ 4) :
    determinant isz A = .ok (toM N N e).det := by
  have g := h.get
  unfold determinant
  rw [isSquare_eq h.toRepAt, h.cols, beq_self_eq_true, Bool.not_true, if_neg Bool.false_ne_true]
  obtain rfl | rfl | rfl | rfl | rfl : N = 0 ∨ N = 1 ∨ N = 2 ∨ N = 3 ∨ N = 4 := by omega
  · simp only [Nat.zero_ne_one, if_false, OfNat.zero_ne_ofNat]
    rw [Mat.ofMB_eq h]
    rw [Matrix.det_isEmpty]; rfl
  · rw [if_pos rfl, g 0 0 (by omega) (by omega), Matrix.det_fin_one]; rfl
  · rw [if_neg (by omega), if_pos rfl, g 0 0 (by omega) (by omega), g 0 1 (by omega) (by omega), g 1 0 (by omega) (by omega),
      g 1 1 (by omega) (by omega), Matrix.det_fin_two]
    rfl
  · rw [if_neg (by omega), if_neg (by omega), if_pos rfl]
    simp only [g _ _ (by omega : 0 < 3) (by omega : 0 < 3), g _ _ (by omega : 0 < 3) (by omega : 1 < 3),
      g _ _ (by omega : 0 < 3) (by omega : 2 < 3), g _ _ (by omega : 1 < 3) (by omega : 0 < 3),
      g _ _ (by omega : 1 < 3) (by omega : 1 < 3), g _ _ (by omega : 1 < 3) (by omega : 2 < 3),
      g _ _ (by omega : 2 < 3) (by omega : 0 < 3), g _ _ (by omega : 2 < 3) (by omega : 1 < 3),
      g _ _ (by omega : 2 < 3) (by omega : 2 < 3), Res.ok_bind, Res.pure_eq, Matrix.det_fin_three]
    congr 1
    show _ = e 0 0 * e 1 1 * e 2 2 - e 0 0 * e 1 2 * e 2 1 - e 0 1 * e 1 0 * e 2 2 + e 0 1 * e 1 2 * e 2 0 +
      e 0 2 * e 1 0 * e 2 1 - e 0 2 * e 1 1 * e 2 0
    ring
  · rw [if_neg (by omega), if_neg (by omega), if_neg (by omega), if_pos rfl]
    simp only [g _ _ (by omega : 0 < 4) (by omega : 0 < 4), g _ _ (by omega : 0 < 4) (by omega : 1 < 4),
      g _ _ (by omega : 0 < 4) (by omega : 2 < 4), g _ _ (by omega : 0 < 4) (by omega : 3 < 4),
      g _ _ (by omega : 1 < 4) (by omega : 0 < 4), g _ _ (by omega : 1 < 4) (by omega : 1 < 4),
      g _ _ (by omega : 1 < 4) (by omega : 2 < 4), g _ _ (by omega : 1 < 4) (by omega : 3 < 4),
      g _ _ (by omega : 2 < 4) (by omega : 0 < 4), g _ _ (by omega : 2 < 4) (by omega : 1 < 4),
      g _ _ (by omega : 2 < 4) (by omega : 2 < 4), g _ _ (by omega : 2 < 4) (by omega : 3 < 4),
      g _ _ (by omega : 3 < 4) (by omega : 0 < 4), g _ _ (by omega : 3 < 4) (by omega : 1 < 4),
      g _ _ (by omega : 3 < 4) (by omega : 2 < 4), g _ _ (by omega : 3 < 4) (by omega : 3 < 4), Res.ok_bind, Res.pure_eq]
    congr 1
    rw [det_four]
    show _ = e 0 0 * (e 1 1 * (e 2 2 * e 3 3 - e 2 3 * e 3 2) - e 1 2 * (e 2 1 * e 3 3 - e 2 3 * e 3 1)
          + e 1 3 * (e 2 1 * e 3 2 - e 2 2 * e 3 1))
        - e 0 1 * (e 1 0 * (e 2 2 * e 3 3 - e 2 3 * e 3 2) - e 1 2 * (e 2 0 * e 3 3 - e 2 3 * e 3 0)
          + e 1 3 * (e 2 0 * e 3 2 - e 2 2 * e 3 0))
        + e 0 2 * (e 1 0 * (e 2 1 * e 3 3 - e 2 3 * e 3 1) - e 1 1 * (e 2 0 * e 3 3 - e 2 3 * e 3 0)
          + e 1 3 * (e 2 0 * e 3 1 - e 2 1 * e 3 0))
        - e 0 3 * (e 1 0 * (e 2 1 * e 3 2 - e 2 2 * e 3 1) - e 1 1 * (e 2 0 * e 3 2 - e 2 2 * e 3 0)
          + e 1 2 * (e 2 0 * e 3 1 - e 2 1 * e 3 0))
    ring

/-- Larger sizes, by elimination. -/
theorem determinant_large [Field K] [DecidableEq K] {isz : K → Bool} (hz : ∀ x, isz x = true ↔ x = 0) {A : MB K} {N : Nat}
    {e} (h : Rep A N N e) (hN : 4 < N) :
    ∃ d, determinant isz A = .ok d ∧ d ≠ 0 ∧ ((toM N N e).det ≠ 0 → d = (toM N N e).det) := by
  unfold determinant
  rw [isSquare_eq h.toRepAt, h.cols, beq_self_eq_true, Bool.not_true, if_neg Bool.false_ne_true, if_neg (by omega), if_neg (by omega),
    if_neg (by omega), if_neg (by omega), Mat.ofMB_eq h, Res.ok_bind]
  exact elim_result hz h.fits

theorem determinant_ok [Field K] [DecidableEq K] {isz : K → Bool} (hz : ∀ x, isz x = true ↔ x = 0) {A : MB K} {N : Nat}
    {e} (h : Rep A N N e) :
    ∃ d, determinant isz A = .ok d ∧ ((toM N N e).det ≠ 0 → d = (toM N N e).det) := by
  by_cases hN : N ≤ 4
  · exact ⟨_, determinant_small isz h hN, fun _ => rfl⟩
  · obtain ⟨d, h1, -, h2⟩ := determinant_large hz h (by omega)
    exact ⟨d, h1, h2⟩

/-- `adjoint` from the values that `determinant` returns for the minors. -/
theorem adjoint_eq [CommRing K] [CDiv K] {isz : K → Bool} {A : MB K} {N : Nat} {e} (h : RepAt A N N e) (hN : N ≠ 1)
    {D : Nat → Nat → K} (hD : ∀ i j, i < N → j < N → determinant isz (A.cofactor i j) = .ok (D i j)) :
    adjoint isz A = .ok (Mat.ofFn N N fun r c => (-1) ^ (c + r) * D c r) := by
  unfold adjoint
  rw [isSquare_eq h, h.cols, beq_self_eq_true, Bool.not_true, if_neg Bool.false_ne_true, if_neg hN, Mat.new_eq h.fits,
    Res.ok_bind]
  have := fill_transposed h.fits (A := Mat.ofFn N N fun _ _ => (0 : K)) rfl (e := fun r c => (-1) ^ (r + c) * D r c)
    (g := fun r c => determinant isz (A.cofactor r c) >>= fun d => .ok ((if (r + c) % 2 = 0 then 1 else -1) * d))
    (fun r c hr hc => by
      rw [hD r c hr hc, Res.ok_bind]
      congr 2
      by_cases h2 : (r + c) % 2 = 0
      · rw [if_pos h2, Even.neg_one_pow (Nat.even_iff.2 h2)]
      · rw [if_neg h2, Odd.neg_one_pow (Nat.odd_iff.2 (by omega))])
  simpa only [bind_assoc, Res.ok_bind] using this

theorem skip_succAbove {n : Nat} (p : Fin (n + 1)) (r : Fin n) : skip p.1 r.1 = (p.succAbove r).1 := by
  unfold skip
  by_cases h : r.1 < p.1
  · rw [if_pos h, Fin.succAbove_of_castSucc_lt _ _ (by exact h)]; rfl
  · rw [if_neg h, Fin.succAbove_of_le_castSucc _ _ (by rw [Fin.le_def]; exact Nat.not_lt.1 h)]; rfl

/-- The entries of the adjugate in terms of minors. -/
theorem adjugate_eq [CommRing K] {N : Nat} (hN : 0 < N) (e : Nat → Nat → K) {i j : Nat} (hi : i < N) (hj : j < N) :
    (toM N N e).adjugate ⟨j, hj⟩ ⟨i, hi⟩ =
      (-1) ^ (i + j) * (toM (N - 1) (N - 1) fun r c => e (skip i r) (skip j c)).det := by
  obtain ⟨n, rfl⟩ : ∃ n, N = n + 1 := ⟨N - 1, by omega⟩
  rw [Matrix.adjugate_fin_succ_eq_det_submatrix]
  congr 2
  funext r c
  simp only [Matrix.submatrix_apply, toM_apply]
  rw [← skip_succAbove, ← skip_succAbove]

end Lin
end Malg
