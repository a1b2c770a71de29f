import Mathlib.Data.Matrix.Mul
import Mathlib.LinearAlgebra.Matrix.ToLinearEquiv
import Mathlib.Algebra.Order.BigOperators.Ring.Finset
import Mathlib.Tactic.FieldSimp
import Mathlib.Tactic.Ring
import Mathlib.Tactic.Linarith
import Mathlib.Tactic.LinearCombination
/-!
# Householder reflections
-/
namespace Malg
open Matrix
variable {K : Type} [Field K] {m : Nat}

/-- The reflection at the hyperplane orthogonal to `v`. -/
def reflect (v : Fin m → K) : Matrix (Fin m) (Fin m) K := 1 - (2 / (v ⬝ᵥ v)) • vecMulVec v v

theorem reflect_mulVec (v x : Fin m → K) : reflect v *ᵥ x = x - (2 / (v ⬝ᵥ v) * (v ⬝ᵥ x)) • v := by
  rw [reflect, sub_mulVec, one_mulVec, smul_mulVec, vecMulVec_mulVec]
  funext i
  simp only [Pi.sub_apply, Pi.smul_apply, smul_eq_mul, MulOpposite.smul_eq_mul_unop, MulOpposite.unop_op]
  ring

theorem reflect_transpose (v : Fin m → K) : (reflect v)ᵀ = reflect v := by
  rw [reflect, transpose_sub, transpose_one, transpose_smul, transpose_vecMulVec]

theorem reflect_mul_self {v : Fin m → K} (h : v ⬝ᵥ v ≠ 0) : reflect v * reflect v = 1 := by
  apply Matrix.ext_of_mulVec_single
  intro j
  rw [← mulVec_mulVec, reflect_mulVec, reflect_mulVec, one_mulVec]
  funext i
  simp only [Pi.sub_apply, Pi.smul_apply, smul_eq_mul, dotProduct_sub, dotProduct_smul]
  field_simp
  ring

theorem mul_apply_col {n k : Nat} (A : Matrix (Fin m) (Fin n) K) (B : Matrix (Fin n) (Fin k) K) (i : Fin m) (j : Fin k) :
    (A * B) i j = (A *ᵥ fun r => B r j) i := rfl

/-- The invariant of the triangularisation: `k` columns are done. -/
structure QrInv {n : Nat} (k : Nat) (A : Matrix (Fin m) (Fin n) K) (Q : Matrix (Fin m) (Fin m) K)
    (R : Matrix (Fin m) (Fin n) K) : Prop where
  orth : Qᵀ * Q = 1
  fact : Q * R = A
  low : ∀ r c, c.val < k → c.val < r.val → R r c = 0
  diag : ∀ r c, c.val < k → r.val = c.val → R r c ≠ 0

/-- The mirror vector of step `i`: zeros, then one, then the rest of the column divided by `d`. -/
def mirror (i : Nat) (x : Fin m → K) (d : K) (r : Fin m) : K :=
  if r.val < i then 0 else if r.val = i then 1 else x r / d

variable [LinearOrder K] [IsStrictOrderedRing K]

theorem mirror_pos {i : Nat} (hi : i < m) (x : Fin m → K) (d : K) : mirror i x d ⬝ᵥ mirror i x d ≠ 0 := by
  have h : (1 : K) ≤ mirror i x d ⬝ᵥ mirror i x d := by
    have := Finset.single_le_sum (f := fun r => mirror i x d r * mirror i x d r)
      (fun r _ => mul_self_nonneg _) (Finset.mem_univ (⟨i, hi⟩ : Fin m))
    simpa [mirror, dotProduct] using this
  exact ne_of_gt (lt_of_lt_of_le one_pos h)

/-- The reflection takes the column to a multiple of a unit vector below row `i`. -/
theorem mirror_col {i : Nat} (hi : i < m) (x : Fin m → K) {σ : K} (hσ : σ * σ = ∑ r : Fin m, if r.val < i then 0 else x r * x r)
    (hd : x ⟨i, hi⟩ + σ ≠ 0) (r : Fin m) :
    (reflect (mirror i x (x ⟨i, hi⟩ + σ)) *ᵥ x) r =
      if r.val < i then x r else if r.val = i then -σ else 0 := by
  set d := x ⟨i, hi⟩ + σ with hdef
  set v := mirror i x d with hv
  have hvv := mirror_pos hi x d
  rw [← hv] at hvv
  -- `d v = z + σ e_i` with `z` the lower part of `x`
  have hdv : ∀ r : Fin m, d * v r = (if r.val < i then 0 else x r) + if r.val = i then σ else 0 := by
    intro r
    rw [hv, mirror]
    split_ifs with h1 h2 h2
    · omega
    · simp
    · have : r = ⟨i, hi⟩ := Fin.ext h2
      rw [this, mul_one]
    · rw [mul_div_cancel₀ _ hd, add_zero]
  have hsx : d * (v ⬝ᵥ x) = σ * σ + σ * x ⟨i, hi⟩ := by
    rw [dotProduct, Finset.mul_sum, hσ]
    have : ∀ r ∈ Finset.univ, d * (v r * x r) =
        (if r.val < i then 0 else x r * x r) + if r = ⟨i, hi⟩ then σ * x r else 0 := by
      intro r _
      rw [← mul_assoc, hdv r]
      by_cases h : r = ⟨i, hi⟩
      · simp [h]; ring
      · have h' : r.val ≠ i := fun hh => h (Fin.ext hh)
        rw [if_neg h', if_neg h]
        split_ifs <;> ring
    rw [Finset.sum_congr rfl this, Finset.sum_add_distrib, Finset.sum_ite_eq' Finset.univ, if_pos (Finset.mem_univ _)]
  have hsv : d * d * (v ⬝ᵥ v) = 2 * (σ * σ + σ * x ⟨i, hi⟩) := by
    have e1 : d * d * (v ⬝ᵥ v) = ∑ r : Fin m, (d * v r) * (d * v r) := by
      rw [dotProduct, Finset.mul_sum]; exact Finset.sum_congr rfl fun r _ => by ring
    have : ∀ r ∈ Finset.univ, (d * v r) * (d * v r) =
        (if r.val < i then 0 else x r * x r) + if r = ⟨i, hi⟩ then 2 * σ * x r + σ * σ else 0 := by
      intro r _
      rw [hdv r]
      by_cases h : r = ⟨i, hi⟩
      · simp [h]; ring
      · have h' : r.val ≠ i := fun hh => h (Fin.ext hh)
        rw [if_neg h', if_neg h]
        split_ifs <;> ring
    rw [e1, Finset.sum_congr rfl this, Finset.sum_add_distrib, Finset.sum_ite_eq' Finset.univ,
      if_pos (Finset.mem_univ _), ← hσ]
    ring
  have hc : 2 / (v ⬝ᵥ v) * (v ⬝ᵥ x) = d := by
    rw [div_mul_eq_mul_div, div_eq_iff hvv]
    apply mul_left_cancel₀ hd
    linear_combination 2 * hsx - hsv
  rw [reflect_mulVec, hc, Pi.sub_apply, Pi.smul_apply, smul_eq_mul, hdv r]
  split_ifs with h1 h2 h2
  · omega
  · ring
  · ring
  · ring

omit [LinearOrder K] [IsStrictOrderedRing K] in
/-- The reflection leaves columns alone that are zero from row `i` on. -/
theorem mirror_fix {i : Nat} (x y : Fin m → K) (d : K) (hy : ∀ r : Fin m, i ≤ r.val → y r = 0) :
    reflect (mirror i x d) *ᵥ y = y := by
  have : mirror i x d ⬝ᵥ y = 0 := by
    refine Finset.sum_eq_zero fun r _ => ?_
    by_cases h : r.val < i
    · rw [mirror, if_pos h, zero_mul]
    · rw [hy r (by omega), mul_zero]
  rw [reflect_mulVec, this, mul_zero, zero_smul, sub_zero]

theorem QrInv.step {n i : Nat} {A : Matrix (Fin m) (Fin n) K} {Q : Matrix (Fin m) (Fin m) K} {R : Matrix (Fin m) (Fin n) K}
    (h : QrInv i A Q R) (hi : i < m) (hin : i < n) {σ : K}
    (hσ : σ * σ = ∑ r : Fin m, if r.val < i then 0 else R r ⟨i, hin⟩ * R r ⟨i, hin⟩)
    (hd : R ⟨i, hi⟩ ⟨i, hin⟩ + σ ≠ 0) (hs : σ ≠ 0) :
    QrInv (i + 1) A (Q * reflect (mirror i (fun r => R r ⟨i, hin⟩) (R ⟨i, hi⟩ ⟨i, hin⟩ + σ)))
      (reflect (mirror i (fun r => R r ⟨i, hin⟩) (R ⟨i, hi⟩ ⟨i, hin⟩ + σ)) * R) := by
  have hH := reflect_mul_self (mirror_pos hi (fun r => R r ⟨i, hin⟩) (R ⟨i, hi⟩ ⟨i, hin⟩ + σ))
  have hT := reflect_transpose (mirror i (fun r => R r ⟨i, hin⟩) (R ⟨i, hi⟩ ⟨i, hin⟩ + σ))
  have hcol := mirror_col hi (fun r => R r ⟨i, hin⟩) hσ hd
  have hfix := fun y => mirror_fix (fun r => R r ⟨i, hin⟩) y (R ⟨i, hi⟩ ⟨i, hin⟩ + σ) (i := i)
  generalize reflect (mirror i (fun r => R r ⟨i, hin⟩) (R ⟨i, hi⟩ ⟨i, hin⟩ + σ)) = H at *
  have hold : ∀ c : Fin n, c.val < i → ∀ r, (H * R) r c = R r c := by
    intro c hc r
    rw [mul_apply_col, hfix]
    intro r hr
    exact h.low r c hc (by omega)
  refine ⟨?_, ?_, ?_, ?_⟩
  · rw [transpose_mul, hT, Matrix.mul_assoc, ← Matrix.mul_assoc Qᵀ, h.orth, Matrix.one_mul, hH]
  · rw [Matrix.mul_assoc, ← Matrix.mul_assoc H, hH, Matrix.one_mul, h.fact]
  · intro r c hc hr
    by_cases h1 : c.val < i
    · rw [hold c h1, h.low r c h1 hr]
    · obtain rfl : c = ⟨i, hin⟩ := Fin.ext (show c.val = i by omega)
      rw [mul_apply_col, hcol r, if_neg (show ¬ r.val < i from fun hh => by have : i < r.val := hr; omega),
        if_neg (show ¬ r.val = i from fun hh => by have : i < r.val := hr; omega)]
  · intro r c hc hr
    by_cases h1 : c.val < i
    · rw [hold c h1]; exact h.diag r c h1 hr
    · obtain rfl : c = ⟨i, hin⟩ := Fin.ext (show c.val = i by omega)
      rw [mul_apply_col, hcol r, if_neg (show ¬ r.val < i from fun hh => by have : r.val = i := hr; omega), if_pos hr]
      exact neg_ne_zero.2 hs

omit [LinearOrder K] [IsStrictOrderedRing K] in
/-- A column that vanishes from row `i` on depends on the columns before it. -/
theorem QrInv.dependent {n i : Nat} {A : Matrix (Fin m) (Fin n) K} {Q : Matrix (Fin m) (Fin m) K}
    {R : Matrix (Fin m) (Fin n) K} (h : QrInv i A Q R) (hi : i < m) (hin : i < n)
    (h0 : ∀ r : Fin m, i ≤ r.val → R r ⟨i, hin⟩ = 0) :
    ∃ x : Fin n → K, x ≠ 0 ∧ (∀ j, i < j.val → x j = 0) ∧ A *ᵥ x = 0 := by
  let B : Matrix (Fin (i + 1)) (Fin (i + 1)) K := R.submatrix (Fin.castLE (by omega)) (Fin.castLE (by omega))
  have hB : B.det = 0 := by
    refine Matrix.det_eq_zero_of_row_eq_zero (Fin.last i) fun c => ?_
    by_cases hc : c.val < i
    · exact h.low _ _ hc hc
    · have : Fin.castLE (show i + 1 ≤ n by omega) c = ⟨i, hin⟩ := Fin.ext (by simp; omega)
      show R _ (Fin.castLE _ c) = 0
      rw [this]
      exact h0 _ (by simp)
  obtain ⟨y, hy, hBy⟩ := Matrix.exists_mulVec_eq_zero_iff.2 hB
  have hR : R *ᵥ (fun j : Fin n => if hj : j.val < i + 1 then y ⟨j.val, hj⟩ else 0) = 0 := by
    funext r
    have hsum : (R *ᵥ (fun j : Fin n => if hj : j.val < i + 1 then y ⟨j.val, hj⟩ else 0)) r =
        ∑ j : Fin (i + 1), R r (Fin.castLE (by omega) j) * y j := by
      have hn : n = (i + 1) + (n - (i + 1)) := by omega
      rw [mulVec, dotProduct]
      symm
      rw [← Finset.sum_subset (Finset.subset_univ (Finset.univ.map (Fin.castLEEmb (show i + 1 ≤ n by omega))))]
      · rw [Finset.sum_map]
        refine Finset.sum_congr rfl fun j _ => ?_
        have : (Fin.castLEEmb (show i + 1 ≤ n by omega) j).val < i + 1 := j.2
        rw [dif_pos this]; rfl
      · intro j _ hj
        rw [dif_neg, mul_zero]
        intro hlt
        exact hj (Finset.mem_map.2 ⟨⟨j.val, hlt⟩, Finset.mem_univ _, Fin.ext rfl⟩)
    rw [hsum]
    by_cases hr : r.val < i + 1
    · have := congrFun hBy ⟨r.val, hr⟩
      rw [Pi.zero_apply] at this ⊢
      rw [← this, mulVec, dotProduct]
      exact Finset.sum_congr rfl fun j _ => rfl
    · refine Finset.sum_eq_zero fun j _ => ?_
      have : R r (Fin.castLE (show i + 1 ≤ n by omega) j) = 0 := by
        by_cases hj : j.val < i
        · exact h.low _ _ hj (by simp; omega)
        · have e : Fin.castLE (show i + 1 ≤ n by omega) j = ⟨i, hin⟩ := Fin.ext (by simp; omega)
          rw [e]; exact h0 r (by omega)
      rw [this, zero_mul]
  refine ⟨fun j : Fin n => if hj : j.val < i + 1 then y ⟨j.val, hj⟩ else 0, ?_, ?_, ?_⟩
  rotate_left
  · intro j hj
    exact dif_neg (show ¬ (j.val < i + 1) by omega)
  · rw [← h.fact, ← mulVec_mulVec, hR, mulVec_zero]
  · intro hx
    apply hy
    funext j
    have := congrFun hx (Fin.castLE (show i + 1 ≤ n by omega) j)
    simpa [show j.val ≤ i by omega] using this

omit [LinearOrder K] [IsStrictOrderedRing K] in
/-- After `k` columns no combination of them vanishes. -/
theorem QrInv.independent {n k : Nat} {A : Matrix (Fin m) (Fin n) K} {Q : Matrix (Fin m) (Fin m) K}
    {R : Matrix (Fin m) (Fin n) K} (h : QrInv k A Q R) (hk : k ≤ m) {x : Fin n → K} (hx : ∀ j, k ≤ j.val → x j = 0)
    (hA : A *ᵥ x = 0) : x = 0 := by
  have hR : R *ᵥ x = 0 := by
    have : Qᵀ *ᵥ (A *ᵥ x) = R *ᵥ x := by
      rw [← h.fact, mulVec_mulVec, ← Matrix.mul_assoc, h.orth, Matrix.one_mul]
    rw [← this, hA, mulVec_zero]
  -- back substitution
  have key : ∀ t j : Nat, (hj : j < n) → k ≤ j + t → x ⟨j, hj⟩ = 0 := by
    intro t
    induction t with
    | zero => intro j hj hkj; exact hx _ (by simpa using hkj)
    | succ t ih =>
      intro j hj hkj
      by_cases hjk : k ≤ j
      · exact hx _ hjk
      have hjm : j < m := by omega
      have h1 := congrFun hR ⟨j, hjm⟩
      rw [mulVec, dotProduct, Pi.zero_apply, Finset.sum_eq_single ⟨j, hj⟩] at h1
      · exact (mul_eq_zero.1 h1).resolve_left (h.diag _ _ (by simpa using hjk) rfl)
      · intro c _ hc
        have hne : c.val ≠ j := fun hh => hc (Fin.ext hh)
        rcases Nat.lt_or_gt_of_ne hne with h2 | h2
        · rw [h.low _ _ (by omega) (by simpa using h2), zero_mul]
        · rw [show x c = 0 from ih c.val c.2 (by omega), mul_zero]
      · intro hc; exact absurd (Finset.mem_univ _) hc
  funext j
  exact key k j.val j.2 (by omega)

end Malg
