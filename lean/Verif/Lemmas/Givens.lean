import Verif.Lemmas.Cpx
import Verif.Lemmas.Lu
import Verif.Lemmas.MathOps
import Verif.Props.Arith
import Mathlib.LinearAlgebra.Matrix.ConjTranspose
import Mathlib.LinearAlgebra.Matrix.NonsingularInverse
/-!
# Givens rotations and the run of `qr_factorise_givens`
-/
namespace Malg
open Matrix

section rot
variable {C : Type} [CommRing C] [StarRing C] {n : Nat}

/-- The rotation of rows `j` and `i`. -/
def rot (c s : C) (j i : Fin n) : Matrix (Fin n) (Fin n) C := fun a b =>
  if a = j then (if b = j then star c else if b = i then -s else 0)
  else if a = i then (if b = j then star s else if b = i then c else 0)
  else if a = b then 1 else 0

theorem rot_mul {m : Nat} {c s : C} {j i : Fin n} (hij : i ≠ j) (X : Matrix (Fin n) (Fin m) C) (a : Fin n) (b : Fin m) :
    (rot c s j i * X) a b =
      if a = j then star c * X j b - s * X i b else if a = i then star s * X j b + c * X i b else X a b := by
  have key : ∀ x y : C, ∑ k, (if k = j then x else if k = i then y else 0) * X k b = x * X j b + y * X i b := by
    intro x y
    have : ∀ k, (if k = j then x else if k = i then y else 0) * X k b =
        (if k = j then x * X k b else 0) + (if k = i then y * X k b else 0) := by
      intro k
      by_cases h1 : k = j
      · have h2 : k ≠ i := fun h => hij (h.symm.trans h1)
        rw [if_pos h1, if_pos h1, if_neg h2, add_zero]
      · rw [if_neg h1, if_neg h1, zero_add]; split_ifs <;> simp
    rw [Finset.sum_congr rfl fun k _ => this k, Finset.sum_add_distrib, Finset.sum_ite_eq' Finset.univ j,
      Finset.sum_ite_eq' Finset.univ i]
    simp
  rw [Matrix.mul_apply]
  by_cases h1 : a = j
  · rw [if_pos h1]
    simp only [rot, if_pos h1]
    rw [key]; ring
  · rw [if_neg h1]
    by_cases h2 : a = i
    · rw [if_pos h2]
      simp only [rot, if_neg h1, if_pos h2]
      rw [key]
    · rw [if_neg h2]
      simp only [rot, if_neg h1, if_neg h2]
      simp

theorem rot_unitary {c s : C} {j i : Fin n} (hij : i ≠ j) (h : star c * c + star s * s = 1) :
    rot c s j i * (rot c s j i)ᴴ = 1 := by
  have hji : j ≠ i := hij.symm
  ext a b
  rw [rot_mul hij]
  simp only [conjTranspose_apply, Matrix.one_apply]
  by_cases ha : a = j
  · subst ha
    by_cases hb : b = a
    · subst hb
      simp only [rot, if_true, if_neg hij, star_star, star_neg]
      linear_combination h
    · by_cases hb' : b = i
      · subst hb'
        simp only [rot, if_true, if_neg hb, if_neg hji, star_star]
        ring
      · simp [rot, hb, hb', Ne.symm hb]
  · by_cases ha' : a = i
    · subst ha'
      by_cases hb : b = j
      · subst hb
        simp only [rot, if_true, if_neg ha, star_star, star_neg]
        ring
      · by_cases hb' : b = a
        · subst hb'
          simp only [rot, if_true, if_neg hb, star_star]
          linear_combination h
        · simp [rot, ha, hb, hb', Ne.symm hb']
    · simp only [rot, if_neg ha, if_neg ha']
      by_cases hb : b = j
      · subst hb
        simp [ha]
      · by_cases hb' : b = i
        · subst hb'
          simp [ha', hb]
        · by_cases hab : b = a
          · subst hab; simp [hb, hb']
          · simp [hb, hb', hab, Ne.symm hab]

end rot

namespace Eigen
open Cpx
variable {K : Type} [Field K] [LinearOrder K] [IsStrictOrderedRing K]

/-- The two matrices after `i` rows: a unitary matrix and what is left of `A`. -/
structure GivensInv {n : Nat} (eps : K) (i : Nat) (A Q R : Matrix (Fin n) (Fin n) (Cpx K)) : Prop where
  unit : Qᴴ * Q = 1
  fact : Q * R = A
  rest : ∀ r c : Fin n, i ≤ r.val → R r c = A r c
  low : (∀ r c : Fin n, c.val + 1 < r.val → A r c = 0) → ∀ r c : Fin n, r.val < i → c.val < r.val → norm (R r c) < eps * eps

theorem givens_step {n : Nat} {eps : K} (he : 0 < eps) {i : Nat} {A Q R : Matrix (Fin n) (Fin n) (Cpx K)} (h : GivensInv eps i A Q R)
    (hi1 : 1 ≤ i) (hi : i < n) {c s : Cpx K} {l : K} (hl : l * l = norm (R ⟨i - 1, by omega⟩ ⟨i - 1, by omega⟩) + norm (R ⟨i, hi⟩ ⟨i - 1, by omega⟩))
    (hl0 : l ≠ 0) (hc : c = R ⟨i - 1, by omega⟩ ⟨i - 1, by omega⟩ / ofReal l) (hs : s = -star (R ⟨i, hi⟩ ⟨i - 1, by omega⟩) / ofReal l) :
    GivensInv eps (i + 1) A (Q * (rot c s ⟨i - 1, by omega⟩ ⟨i, hi⟩)ᴴ) (rot c s ⟨i - 1, by omega⟩ ⟨i, hi⟩ * R) := by
  have hij : (⟨i, hi⟩ : Fin n) ≠ ⟨i - 1, by omega⟩ := by simp only [ne_eq, Fin.mk.injEq]; omega
  have hl' : (ofReal l : Cpx K) ≠ 0 := ofReal_ne_zero.2 hl0
  have hcs : star c * c + star s * s = 1 := by
    have h1 : ofReal (l * l) = star (R ⟨i - 1, by omega⟩ ⟨i - 1, by omega⟩) * R ⟨i - 1, by omega⟩ ⟨i - 1, by omega⟩ +
        R ⟨i, hi⟩ ⟨i - 1, by omega⟩ * star (R ⟨i, hi⟩ ⟨i - 1, by omega⟩) := by
      rw [hl, ofReal_add, norm_eq, norm_eq']
    rw [ofReal_mul] at h1
    rw [hc, hs, star_div₀, star_div₀, star_neg, star_star, star_ofReal]
    field_simp
    rw [pow_two, h1]
  have hu := rot_unitary hij hcs
  have hu' : (rot c s ⟨i - 1, by omega⟩ ⟨i, hi⟩)ᴴ * rot c s ⟨i - 1, by omega⟩ ⟨i, hi⟩ = 1 := mul_eq_one_comm.1 hu
  have hn : norm c + norm s = 1 := by
    apply ofReal_inj.1
    rw [ofReal_add, norm_eq, norm_eq, hcs, ofReal_one]
  have hc1 : norm c ≤ 1 := by have := norm_nonneg s; linarith
  have hs1 : norm s ≤ 1 := by have := norm_nonneg c; linarith
  have hee : 0 < eps * eps := mul_pos he he
  have hz : star s * R ⟨i - 1, by omega⟩ ⟨i - 1, by omega⟩ + c * R ⟨i, hi⟩ ⟨i - 1, by omega⟩ = 0 := by
    rw [hc, hs, star_div₀, star_neg, star_star, star_ofReal]
    field_simp
    ring
  refine ⟨?_, ?_, ?_, ?_⟩
  · rw [conjTranspose_mul, conjTranspose_conjTranspose, Matrix.mul_assoc, ← Matrix.mul_assoc Qᴴ, h.unit, Matrix.one_mul, hu]
  · rw [Matrix.mul_assoc, ← Matrix.mul_assoc _ (rot c s ⟨i - 1, by omega⟩ ⟨i, hi⟩), hu', Matrix.one_mul, h.fact]
  · intro r c' hr
    rw [rot_mul hij, if_neg (by rw [Fin.ext_iff]; simp only; omega), if_neg (by rw [Fin.ext_iff]; simp only; omega)]
    exact h.rest r c' (by omega)
  · intro hA r c' hr hc'
    have hlt : ∀ {x y : K}, x ≤ 1 → 0 ≤ y → y < eps * eps → x * y < eps * eps := fun {x y} h1 h2 h3 =>
      lt_of_le_of_lt (mul_le_of_le_one_left h2 h1) h3
    have hi0 : c'.val + 1 < i → R ⟨i, hi⟩ c' = 0 := fun h' => by rw [h.rest _ _ (Nat.le_refl i), hA _ _ h']
    rw [rot_mul hij]
    have hj : i - 1 < n := by omega
    by_cases h1 : r = ⟨i - 1, hj⟩
    · subst h1
      simp only at hr hc'
      rw [if_pos rfl, hi0 (by omega), mul_zero, sub_zero, norm_mul, norm_star]
      exact hlt hc1 (norm_nonneg _) (h.low hA _ _ (by simp only; omega) hc')
    · rw [if_neg h1]
      by_cases h2 : r = ⟨i, hi⟩
      · subst h2
        rw [if_pos rfl]
        simp only at hr hc'
        by_cases h3 : c'.val = i - 1
        · have : c' = ⟨i - 1, by omega⟩ := Fin.ext h3
          rw [this, hz, norm_zero]; exact hee
        · rw [hi0 (by omega), mul_zero, add_zero, norm_mul, norm_star]
          exact hlt hs1 (norm_nonneg _) (h.low hA _ _ (by simp only; omega) (by simp only; omega))
      · rw [if_neg h2]
        refine h.low hA r c' ?_ hc'
        rw [Fin.ext_iff] at h2; simp only at h2; omega

theorem givens_start {n : Nat} (eps : K) (A : Matrix (Fin n) (Fin n) (Cpx K)) : GivensInv eps 1 A 1 A where
  unit := by rw [conjTranspose_one, Matrix.one_mul]
  fact := Matrix.one_mul _
  rest _ _ _ := rfl
  low _ r c h1 h2 := by omega

theorem givens_skip {n : Nat} {eps : K} {i : Nat} {A Q R : Matrix (Fin n) (Fin n) (Cpx K)} (he : 0 < eps) (h : GivensInv eps i A Q R)
    (hi1 : 1 ≤ i) (hi : i < n) (hx : norm (R ⟨i, hi⟩ ⟨i - 1, by omega⟩) < eps * eps) : GivensInv eps (i + 1) A Q R where
  unit := h.unit
  fact := h.fact
  rest r c hr := h.rest r c (by omega)
  low hA r c hr hc := by
    rcases Nat.lt_or_ge r.val i with h1 | h1
    · exact h.low hA r c h1 hc
    · have : r = ⟨i, hi⟩ := Fin.ext (by simp only; omega)
      subst this
      simp only at hc
      by_cases h3 : c.val = i - 1
      · have : c = ⟨i - 1, by omega⟩ := Fin.ext h3
        rw [this]; exact hx
      · rw [h.rest _ _ (Nat.le_refl i), hA _ _ (by simp only; omega), norm_zero]; exact mul_pos he he

/-- One pass of the loop. -/
theorem givensStep_eq {eps : K} {sqrt : K → K} {abs : Cpx K → K} {n i : Nat} (hf : Fits n n) (hi1 : 1 ≤ i) (hi : i < n)
    (Q R : Matrix (Fin n) (Fin n) (Cpx K)) (hab : ¬ abs (R ⟨i, hi⟩ ⟨i - 1, by omega⟩) < eps) {l : K} (hl0 : l ≠ 0)
    (hl : sqrt (norm (R ⟨i - 1, by omega⟩ ⟨i - 1, by omega⟩) + norm (-conj (R ⟨i, hi⟩ ⟨i - 1, by omega⟩))) = l) :
    givensStep eps sqrt abs n i (Mat.ofFn n n (tab Q), Mat.ofFn n n (tab R)) =
      .ok (Mat.ofFn n n (tab (Q * (rot (R ⟨i - 1, by omega⟩ ⟨i - 1, by omega⟩ / ofReal l)
          (-star (R ⟨i, hi⟩ ⟨i - 1, by omega⟩) / ofReal l) ⟨i - 1, by omega⟩ ⟨i, hi⟩)ᴴ)),
        Mat.ofFn n n (tab (rot (R ⟨i - 1, by omega⟩ ⟨i - 1, by omega⟩ / ofReal l)
          (-star (R ⟨i, hi⟩ ⟨i - 1, by omega⟩) / ofReal l) ⟨i - 1, by omega⟩ ⟨i, hi⟩ * R))) := by
  have hij : (⟨i, hi⟩ : Fin n) ≠ ⟨i - 1, by omega⟩ := by simp only [ne_eq, Fin.mk.injEq]; omega
  have hj : i - 1 < n := by omega
  unfold givensStep
  dsimp only
  rw [ofFn_at hf hi hj, tab_lt R hi hj, Res.ok_bind, if_neg hab, ofFn_at hf hj hj, tab_lt R hj hj, Res.ok_bind, hl, divR_ok _ hl0,
    Res.ok_bind, divR_ok _ hl0, Res.ok_bind]
  simp only [← star_def]
  generalize hc : R ⟨i - 1, hj⟩ ⟨i - 1, hj⟩ / ofReal l = c
  generalize hs : -star (R ⟨i, hi⟩ ⟨i - 1, hj⟩) / ofReal l = s
  have hQ : Q * (rot c s ⟨i - 1, hj⟩ ⟨i, hi⟩)ᴴ = (rot c s ⟨i - 1, hj⟩ ⟨i, hi⟩ * Qᴴ)ᴴ := by
    rw [conjTranspose_mul, conjTranspose_conjTranspose]
  rw [forRange_eq (Nat.zero_le n) (fun m =>
    (Mat.ofFn n n fun a b => if a < m then tab (Q * (rot c s ⟨i - 1, hj⟩ ⟨i, hi⟩)ᴴ) a b else tab Q a b,
     Mat.ofFn n n fun a b => if b < m then tab (rot c s ⟨i - 1, hj⟩ ⟨i, hi⟩ * R) a b else tab R a b))]
  · congr 2
    · apply ofFn_congr; intro a b ha hb; rw [if_pos ha]
    · apply ofFn_congr; intro a b ha hb; rw [if_pos hb]
  · congr 1
  · intro m _ hm
    dsimp only
    rw [ofFn_at hf hj hm, Res.ok_bind, ofFn_at hf hi hm, Res.ok_bind, ofFn_setAt hf hj hm, Res.ok_bind, ofFn_setAt hf hi hm,
      Res.ok_bind, ofFn_at hf hm hj, Res.ok_bind, ofFn_at hf hm hi, Res.ok_bind, ofFn_setAt hf hm hj, Res.ok_bind,
      ofFn_setAt hf hm hi, Res.ok_bind]
    show Res.ok _ = Res.ok _
    congr 2
    · apply ofFn_congr
      intro a b ha hb
      simp only [upd]
      by_cases ham : a = m
      · subst ham
        have : tab (Q * (rot c s ⟨i - 1, hj⟩ ⟨i, hi⟩)ᴴ) a b = if b = i - 1 then c * tab Q a (i - 1) - star s * tab Q a i
            else if b = i then s * tab Q a (i - 1) + star c * tab Q a i else tab Q a b := by
          rw [tab_lt _ ha hb, hQ, conjTranspose_apply, rot_mul hij, tab_lt Q ha hj, tab_lt Q ha hi, tab_lt Q ha hb]
          simp only [conjTranspose_apply, Fin.mk.injEq]
          split_ifs
          · simp [star_sub, star_mul', star_star]
          · simp [star_mul', star_star]
          · simp
        rw [if_pos (Nat.lt_succ_self a), if_neg (Nat.lt_irrefl a), this]
        by_cases h1 : b = i
        · rw [if_pos ⟨rfl, h1⟩, if_neg (by omega), if_pos h1]
        · rw [if_neg (by omega), if_neg h1]
          by_cases h2 : b = i - 1
          · rw [if_pos ⟨rfl, h2⟩, if_pos h2]
          · rw [if_neg (by omega), if_neg h2]
      · rw [if_neg (by omega), if_neg (by omega)]
        apply if_congr _ rfl rfl; omega
    · apply ofFn_congr
      intro a b ha hb
      simp only [upd]
      by_cases hbm : b = m
      · subst hbm
        have : tab (rot c s ⟨i - 1, hj⟩ ⟨i, hi⟩ * R) a b = if a = i - 1 then star c * tab R (i - 1) b - s * tab R i b
            else if a = i then star s * tab R (i - 1) b + c * tab R i b else tab R a b := by
          rw [tab_lt _ ha hb, rot_mul hij, tab_lt R hj hb, tab_lt R hi hb, tab_lt R ha hb]
          simp only [Fin.mk.injEq]
        rw [if_pos (Nat.lt_succ_self b), if_neg (Nat.lt_irrefl b), this]
        by_cases h1 : a = i
        · rw [if_pos ⟨h1, rfl⟩, if_neg (by omega), if_pos h1]
        · rw [if_neg (by omega), if_neg h1]
          by_cases h2 : a = i - 1
          · rw [if_pos ⟨h2, rfl⟩, if_pos h2]
          · rw [if_neg (by omega), if_neg h2]
      · rw [if_neg (by omega), if_neg (by omega)]
        apply if_congr _ rfl rfl; omega

end Eigen
end Malg
