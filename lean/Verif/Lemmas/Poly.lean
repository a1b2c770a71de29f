import Verif.Spec.Poly
import Verif.Lemmas.Utility
import Verif.Model.Control
import Mathlib.Algebra.Polynomial.Roots
import Mathlib.Algebra.Polynomial.Derivative
import Mathlib.LinearAlgebra.Matrix.Charpoly.Coeff
/-!
# Polynomials: coefficient lists, products of linear factors, the Faddeev–LeVerrier recursion
-/
namespace Malg
open Polynomial Control

theorem polyOf_coeff {R : Type} [Semiring R] (l : List R) (k : Nat) :
    (polyOf l).coeff k = if k < l.length then l.getD (l.length - 1 - k) 0 else 0 := by
  induction l with
  | nil => simp [polyOf]
  | cons c l ih =>
    rw [polyOf, coeff_add, ih, coeff_C_mul, coeff_X_pow]
    by_cases h : k = l.length
    · subst h; simp
    · rw [if_neg h, mul_zero, zero_add]
      by_cases h1 : k < l.length
      · rw [if_pos h1, if_pos (by simp; omega)]
        have : (c :: l).length - 1 - k = (l.length - 1 - k) + 1 := by simp; omega
        rw [this, List.getD_cons_succ]
      · rw [if_neg h1, if_neg (by simp; omega)]

/-- Reading a polynomial off its coefficients. -/
theorem polyOf_vtab {R : Type} [Semiring R] {n : Nat} {f : Nat → R} {p : R[X]} (hd : p.natDegree ≤ n)
    (h : ∀ i, i ≤ n → f i = p.coeff (n - i)) : polyOf (vtab (n + 1) f) = p := by
  ext k
  rw [polyOf_coeff, vtab_length]
  by_cases hk : k < n + 1
  · rw [if_pos hk, List.getD_eq_getElem?_getD, vtab, List.getElem?_map, List.getElem?_range (by omega)]
    simp only [Option.map_some, Option.getD_some]
    rw [h _ (by omega)]; congr 1; omega
  · rw [if_neg hk, coeff_eq_zero_of_natDegree_lt (by omega)]

section
variable {R : Type} [CommRing R]

/-- The product of the first `j` linear factors. -/
noncomputable def linProd (f : Nat → R) (j : Nat) : R[X] := ∏ l ∈ Finset.range j, (X - C (f l))

theorem linProd_succ (f : Nat → R) (j : Nat) : linProd f (j + 1) = linProd f j * (X - C (f j)) :=
  Finset.prod_range_succ _ _

theorem linProd_degree (f : Nat → R) (j : Nat) : (linProd f j).natDegree ≤ j := by
  induction j with
  | zero => simp [linProd]
  | succ j ih =>
    rw [linProd_succ]
    exact natDegree_mul_le.trans (Nat.add_le_add ih (natDegree_X_sub_C_le _))

theorem linProd_coeff_succ (f : Nat → R) (j k : Nat) :
    (linProd f (j + 1)).coeff (k + 1) = (linProd f j).coeff k - f j * (linProd f j).coeff (k + 1) := by
  rw [linProd_succ, mul_sub, coeff_sub, coeff_mul_X, coeff_mul_C, mul_comm]

theorem linProd_coeff_zero (f : Nat → R) (j : Nat) :
    (linProd f (j + 1)).coeff 0 = - (f j * (linProd f j).coeff 0) := by
  rw [linProd_succ, mul_sub, coeff_sub, coeff_mul_X_zero, coeff_mul_C, zero_sub, mul_comm]

theorem linProd_list (l : List R) : linProd (fun i => l.getD i 0) l.length = (l.map fun r => X - C r).prod := by
  unfold linProd
  induction l using List.reverseRecOn with
  | nil => simp
  | append_singleton l a ih =>
    rw [List.length_append, List.length_singleton, Finset.prod_range_succ, List.map_append, List.prod_append]
    congr 1
    · rw [← ih]; apply Finset.prod_congr rfl
      intro i hi
      dsimp only
      rw [List.getD_eq_getElem?_getD, List.getD_eq_getElem?_getD, List.getElem?_append_left (Finset.mem_range.1 hi)]
    · simp

/-- Coefficients after `j` factors, in the vector of the loop. -/
noncomputable def partialCoeff (f : Nat → R) (j i : Nat) : R := if i ≤ j then (linProd f j).coeff (j - i) else 0

theorem partialCoeff_step (f : Nat → R) {j i : Nat} (hi : i ≤ j) :
    partialCoeff f (j + 1) (i + 1) = partialCoeff f j (i + 1) - f j * partialCoeff f j i := by
  unfold partialCoeff
  rw [if_pos (by omega), if_pos hi]
  by_cases h : i + 1 ≤ j
  · rw [if_pos h]
    have h1 : j + 1 - (i + 1) = (j - (i + 1)) + 1 := by omega
    have h2 : j - i = (j - (i + 1)) + 1 := by omega
    rw [h1, linProd_coeff_succ, h2]
  · have : i = j := by omega
    subst this
    rw [if_neg h, Nat.sub_self, Nat.sub_self, linProd_coeff_zero, zero_sub]

theorem partialCoeff_first (f : Nat → R) (j : Nat) : partialCoeff f (j + 1) 0 = partialCoeff f j 0 := by
  unfold partialCoeff
  rw [if_pos (by omega), if_pos (by omega), Nat.sub_zero, Nat.sub_zero, linProd_coeff_succ,
    coeff_eq_zero_of_natDegree_lt (n := j + 1) (by have := linProd_degree f j; omega), mul_zero, sub_zero]

theorem polyLoop_eq {n : Nat} {a : Nat → Res R} {f : Nat → R} (ha : ∀ j, j < n → a j = .ok (f j)) :
    polyLoop n a (vtab (n + 1) fun i => if i = 0 then 1 else 0) = .ok (vtab (n + 1) fun i => (linProd f n).coeff (n - i)) := by
  unfold polyLoop
  rw [forRange_eq (Nat.zero_le n) (fun j => vtab (n + 1) (partialCoeff f j))]
  · congr 1; apply vtab_congr; intro i hi
    unfold partialCoeff; rw [if_pos (by omega)]
  · apply vtab_congr; intro i _
    unfold partialCoeff linProd
    by_cases h : i = 0
    · subst h; simp
    · rw [if_neg h, if_neg (by omega)]
  · intro j _ hj
    rw [forRange_eq (Nat.zero_le (j + 1)) (fun k => vtab (n + 1) fun i =>
      if j + 1 - k < i ∧ i ≤ j + 1 then partialCoeff f (j + 1) i else partialCoeff f j i)]
    · congr 1; apply vtab_congr; intro i hi
      rw [Nat.sub_self]
      by_cases h0 : i = 0
      · subst h0; rw [if_neg (by omega), partialCoeff_first]
      · by_cases h1 : i ≤ j + 1
        · rw [if_pos ⟨by omega, h1⟩]
        · rw [if_neg (by omega)]; unfold partialCoeff; rw [if_neg (by omega), if_neg (by omega)]
    · apply vtab_congr; intro i _; rw [if_neg (by omega)]
    · intro k _ hk
      obtain ⟨i, hi⟩ : ∃ i, j + 1 - k = i + 1 := ⟨j - k, by omega⟩
      dsimp only
      rw [hi, Nat.add_sub_cancel, vget_vtab (by omega), Res.ok_bind, ha j hj, Res.ok_bind, vget_vtab (by omega), Res.ok_bind,
        vset_vtab (by omega)]
      congr 1; apply vtab_congr; intro l hl
      by_cases h : l = i + 1
      · subst h
        rw [Function.update_self, if_neg (by omega), if_neg (by omega), if_pos ⟨by omega, by omega⟩, partialCoeff_step f (by omega)]
      · rw [Function.update_of_ne h]
        by_cases h2 : i + 1 < l ∧ l ≤ j + 1
        · rw [if_pos h2, if_pos ⟨by omega, h2.2⟩]
        · rw [if_neg h2, if_neg (by omega)]

end

/-! ## The derivative of the characteristic polynomial and the coefficients of the adjugate -/

section
variable {R : Type} [CommRing R] {n : Nat} (A : Matrix (Fin n) (Fin n) R)

theorem derivative_charpoly : derivative A.charpoly = A.charmatrix.adjugate.trace := by
  rw [Matrix.charpoly, Matrix.trace]
  simp only [Matrix.diag_apply, Matrix.adjugate_apply]
  simp only [Matrix.det_apply, derivative_sum]
  rw [Finset.sum_comm]
  apply Finset.sum_congr rfl
  intro σ _
  rw [← Finset.smul_sum, Polynomial.derivative_smul]
  congr 1
  rw [Polynomial.derivative_prod_finset]
  refine Eq.trans ?_ (Equiv.sum_comp σ fun x => ∏ i, A.charmatrix.updateRow x (Pi.single x 1) (σ i) i)
  apply Finset.sum_congr rfl
  intro i _
  rw [← Finset.mul_prod_erase Finset.univ _ (Finset.mem_univ i), mul_comm]
  congr 1
  · rw [Matrix.updateRow_self, Matrix.charmatrix_apply]
    by_cases h : σ i = i
    · simp [h]
    · simp [Ne.symm h, h]
  · apply Finset.prod_congr rfl
    intro j hj
    rw [Matrix.updateRow_ne]
    intro h
    exact (Finset.mem_erase.1 hj).1 (σ.injective h)

theorem charpoly_degree : A.charpoly.natDegree ≤ n := by
  nontriviality R
  have := A.charpoly_natDegree_eq_dim
  rw [Fintype.card_fin] at this
  omega

/-- The coefficients of `adj(X - A)`. -/
noncomputable def adjCoeff (k : Nat) : Matrix (Fin n) (Fin n) R := (matPolyEquiv A.charmatrix.adjugate).coeff k

theorem adjCoeff_rec (k : Nat) : adjCoeff A k = A * adjCoeff A (k + 1) + A.charpoly.coeff (k + 1) • (1 : Matrix (Fin n) (Fin n) R) := by
  have h := congrArg matPolyEquiv (Matrix.mul_adjugate A.charmatrix)
  rw [map_mul, Matrix.matPolyEquiv_charmatrix, ← Matrix.charpoly, matPolyEquiv_smul_one] at h
  have h := congrArg (fun p => p.coeff (k + 1)) h
  simp only [sub_mul, coeff_sub, coeff_X_mul, coeff_C_mul, coeff_map] at h
  rw [Algebra.algebraMap_eq_smul_one] at h
  exact eq_add_of_sub_eq' h

theorem adjCoeff_zero : A * adjCoeff A 0 = - (A.charpoly.coeff 0 • (1 : Matrix (Fin n) (Fin n) R)) := by
  have h := congrArg matPolyEquiv (Matrix.mul_adjugate A.charmatrix)
  rw [map_mul, Matrix.matPolyEquiv_charmatrix, ← Matrix.charpoly, matPolyEquiv_smul_one] at h
  have h := congrArg (fun p => p.coeff 0) h
  simp only [sub_mul, coeff_sub, coeff_X_mul_zero, coeff_C_mul, coeff_map, zero_sub] at h
  rw [Algebra.algebraMap_eq_smul_one] at h
  rw [← h, neg_neg]; rfl

theorem adjCoeff_trace (k : Nat) : (adjCoeff A k).trace = (k + 1) * A.charpoly.coeff (k + 1) := by
  have h := congrArg (fun p => p.coeff k) (derivative_charpoly A)
  simp only [coeff_derivative, Matrix.trace, Matrix.diag_apply, finsetSum_coeff] at h
  rw [mul_comm, h]
  apply Finset.sum_congr rfl
  intro i _
  exact matPolyEquiv_coeff_apply _ _ _ _

theorem adjCoeff_large {k : Nat} (hk : n ≤ k) : adjCoeff A k = 0 := by
  obtain ⟨N, hN⟩ : ∃ N, ∀ m, N ≤ m → adjCoeff A m = 0 :=
    ⟨(matPolyEquiv A.charmatrix.adjugate).natDegree + 1, fun m hm => coeff_eq_zero_of_natDegree_lt (by omega)⟩
  have key : ∀ d m, n ≤ m → N ≤ m + d → adjCoeff A m = 0 := by
    intro d
    induction d with
    | zero => intro m _ h; exact hN m h
    | succ d ih =>
      intro m hm h
      rw [adjCoeff_rec, ih (m + 1) (by omega) (by omega), Matrix.mul_zero, zero_add]
      have hd := charpoly_degree A
      rw [coeff_eq_zero_of_natDegree_lt (by omega), zero_smul]
  exact key N k hk (by omega)

theorem charpoly_coeff_top : A.charpoly.coeff n = 1 := by
  nontriviality R
  have h := A.charpoly_monic
  have hd := A.charpoly_natDegree_eq_dim
  rw [Fintype.card_fin] at hd
  rw [Monic, leadingCoeff, hd] at h
  exact h

theorem adjCoeff_top (hn : 0 < n) : adjCoeff A (n - 1) = 1 := by
  have : n - 1 + 1 = n := by omega
  rw [adjCoeff_rec, this, adjCoeff_large A (Nat.le_refl n), Matrix.mul_zero, zero_add, charpoly_coeff_top, one_smul]

/-- The trace identity behind the Faddeev–LeVerrier recursion. -/
theorem trace_mul_adjCoeff {m : Nat} (hm : m ≤ n) :
    (A * adjCoeff A (n - m)).trace = (m : R) * (- A.charpoly.coeff (n - m)) := by
  have htr : (1 : Matrix (Fin n) (Fin n) R).trace = n := by simp
  by_cases h : m = n
  · subst h
    rw [Nat.sub_self, adjCoeff_zero, Matrix.trace_neg, Matrix.trace_smul, htr, smul_eq_mul]; ring
  · obtain ⟨k, hk⟩ : ∃ k, n - m = k + 1 := ⟨n - m - 1, by omega⟩
    have h1 : A * adjCoeff A (n - m) = adjCoeff A k - A.charpoly.coeff (n - m) • (1 : Matrix (Fin n) (Fin n) R) := by
      rw [hk, adjCoeff_rec A k]; abel
    rw [h1, Matrix.trace_sub, Matrix.trace_smul, htr, adjCoeff_trace, smul_eq_mul, hk]
    have : (n : R) = (m : R) + (k + 1) := by
      have : n = m + (k + 1) := by omega
      rw [this]; push_cast; ring
    rw [this]; ring

end

end Malg
