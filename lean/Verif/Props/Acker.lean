import Verif.Props.Control
import Verif.Props.Expm
import Verif.Lemmas.Ackermann
/-!
# C63: `acker`

`isZ abs tol` is `feq::approximately_equal_to_zero` with a tolerance below one (see `Verif.Props.Det`).
-/
namespace Malg
open Ops Control Polynomial

section
variable {K R : Type} [Field K] [DecidableEq K] [Field R] [LinearOrder R] [IsStrictOrderedRing R]
variable (abs : AbsoluteValue K R) {tol : R} (ht : tol < 1) {n k : Nat}

/-- The matrix polynomial formed by `acker` with `k` poles: `Σ_{i ≤ n} c_i A^(n-i)`, where `c` are the coefficients of the
product of the linear factors, highest degree first. -/
noncomputable def ackerPoly (M : Matrix (Fin n) (Fin n) K) (q : K[X]) (k : Nat) : Matrix (Fin n) (Fin n) K :=
  ∑ i ∈ Finset.range (n + 1), q.coeff (k - i) • M ^ (n - i)

omit [DecidableEq K] in
theorem ackerPoly_eq (M : Matrix (Fin n) (Fin n) K) {q : K[X]} (hd : q.natDegree = n) : ackerPoly M q n = aeval M q := by
  rw [aeval_eq_sum_range, hd, ackerPoly, ← Finset.sum_range_reflect]
  refine Finset.sum_congr rfl fun i hi => ?_
  have := Finset.mem_range.1 hi
  have e : n - (n + 1 - 1 - i) = i := by omega
  rw [e]

omit [DecidableEq K] in
theorem ctrb_square {A B : MB K} {M : Matrix (Fin n) (Fin n) K} {N : Matrix (Fin n) (Fin 1) K} (hA : A.Is M) (hB : B.Is N) (hn : 0 < n) :
    Yields (ctrb A B) (ctrbMatrix M N) := by
  have hf := hA.fits
  have h := C59_ctrb hA hB hn (by rw [Nat.mul_one]; exact hf)
  have h1 := h.returns
  generalize hg : tab (blockRow M N n) = g at h1
  rw [Nat.mul_one] at h1
  refine h1.yields.congr ?_
  funext i j
  rw [toM_apply, ← hg, tab_lt _ i.2 (by rw [Nat.mul_one]; exact j.2)]
  show (M ^ (j.1 / 1) * N) i _ = (M ^ j.1 * N) i 0
  rw [Nat.div_one]
  exact congrArg _ (Subsingleton.elim _ _)

theorem acker_exec (isz : K → Bool) {A B P : MB K} {M : Matrix (Fin n) (Fin n) K} {N : Matrix (Fin n) (Fin 1) K} {e : Nat → Nat → K}
    (hA : A.Is M) (hB : B.Is N) (hP : Rep P 1 k e) (hPe : P.empty = false) (hn : 0 < n) (hk : n ≤ k) (hka : k + 1 < allocMax)
    {d : K} {V : Matrix (Fin n) (Fin n) K}
    (hd : ∀ ct : Mat K, ctrb A B = .ok ct → ct.toMB.Is (ctrbMatrix M N) → Lin.determinant isz ct.toMB = .ok d) (hz : isz d = false)
    (hV : ∀ ct : Mat K, ctrb A B = .ok ct → ct.toMB.Is (ctrbMatrix M N) → Yields (Lin.inverse isz ct.toMB) V) :
    Yields (acker isz A B P) ((lastRow n : Matrix (Fin 1) (Fin n) K) * V * ackerPoly M (∏ j : Fin k, (X - C (e 0 j))) k) := by
  obtain ⟨ct, hct, hwf, hctI⟩ := ctrb_square hA hB hn
  have hAI := hA
  obtain ⟨eA, hA, rfl⟩ := hA
  obtain ⟨eB, hB, rfl⟩ := hB
  have hf := hA.fits
  have hW := allocMax_lt_W
  have hnW := hf.2.1
  have hctr : ct.rows = n := by obtain ⟨x, h, -⟩ := hctI; exact h.rows
  unfold acker
  have c1 : (!Util.isSquare A || !Util.isColumnVector B || A.rows != B.rows) = false := by
    simp [Util.isSquare, Util.isColumnVector, hA.rows, hA.cols, hB.rows, hB.cols]
  have c2 : (!Util.isRowVector P || P.empty) = false := by simp [Util.isRowVector, hP.rows, hPe]
  rw [c1, if_neg Bool.false_ne_true, c2, if_neg Bool.false_ne_true, hct, Res.ok_bind, hd ct hct hctI, Res.ok_bind, hz,
    if_neg Bool.false_ne_true]
  obtain ⟨c, hc1, hc2, hc3⟩ := C60_row_column hP (Or.inl rfl) (by omega)
  rw [hc1, Res.ok_bind, hA.rows, hA.cols]
  have hz0 : Util.zeros n n = .ok (Mat.ofFn n n fun _ _ => (0 : K)) := by
    unfold Util.zeros; rw [if_neg (by omega), if_neg (by omega), Mat.new_eq hf]
  have hz1 : Util.zeros 1 n = .ok (Mat.ofFn 1 n fun _ _ => (0 : K)) := by
    unfold Util.zeros; rw [if_neg (by omega), if_neg (by omega), Mat.new_eq (hf.mono (by omega) (Nat.le_refl n))]
  rw [hz0, Res.ok_bind, hctr, hz1]
  have hq : polyOf c = ∏ j : Fin k, (X - C (e 0 j)) := by rw [hc3]; simp
  have hcoef : ∀ i, i ≤ n → vget c i = .ok ((∏ j : Fin k, (X - C (e 0 j)) : K[X]).coeff (k - i)) := by
    intro i hi
    rw [Nat.one_mul] at hc2
    rw [← hq, polyOf_coeff, if_pos (by omega), vget_lt (by omega)]
    have : c.length - 1 - (k - i) = i := by omega
    rw [this, List.getD_eq_getElem?_getD, List.getElem?_eq_getElem]; rfl
  generalize hqq : (∏ j : Fin k, (X - C (e 0 j)) : K[X]) = q at hcoef ⊢
  obtain ⟨Ap, hAp1, hAp2⟩ := forRange_inv (lo := 0) (hi := n + 1) (by omega)
    (fun m (S : Mat K) => Stores S (∑ i ∈ Finset.range m, q.coeff (k - i) • (toM n n eA) ^ (n - i)))
    (s := Mat.ofFn n n fun _ _ => (0 : K))
    (body := fun i Ap => do
        let P ← Lin.powm A (wsub n i)
        let x ← vget c i
        let Q ← mulS P.toMB x
        addAssign MRef.self (fun _ => Q.toMB) Ap)
    ⟨_, rfl, by rw [Finset.range_zero, Finset.sum_empty]; rfl⟩
    (by
      intro i S _ hi hS
      obtain ⟨Pw, e1, hPw⟩ := Stores.of_yields (C49_powm_partial hAI hn (n - i))
      obtain ⟨Q, e2, hQ⟩ := hPw.mulS hf (q.coeff (k - i))
      obtain ⟨S', e3, hS'⟩ := hS.addAssign hf hQ
      refine ⟨S', ?_, ?_⟩
      · rw [wsub_eq (by omega) hnW, e1, Res.ok_bind, hcoef i (by omega), Res.ok_bind, e2, Res.ok_bind, e3]
      · rw [Finset.sum_range_succ]; exact hS')
  rw [wadd_eq (by have := hf.1; omega)]
  rw [hAp1, Res.ok_bind, Res.ok_bind]
  have hf1 : Fits 1 n := hf.mono (by omega) (Nat.le_refl n)
  rw [wsub_eq (by omega) hnW, ofFn_setLin (by omega), Res.ok_bind]
  have hsel : (Mat.ofFn 1 n (upd (fun _ _ => (0 : K)) ((n - 1) / n) ((n - 1) % n) 1)).toMB.Is (lastRow n : Matrix (Fin 1) (Fin n) K) := by
    refine ⟨_, ofFn_rep hf1 _, ?_⟩
    funext i j
    rw [toM_apply, Nat.div_eq_of_lt (by omega), Nat.mod_eq_of_lt (by omega)]
    have hi : i.1 = 0 := by omega
    have := j.2
    by_cases hj : j.1 + 1 = n
    · have : j.1 = n - 1 := by omega
      rw [hi, this, upd_same]; exact (if_pos (by omega)).symm
    · rw [upd_ne _ _ (by omega)]; exact (if_neg hj).symm
  refine (hV ct hct hctI).bind fun I _ hI => ?_
  refine (C35_product hsel hI hf1).bind fun X _ hX => ?_
  exact C35_product hX (hAp2.is hf) hf1

include ht in
/-- C63: for a controllable pair and `n` poles given as a row matrix, the gain makes the characteristic polynomial of
`A - B K` the product of the linear factors, provided the inverse of the controllability matrix is computed correctly:
up to `5 × 5`, or if it has no zero entry. Missing: larger systems whose inverse has a zero entry (see C52) and the
invalid inputs of the `_false` theorems below. -/
theorem C63_placed_partial {A B P : MB K} {M : Matrix (Fin n) (Fin n) K} {N : Matrix (Fin n) (Fin 1) K} {e : Nat → Nat → K}
    (hA : A.Is M) (hB : B.Is N) (hP : Rep P 1 n e) (hPe : P.empty = false) (hn : 0 < n) (hka : n + 1 < allocMax)
    (hctrl : (ctrbMatrix M N).det ≠ 0) (hi : n ≤ 5 ∨ ∀ i j, (ctrbMatrix M N)⁻¹ i j ≠ 0) :
    ∃ G : Matrix (Fin 1) (Fin n) K, Yields (acker (isZ abs tol) A B P) G ∧
      (M - N * G).charpoly = ∏ j : Fin n, (X - C (e 0 j)) := by
  have hmonic : (∏ j : Fin n, (X - C (e 0 j)) : K[X]).Monic := monic_prod_of_monic _ _ fun j _ => monic_X_sub_C _
  have hdeg : (∏ j : Fin n, (X - C (e 0 j)) : K[X]).natDegree = n := by
    rw [natDegree_prod_of_monic _ _ fun j _ => monic_X_sub_C _]; simp
  refine ⟨_, acker_exec _ hA hB hP hPe hn (Nat.le_refl n) hka (fun ct _ h => C50_large_partial abs ht h hctrl) ?_
    (fun ct _ h => C52_large_partial abs ht h hctrl hi), ?_⟩
  · rw [← Bool.not_eq_true, isZ_iff abs ht]; exact hctrl
  · rw [ackerPoly_eq M hdeg]
    exact ackermann hn M N (IsUnit.mk0 _ hctrl) hmonic hdeg

/-- C63: a non-conformal system, or poles that are not a non-empty row matrix, end the process. -/
theorem C63_exit {T : Type} [Zero T] [One T] [Add T] [Sub T] [Mul T] [Neg T] [NatCast T] [CDiv T] (isz : T → Bool) {A B P : MB T}
    (h : A.rows ≠ A.cols ∨ B.cols ≠ 1 ∨ A.rows ≠ B.rows ∨ P.rows ≠ 1 ∨ P.empty = true) : acker isz A B P = .exit 1 := by
  unfold acker
  by_cases h1 : (!Util.isSquare A || !Util.isColumnVector B || A.rows != B.rows) = true
  · rw [if_pos h1]
  · rw [if_neg h1, if_pos]
    simp [Util.isSquare, Util.isColumnVector] at h1
    simp [Util.isRowVector]
    tauto

include ht in
/-- C63: an uncontrollable pair of at most four states ends the process. Missing: more states, see
`C63_uncontrollable_false`. -/
theorem C63_uncontrollable_partial {A B P : MB K} {M : Matrix (Fin n) (Fin n) K} {N : Matrix (Fin n) (Fin 1) K}
    (hA : A.Is M) (hB : B.Is N) (hn : 0 < n) (h4 : n ≤ 4) (hctrl : (ctrbMatrix M N).det = 0) :
    acker (isZ abs tol) A B P = .exit 1 := by
  by_cases hbad : P.rows ≠ 1 ∨ P.empty = true
  · exact C63_exit _ (Or.inr (Or.inr (Or.inr hbad)))
  obtain ⟨ct, hct, hwf, hctI⟩ := ctrb_square hA hB hn
  obtain ⟨eA, hA, rfl⟩ := hA
  obtain ⟨eB, hB, rfl⟩ := hB
  unfold acker
  have c1 : (!Util.isSquare A || !Util.isColumnVector B || A.rows != B.rows) = false := by
    simp [Util.isSquare, Util.isColumnVector, hA.rows, hA.cols, hB.rows, hB.cols]
  have c2 : (!Util.isRowVector P || P.empty) = false := by
    rw [not_or, not_not, Bool.not_eq_true] at hbad
    simp [Util.isRowVector, hbad.1, hbad.2]
  rw [c1, if_neg Bool.false_ne_true, c2, if_neg Bool.false_ne_true, hct, Res.ok_bind, C50_small_partial _ hctI h4, Res.ok_bind, hctrl]
  exact if_pos ((isZ_iff abs ht 0).2 rfl)

include ht in
/-- C63 is false from five states on: no uncontrollable pair is detected, a gain is returned for all of them. -/
theorem C63_uncontrollable_false {A B P : MB K} {M : Matrix (Fin n) (Fin n) K} {N : Matrix (Fin n) (Fin 1) K} {e : Nat → Nat → K}
    (hA : A.Is M) (hB : B.Is N) (hP : Rep P 1 n e) (hPe : P.empty = false) (h5 : 4 < n) (hka : n + 1 < allocMax)
    (hctrl : (ctrbMatrix M N).det = 0) :
    ∃ G : Matrix (Fin 1) (Fin n) K, Yields (acker (isZ abs tol) A B P) G := by
  obtain ⟨ct, hct, hwf, hctI⟩ := ctrb_square hA hB (by omega)
  obtain ⟨d, h1, h2⟩ := C50_singular_false abs ht hctI h5 hctrl
  obtain ⟨V, hV⟩ := C52_singular_false abs ht hctI h5 hctrl
  have huniq : ∀ ct', ctrb A B = .ok ct' → ct' = ct := fun ct' h => by rw [hct] at h; injection h with h; exact h.symm
  refine ⟨_, acker_exec _ hA hB hP hPe (by omega) (Nat.le_refl n) hka (fun ct' h _ => by rw [huniq ct' h]; exact h1) ?_
    (fun ct' h _ => by rw [huniq ct' h]; exact hV)⟩
  rw [← Bool.not_eq_true, isZ_iff abs ht]; exact h2

include ht in
/-- C63 is false for pole lists that are too short: they are not rejected, the coefficients are read out of bounds. -/
theorem C63_few_poles_false {A B P : MB K} {M : Matrix (Fin n) (Fin n) K} {N : Matrix (Fin n) (Fin 1) K} {e : Nat → Nat → K}
    (hA : A.Is M) (hB : B.Is N) (hP : Rep P 1 k e) (hPe : P.empty = false) (hk0 : 0 < k) (hk : k < n) (hka : k + 1 < allocMax)
    (hctrl : (ctrbMatrix M N).det ≠ 0) : acker (isZ abs tol) A B P = .ub .oob := by
  obtain ⟨ct, hct, hwf, hctI⟩ := ctrb_square hA hB (by omega)
  have hAI := hA
  obtain ⟨eA, hA, rfl⟩ := hA
  obtain ⟨eB, hB, rfl⟩ := hB
  have hf := hA.fits
  have hW := allocMax_lt_W
  have hnW := hf.2.1
  have hz : isZ abs tol (ctrbMatrix (toM n n eA) (toM n 1 eB)).det = false := by
    rw [← Bool.not_eq_true, isZ_iff abs ht]; exact hctrl
  unfold acker
  have c1 : (!Util.isSquare A || !Util.isColumnVector B || A.rows != B.rows) = false := by
    simp [Util.isSquare, Util.isColumnVector, hA.rows, hA.cols, hB.rows, hB.cols]
  have c2 : (!Util.isRowVector P || P.empty) = false := by simp [Util.isRowVector, hP.rows, hPe]
  rw [c1, if_neg Bool.false_ne_true, c2, if_neg Bool.false_ne_true, hct, Res.ok_bind, C50_large_partial abs ht hctI hctrl, Res.ok_bind, hz,
    if_neg Bool.false_ne_true]
  obtain ⟨c, hc1, hc2, -⟩ := C60_row_column hP (Or.inl rfl) (by omega)
  rw [hc1, Res.ok_bind, hA.rows, hA.cols]
  have hz0 : Util.zeros n n = .ok (Mat.ofFn n n fun _ _ => (0 : K)) := by
    unfold Util.zeros; rw [if_neg (by omega), if_neg (by omega), Mat.new_eq hf]
  rw [hz0, Res.ok_bind, wadd_eq (by have := hf.1; nlinarith)]
  rw [forRange_append (Nat.zero_le (k + 1)) (by omega)]
  obtain ⟨Ap, hAp1, -⟩ := forRange_inv (lo := 0) (hi := k + 1) (by omega)
    (fun m (S : Mat K) => ∃ X : Matrix (Fin n) (Fin n) K, Stores S X)
    (s := Mat.ofFn n n fun _ _ => (0 : K))
    (body := fun i Ap => do
        let P ← Lin.powm A (wsub n i)
        let x ← vget c i
        let Q ← mulS P.toMB x
        addAssign MRef.self (fun _ => Q.toMB) Ap)
    ⟨_, _, rfl, rfl⟩
    (by
      rintro i S _ hi ⟨X, hS⟩
      obtain ⟨Pw, e1, hPw⟩ := Stores.of_yields (C49_powm_partial hAI (by omega) (n - i))
      have hx : vget c i = .ok _ := vget_lt (by omega)
      obtain ⟨Q, e2, hQ⟩ := hPw.mulS hf (c[i]'(by omega))
      obtain ⟨S', e3, hS'⟩ := hS.addAssign hf hQ
      refine ⟨S', ?_, _, hS'⟩
      rw [wsub_eq (by omega) hnW, e1, Res.ok_bind, hx, Res.ok_bind, e2, Res.ok_bind, e3])
  rw [hAp1, Res.ok_bind, forRange_lt (by omega), wsub_eq (by omega) hnW, (C49_powm_partial hAI (by omega) (n - (k + 1))).eq, Res.ok_bind,
    vget_ge (by omega)]
  rfl

end

/-- C63 is false for pole lists that are too long: they are not rejected, and the poles of the result are others. The
system is `x' = u`, the poles asked for are `1` and `2`; the gain `-3` puts the only pole at `3`. -/
theorem C63_many_poles_false : ∃ A B P : Mat ℚ, A.WF ∧ B.WF ∧ P.WF ∧ P = ⟨1, 2, [1, 2]⟩ ∧ A = ⟨1, 1, [0]⟩ ∧ B = ⟨1, 1, [1]⟩ ∧
    acker (isZ (AbsoluteValue.abs (S := ℚ)) (1/1000000000)) A.toMB B.toMB P.toMB = .ok ⟨1, 1, [-3]⟩ :=
  ⟨_, _, _, by decide +kernel, by decide +kernel, by decide +kernel, rfl, rfl, rfl, by decide +kernel⟩

/-- The double integrator with poles `-1` and `-2`: gains `2` and `3`. -/
example : acker (isZ (AbsoluteValue.abs (S := ℚ)) (1/1000000000)) (⟨2, 2, [0, 1, 0, 0]⟩ : Mat ℚ).toMB (⟨2, 1, [0, 1]⟩ : Mat ℚ).toMB
    (⟨1, 2, [-1, -2]⟩ : Mat ℚ).toMB = .ok ⟨1, 2, [2, 3]⟩ := by decide +kernel

/-- An uncontrollable pair. -/
example : acker (isZ (AbsoluteValue.abs (S := ℚ)) (1/1000000000)) (⟨2, 2, [1, 0, 0, 1]⟩ : Mat ℚ).toMB (⟨2, 1, [0, 1]⟩ : Mat ℚ).toMB
    (⟨1, 2, [-1, -2]⟩ : Mat ℚ).toMB = .exit 1 := by decide +kernel

/-- A view is always `empty()`, so poles taken from a matrix through a view are refused. -/
theorem C63_view_false {T : Type} [Zero T] [One T] [Add T] [Sub T] [Mul T] [Neg T] [NatCast T] [CDiv T] (isz : T → Bool) (A B P : MB T)
    (rows cols : Range) : acker isz A B (P.view rows cols) = .exit 1 := C63_exit isz (by simp [MB.view])

end Malg
