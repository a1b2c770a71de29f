import Verif.Props.Lu
import Verif.Props.Acker
import Verif.Props.Laws
import Verif.Props.IeeeC2d
import Verif.Lemmas.Placed
/-!
# Property C158: results that do not depend on how they are computed
-/
namespace Malg
open Ops Lin Control Feq Ieee Polynomial

section
variable {K : Type} [Field K] [DecidableEq K] {n : Nat}

/-- C158: the factors that `lu_decomposition` returns are the only ones: whatever other method leads to a lower triangular matrix and an upper triangular one with ones in its diagonal whose product is the matrix, it leads to these. -/
theorem C158_lu {A : MB K} {M : Matrix (Fin n) (Fin n) K} (h : A.Is M) {L U : Mat K} (hr : lu A = .ok (L, U)) {ML MU : Matrix (Fin n) (Fin n) K} (hL : ∀ i j, i < j → ML i j = 0) (hU : ∀ i j, j < i → MU i j = 0)
    (hU1 : ∀ i, MU i i = 1) (hM : ML * MU = M) : L.toMB.Is ML ∧ U.toMB.Is MU := by
  obtain ⟨L', U', -, -, i1, i2, h3, h4, h5, h6⟩ := C53_factor h hr
  have hp : ∀ i j : Fin n, i < j → L' i i ≠ 0 := fun i j hij => by
    obtain ⟨a, ha, -⟩ := h
    rcases lu_cases ha.toRepAt with ⟨l, u, h1, h2⟩ | ⟨h1, -⟩
    · rw [h1] at hr
      injection hr with hr
      injection hr with e1 e2
      subst e1
      obtain ⟨e, he, rfl⟩ := i1
      have h7 := (he.toRepAt.unique (ofFn_rep ha.fits l).toRepAt).2.2 i i i.2 i.2
      rw [toM_apply, h7]
      exact h2.piv i i.2 (by have := j.2; omega)
    · rw [h1] at hr; cases hr
  have key : ∀ k : Nat, ∀ hk : k < n, (∀ i : Fin n, L' i ⟨k, hk⟩ = ML i ⟨k, hk⟩) ∧ ∀ j : Fin n, U' ⟨k, hk⟩ j = MU ⟨k, hk⟩ j := by
    intro k
    induction k using Nat.strong_induction_on with
    | _ k ih =>
      intro hk
      have hs : ∀ i j : Fin n, (∀ l : Fin n, k < l.1 → L' i l * U' l j = ML i l * MU l j) → L' i ⟨k, hk⟩ * U' ⟨k, hk⟩ j = ML i ⟨k, hk⟩ * MU ⟨k, hk⟩ j := fun i j hl => by
        have h7 := congrFun (congrFun (h6.trans hM.symm) i) j
        rw [Matrix.mul_apply, Matrix.mul_apply, ← Finset.add_sum_erase _ _ (Finset.mem_univ (⟨k, hk⟩ : Fin n)), ← Finset.add_sum_erase _ _ (Finset.mem_univ (⟨k, hk⟩ : Fin n)),
          Finset.sum_congr rfl fun l hl' => ?_] at h7
        · exact add_right_cancel h7
        · rcases lt_trichotomy l.1 k with h8 | h8 | h8
          · rw [(ih l.1 h8 l.2).1 i, (ih l.1 h8 l.2).2 j]
          · exact absurd (Fin.ext h8) (Finset.ne_of_mem_erase hl')
          · exact hl l h8
      have h9 : ∀ i : Fin n, L' i ⟨k, hk⟩ = ML i ⟨k, hk⟩ := fun i => by
        have := hs i ⟨k, hk⟩ fun l hl => by rw [h4 l ⟨k, hk⟩ hl, hU l ⟨k, hk⟩ hl, mul_zero, mul_zero]
        rwa [h5, hU1, mul_one, mul_one] at this
      refine ⟨h9, fun j => ?_⟩
      rcases lt_trichotomy j.1 k with h8 | h8 | h8
      · rw [h4 _ j h8, hU _ j h8]
      · have : j = ⟨k, hk⟩ := Fin.ext h8
        rw [this, h5, hU1]
      · have := hs ⟨k, hk⟩ j fun l hl => by rw [h3 ⟨k, hk⟩ l hl, hL ⟨k, hk⟩ l hl, zero_mul, zero_mul]
        rw [h9] at this
        exact mul_left_cancel₀ (by rw [← h9]; exact hp ⟨k, hk⟩ j h8) this
  have e1 : L' = ML := by ext i j; exact (key j.1 j.2).1 i
  have e2 : U' = MU := by ext i j; exact (key i.1 i.2).2 j
  exact ⟨e1 ▸ i1, e2 ▸ i2⟩

omit [DecidableEq K] in
/-- Only one gain leads to a given characteristic polynomial. -/
theorem gain_unique (hn : 0 < n) {A : Matrix (Fin n) (Fin n) K} {b : Matrix (Fin n) (Fin 1) K} (hdet : (ctrbMatrix A b).det ≠ 0) {k k' : Matrix (Fin 1) (Fin n) K} (h : (A - b * k).charpoly = (A - b * k').charpoly) : k = k' := by
  have hinv : (lastRow n : Matrix (Fin 1) (Fin n) K) * (ctrbMatrix A b)⁻¹ * ctrbMatrix A b = (lastRow n : Matrix (Fin 1) (Fin n) K) := by
    rw [Matrix.mul_assoc, Matrix.nonsing_inv_mul _ (IsUnit.mk0 _ hdet), Matrix.mul_one]
  have hcol : ∀ i : Fin n, (lastRow n : Matrix (Fin 1) (Fin n) K) * (ctrbMatrix A b)⁻¹ * (A ^ i.1 * b) = fun _ _ => if i.1 + 1 = n then (1 : K) else 0 := by
    intro i
    funext x y
    have hy : y = 0 := Subsingleton.elim _ _
    have := congrFun (congrFun hinv x) i
    rw [Matrix.mul_apply] at this ⊢
    subst hy
    exact this
  have h0 : ∀ i, i + 1 < n → (lastRow n : Matrix (Fin 1) (Fin n) K) * (ctrbMatrix A b)⁻¹ * (A ^ i * b) = 0 := fun i hi => by
    rw [hcol ⟨i, by omega⟩]
    funext x y
    exact if_neg (by simp only; omega)
  have h1 : (lastRow n : Matrix (Fin 1) (Fin n) K) * (ctrbMatrix A b)⁻¹ * (A ^ (n - 1) * b) = 1 := by
    rw [hcol ⟨n - 1, by omega⟩]
    funext x y
    have : x = y := Subsingleton.elim _ _
    rw [this, Matrix.one_apply_eq]
    exact if_pos (by simp only; omega)
  rw [← gain_of_charpoly h0 h1 hn k, h, gain_of_charpoly h0 h1 hn k']

variable {S : Type} [Field S] [LinearOrder S] [IsStrictOrderedRing S] (abs : AbsoluteValue K S) {tol : S} (ht : tol < 1)
include ht

/-- C158: the gain that `acker` returns is the only one that gives the closed loop the characteristic polynomial with the given roots. Missing: as in `C63_placed_partial`. -/
theorem C158_acker_partial {A B P : MB K} {M : Matrix (Fin n) (Fin n) K} {N : Matrix (Fin n) (Fin 1) K} {e : Nat → Nat → K}
    (hA : A.Is M) (hB : B.Is N) (hP : Rep P 1 n e) (hPe : P.empty = false) (hn : 0 < n) (hka : n + 1 < allocMax)
    (hctrl : (ctrbMatrix M N).det ≠ 0) (hi : n ≤ 5 ∨ ∀ i j, (ctrbMatrix M N)⁻¹ i j ≠ 0) (G : Matrix (Fin 1) (Fin n) K) :
    Yields (acker (isZ abs tol) A B P) G ↔ (M - N * G).charpoly = ∏ j : Fin n, (X - C (e 0 j)) := by
  obtain ⟨G', h1, h2⟩ := C63_placed_partial abs ht hA hB hP hPe hn hka hctrl hi
  constructor
  · intro h
    rw [Yields.inj h h1, h2]
  · intro h
    rw [gain_unique hn hctrl (h.trans h2.symm)]
    exact h1

/-- C158: the order of the poles does not matter to `acker`. Missing: as in `C63_placed_partial`. -/
theorem C158_order_partial {A B P P' : MB K} {M : Matrix (Fin n) (Fin n) K} {N : Matrix (Fin n) (Fin 1) K} {e e' : Nat → Nat → K}
    (hA : A.Is M) (hB : B.Is N) (hP : Rep P 1 n e) (hPe : P.empty = false) (hP' : Rep P' 1 n e') (hPe' : P'.empty = false) (σ : Equiv.Perm (Fin n)) (hσ : ∀ j : Fin n, e' 0 j = e 0 (σ j)) (hn : 0 < n) (hka : n + 1 < allocMax)
    (hctrl : (ctrbMatrix M N).det ≠ 0) (hi : n ≤ 5 ∨ ∀ i j, (ctrbMatrix M N)⁻¹ i j ≠ 0) : acker (isZ abs tol) A B P' = acker (isZ abs tol) A B P := by
  obtain ⟨G, h1, h2⟩ := C63_placed_partial abs ht hA hB hP hPe hn hka hctrl hi
  refine Yields.unique ((C158_acker_partial abs ht hA hB hP' hPe' hn hka hctrl hi G).2 ?_) h1
  rw [h2, ← Equiv.prod_comp σ]
  exact Finset.prod_congr rfl fun j _ => by rw [hσ]
end

/-- C158: the order of the roots does not matter to `poly`. -/
theorem C158_roots {K : Type} [Field K] {a b : List K} (h : a.Perm b) (hf : 1 + a.length < allocMax) : polyRoots a = polyRoots b := by
  obtain ⟨c, h1, h2, h3⟩ := C60_roots a hf
  obtain ⟨d, h4, h5, h6⟩ := C60_roots b (h.length_eq ▸ hf)
  have e : c = d := polyOf_inj (by rw [h2, h5, h.length_eq]) (by rw [h3, h6]; exact (h.map _).prod_eq)
  rw [h1, h4, e]

set_option maxRecDepth 100000 in
/-- C158 in `double` is false: the poles 0.1, 0.2 and 0.3 and the same poles in the opposite order give gains that differ in every entry. -/
theorem C158_order_false : ∃ a b c a' b' c' : IDouble,
    acker dIsZero (⟨3, 3, [0, 1, 0, 0, 0, 1, 0, 0, 0]⟩ : Mat IDouble).toMB (⟨3, 1, [0, 0, 1]⟩ : Mat IDouble).toMB (⟨1, 3, [dbl (1/10), dbl (1/5), dbl (3/10)]⟩ : Mat IDouble).toMB = .ok ⟨1, 3, [a, b, c]⟩ ∧
    acker dIsZero (⟨3, 3, [0, 1, 0, 0, 0, 1, 0, 0, 0]⟩ : Mat IDouble).toMB (⟨3, 1, [0, 0, 1]⟩ : Mat IDouble).toMB (⟨1, 3, [dbl (3/10), dbl (1/5), dbl (1/10)]⟩ : Mat IDouble).toMB = .ok ⟨1, 3, [a', b', c']⟩ ∧
    a.Finite ∧ b.Finite ∧ c.Finite ∧ a ≠ a' ∧ b ≠ b' ∧ c ≠ c' := by
  refine ⟨dbl (-6917529027641083 / 1152921504606846976), dbl (3963167672086037 / 36028797018963968), dbl (-1351079888211149 / 2251799813685248),
    dbl (-3458764513820541 / 576460752303423488), dbl (7926335344172073 / 72057594037927936), dbl (-5404319552844595 / 9007199254740992), ?_, ?_, ?_, ?_, ?_, ?_, ?_, ?_⟩ <;> decide +kernel

set_option maxRecDepth 100000 in
/-- With exact numbers they give the same ones. -/
example : acker (isZ (AbsoluteValue.abs (S := ℚ)) (1/1000000000)) (⟨3, 3, [0, 1, 0, 0, 0, 1, 0, 0, 0]⟩ : Mat ℚ).toMB (⟨3, 1, [0, 0, 1]⟩ : Mat ℚ).toMB (⟨1, 3, [1/10, 1/5, 3/10]⟩ : Mat ℚ).toMB = .ok ⟨1, 3, [-3/500, 11/100, -3/5]⟩ ∧
    acker (isZ (AbsoluteValue.abs (S := ℚ)) (1/1000000000)) (⟨3, 3, [0, 1, 0, 0, 0, 1, 0, 0, 0]⟩ : Mat ℚ).toMB (⟨3, 1, [0, 0, 1]⟩ : Mat ℚ).toMB (⟨1, 3, [3/10, 1/5, 1/10]⟩ : Mat ℚ).toMB = .ok ⟨1, 3, [-3/500, 11/100, -3/5]⟩ := by
  constructor <;> decide +kernel

/-- A singular matrix, with a zero as the last entry of the diagonal of `L`, has only one pair of factors too. -/
example {ML MU : Matrix (Fin 2) (Fin 2) ℚ} (hL : ∀ i j, i < j → ML i j = 0) (hU : ∀ i j, j < i → MU i j = 0) (hU1 : ∀ i, MU i i = 1) (hM : ML * MU = !![2, 4; 1, 2]) :
    (⟨2, 2, [2, 0, 1, 0]⟩ : Mat ℚ).toMB.Is ML ∧ (⟨2, 2, [1, 2, 0, 1]⟩ : Mat ℚ).toMB.Is MU := by
  have hA : (⟨2, 2, [2, 4, 1, 2]⟩ : Mat ℚ).toMB.Is (!![2, 4; 1, 2] : Matrix (Fin 2) (Fin 2) ℚ) := by
    have e : Mat.ofFn 2 2 (fun r c => if r = 0 then (if c = 0 then 2 else 4) else (if c = 0 then 1 else 2)) = (⟨2, 2, [2, 4, 1, 2]⟩ : Mat ℚ) := by decide +kernel
    rw [← e]
    refine ⟨_, ofFn_rep (fits_small (by norm_num) (by norm_num)) _, ?_⟩
    ext i j; fin_cases i <;> fin_cases j <;> rfl
  exact C158_lu hA (by decide +kernel) hL hU hU1 hM
end Malg
