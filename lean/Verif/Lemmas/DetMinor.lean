import Verif.Lemmas.Det
import Mathlib.LinearAlgebra.Matrix.Block
import Mathlib.LinearAlgebra.Matrix.NonsingularInverse
/-!
# The elimination of `determinant` computes a minor

Whatever the matrix, the product of the pivots met so far is, up to its sign, the minor of the leading columns and of the rows that the
pivots came from.
-/
namespace Malg
open Lin Matrix
variable {K : Type} [Field K] {N : Nat}

/-- The first `c` rows and columns. -/
def leadBlock (M : Matrix (Fin N) (Fin N) K) {c : Nat} (h : c ≤ N) : Matrix (Fin c) (Fin c) K :=
  M.submatrix (Fin.castLE h) (Fin.castLE h)

/-- After `c` rounds: the rows of `M` in the order `σ`, from which multiples of the first `c` rows were subtracted. -/
structure Reduced (M : Matrix (Fin N) (Fin N) K) (c : Nat) (e : Nat → Nat → K) (d : K) (σ : Equiv.Perm (Fin N))
    (L : Matrix (Fin N) (Fin N) K) : Prop where
  low : LowZero N c e
  unit : ∀ i, L i i = 1
  tri : ∀ i j, i < j → L i j = 0
  later : ∀ i j : Fin N, c ≤ j.1 → i ≠ j → L i j = 0
  eq : toM N N e = L * M.submatrix σ id
  det : d = (σ.sign : ℤ) * ∏ i ∈ Finset.range c, e i i
  ne : d ≠ 0

theorem Reduced.start (e : Nat → Nat → K) : Reduced (toM N N e) 0 e 1 1 1 where
  low _ _ _ hj _ := absurd hj (Nat.not_lt_zero _)
  unit _ := Matrix.one_apply_eq _
  tri _ _ h := Matrix.one_apply_ne (ne_of_lt h)
  later _ _ _ h := Matrix.one_apply_ne h
  eq := by rw [Matrix.one_mul]; rfl
  det := by simp
  ne := one_ne_zero

theorem Reduced.elim {M : Matrix (Fin N) (Fin N) K} {c : Nat} {e : Nat → Nat → K} {d : K} {σ L} (h : Reduced M c e d σ L) (hc : c < N)
    (h0 : e c c ≠ 0) : Reduced M (c + 1) (elimT e c fun r => e r c / e c c) (d * e c c) σ
      (Matrix.of fun i j => L i j - if c < i.1 then e i c / e c c * L ⟨c, hc⟩ j else 0) where
  low := lowZero_elimT hc h0 h.low
  unit i := by
    rw [Matrix.of_apply, h.unit]
    split
    · rw [h.tri ⟨c, hc⟩ i (by assumption), mul_zero, sub_zero]
    · rw [sub_zero]
  tri i j hij := by
    rw [Matrix.of_apply, h.tri i j hij]
    split
    · rename_i hi
      rw [h.tri ⟨c, hc⟩ j (lt_trans (b := i) hi hij), mul_zero, sub_zero]
    · rw [sub_zero]
  later i j hj hij := by
    rw [Matrix.of_apply, h.later i j (by omega) hij]
    split
    · rw [h.later ⟨c, hc⟩ j (by omega) (fun h => by have := congrArg Fin.val h; simp at this; omega), mul_zero, sub_zero]
    · rw [sub_zero]
  eq := by
    funext i j
    have e1 : ∀ i j : Fin N, e i j = ∑ l, L i l * M (σ l) j := fun i j => by
      have := congrFun (congrFun h.eq i) j
      rw [Matrix.mul_apply] at this
      exact this
    rw [Matrix.mul_apply]
    simp only [Matrix.of_apply, Matrix.submatrix_apply, id, sub_mul, Finset.sum_sub_distrib, toM_apply, elimT]
    rw [← e1 i j]
    have e2 : ∑ l, (if c < i.1 then e i c / e c c * L ⟨c, hc⟩ l else 0) * M (σ l) j = if c < i.1 then e i c / e c c * e c j else 0 := by
      split
      · have := e1 ⟨c, hc⟩ j
        dsimp only at this
        rw [this, Finset.mul_sum]
        exact Finset.sum_congr rfl fun l _ => by ring
      · simp
    rw [e2]
    by_cases h1 : c < i.1
    · rw [if_pos h1]
      by_cases h2 : c ≤ j.1
      · rw [if_pos ⟨h1, h2⟩]
      · rw [if_neg (by omega), h.low c j hc (by omega) (by omega)]; ring
    · rw [if_neg (by omega), if_neg h1, sub_zero]
  det := by
    rw [Finset.prod_range_succ, h.det, mul_assoc]
    congr 2
    · apply Finset.prod_congr rfl; intro i hi; simp only [elimT]; rw [if_neg (by have := Finset.mem_range.1 hi; omega)]
    · simp only [elimT]; rw [if_neg (by omega)]
  ne := mul_ne_zero h.ne h0

theorem Reduced.swap {M : Matrix (Fin N) (Fin N) K} {c k : Nat} {e : Nat → Nat → K} {d : K} {σ L} (h : Reduced M c e d σ L) (hc : c < N)
    (hk : k < N) (hck : c < k) : Reduced M c (swapT e c k) (d * (-1)) (σ * Equiv.swap ⟨c, hc⟩ ⟨k, hk⟩)
      (L.submatrix (Equiv.swap ⟨c, hc⟩ ⟨k, hk⟩) (Equiv.swap ⟨c, hc⟩ ⟨k, hk⟩)) := by
  have hs : ∀ j : Fin N, c ≤ j.1 → c ≤ (Equiv.swap (⟨c, hc⟩ : Fin N) ⟨k, hk⟩ j).1 := by
    intro j hj
    rw [Equiv.swap_apply_def]
    split
    · exact hck.le
    · split
      · exact le_rfl
      · exact hj
  have hs' : ∀ j : Fin N, j.1 < c → Equiv.swap (⟨c, hc⟩ : Fin N) ⟨k, hk⟩ j = j := by
    intro j hj
    refine Equiv.swap_apply_of_ne_of_ne (fun h => ?_) (fun h => ?_) <;> (have := congrArg Fin.val h; simp at this; omega)
  have hlater : ∀ i j : Fin N, c ≤ j.1 → i ≠ j → L.submatrix (Equiv.swap ⟨c, hc⟩ ⟨k, hk⟩) (Equiv.swap ⟨c, hc⟩ ⟨k, hk⟩) i j = 0 := by
    intro i j hj hij
    rw [Matrix.submatrix_apply]
    exact h.later _ _ (hs j hj) fun h => hij ((Equiv.swap _ _).injective h)
  refine ⟨lowZero_swapT hc hk hck h.low, fun i => h.unit _, fun i j hij => ?_, hlater, ?_, ?_, mul_ne_zero h.ne (by simp)⟩
  · by_cases hj : c ≤ j.1
    · exact hlater i j hj (ne_of_lt hij)
    · have hi : i.1 < j.1 := hij
      rw [Matrix.submatrix_apply, hs' i (by omega), hs' j (by omega)]
      exact h.tri i j hij
  · have : toM N N (swapT e c k) = (toM N N e).submatrix (Equiv.swap (⟨c, hc⟩ : Fin N) ⟨k, hk⟩) id := by
      funext i j
      simp only [toM_apply, swapT, Matrix.submatrix_apply, id, Equiv.swap_apply_def]
      congr 1
      by_cases h1 : i.1 = c
      · rw [if_pos h1, if_pos (Fin.ext h1)]
      · rw [if_neg h1, if_neg (fun h => h1 (congrArg Fin.val h))]
        by_cases h2 : i.1 = k
        · rw [if_pos h2, if_pos (Fin.ext h2)]
        · rw [if_neg h2, if_neg (fun h => h2 (congrArg Fin.val h))]
    rw [this, h.eq]
    funext i j
    simp only [Matrix.submatrix_apply, Matrix.mul_apply, id]
    rw [← Equiv.sum_comp (Equiv.swap (⟨c, hc⟩ : Fin N) ⟨k, hk⟩)]
    rfl
  · have hne : (⟨c, hc⟩ : Fin N) ≠ ⟨k, hk⟩ := fun h => by have := congrArg Fin.val h; simp at this; omega
    have e1 : ∏ i ∈ Finset.range c, swapT e c k i i = ∏ i ∈ Finset.range c, e i i := by
      apply Finset.prod_congr rfl; intro i hi
      have := Finset.mem_range.1 hi
      simp only [swapT]; rw [if_neg (by omega), if_neg (by omega)]
    rw [e1, h.det, Equiv.Perm.sign_mul, Equiv.Perm.sign_swap hne]
    push_cast
    ring

/-- The product of the pivots is a minor. -/
theorem Reduced.minor {M : Matrix (Fin N) (Fin N) K} {c : Nat} {e : Nat → Nat → K} {d : K} {σ L} (h : Reduced M c e d σ L) (hc : c ≤ N) :
    ∏ i ∈ Finset.range c, e i i = (M.submatrix (fun i => σ (Fin.castLE hc i)) (Fin.castLE hc)).det := by
  have e1 : leadBlock (toM N N e) hc = leadBlock L hc * M.submatrix (fun i => σ (Fin.castLE hc i)) (Fin.castLE hc) := by
    rw [h.eq]
    funext i j
    simp only [leadBlock, Matrix.submatrix_apply, Matrix.mul_apply, id]
    symm
    refine Finset.sum_of_injOn (Fin.castLE hc) (Fin.castLE_injective hc).injOn (by simp) (fun l _ hl => ?_) fun l _ => rfl
    have hlc : c ≤ l.1 := by
      by_contra hlt
      exact hl ⟨⟨l, by omega⟩, by simp, Fin.ext rfl⟩
    rw [h.tri (Fin.castLE hc i) l (by rw [Fin.lt_def]; simp; omega), zero_mul]
  have e2 : (leadBlock L hc).det = 1 := by
    rw [Matrix.det_of_isLowerTriangular (leadBlock L hc) fun i j hij => h.tri _ _ hij]
    exact Finset.prod_eq_one fun i _ => h.unit _
  have e3 : (leadBlock (toM N N e) hc).det = ∏ i ∈ Finset.range c, e i i := by
    rw [Matrix.det_of_isUpperTriangular (M := leadBlock (toM N N e) hc) fun i j hij => h.low i j (by omega) j.2 hij, Finset.prod_range]
    rfl
  rw [← e3, e1, Matrix.det_mul, e2, one_mul]

/-- If a column of the reduced matrix vanishes from the diagonal on then that column of `M` is a combination of the columns before it. -/
theorem Reduced.dependent {M : Matrix (Fin N) (Fin N) K} {c : Nat} {e : Nat → Nat → K} {d : K} {σ L} (h : Reduced M c e d σ L) (hc : c < N)
    (h0 : ∀ k, c ≤ k → k < N → e k c = 0) :
    ∃ x : Fin c → K, ∀ i, M i ⟨c, hc⟩ = ∑ j, x j * M i (Fin.castLE hc.le j) := by
  have hU : IsUnit (leadBlock (toM N N e) hc.le).det := by
    rw [isUnit_iff_ne_zero,
      Matrix.det_of_isUpperTriangular (M := leadBlock (toM N N e) hc.le) fun i j hij => h.low i j (by omega) j.2 hij]
    have h1 := h.det
    have h2 : ∏ i ∈ Finset.range c, e i i ≠ 0 := fun h3 => h.ne (by rw [h1, h3, mul_zero])
    rw [Finset.prod_range] at h2
    exact h2
  have hL : L.det = 1 := by
    rw [Matrix.det_of_isLowerTriangular L fun i j hij => h.tri _ _ hij]
    exact Finset.prod_eq_one fun i _ => h.unit _
  set x : Fin c → K := (leadBlock (toM N N e) hc.le)⁻¹ *ᵥ (fun i : Fin c => e i c) with hx
  have hcol : ∀ i : Fin N, e i c = ∑ j : Fin c, x j * e i j := by
    intro i
    by_cases hi : i.1 < c
    · have h1 : leadBlock (toM N N e) hc.le *ᵥ x = fun i : Fin c => e i c := by
        rw [hx, Matrix.mulVec_mulVec, Matrix.mul_nonsing_inv _ hU, Matrix.one_mulVec]
      have h2 := congrFun h1 ⟨i, hi⟩
      rw [Matrix.mulVec, dotProduct] at h2
      rw [← h2]
      exact Finset.sum_congr rfl fun j _ => mul_comm _ _
    · rw [h0 i (by omega) i.2]
      exact (Finset.sum_eq_zero fun j _ => by rw [h.low i j i.2 j.2 (by omega), mul_zero]).symm
  have hM : M.submatrix σ id = L⁻¹ * toM N N e := by
    rw [h.eq, ← Matrix.mul_assoc, Matrix.nonsing_inv_mul _ (by rw [hL]; exact isUnit_one), Matrix.one_mul]
  have hM' : ∀ i j : Fin N, M i j = ∑ l, L⁻¹ (σ.symm i) l * e l j := fun i j => by
    have := congrFun (congrFun hM (σ.symm i)) j
    rw [Matrix.mul_apply, Matrix.submatrix_apply, Equiv.apply_symm_apply] at this
    exact this
  refine ⟨x, fun i => ?_⟩
  rw [hM']
  simp only [hcol, hM', Finset.mul_sum]
  rw [Finset.sum_comm]
  exact Finset.sum_congr rfl fun j _ => Finset.sum_congr rfl fun l _ => by simp only [Fin.val_castLE]; ring

/-- What the loop leaves behind. -/
def MinorInv (M : Matrix (Fin N) (Fin N) K) (c : Nat) (s : ElimState K) : Prop :=
  (s.stop = true ∧ ∃ c' e σ L, c' < c ∧ c' < N ∧ Reduced M c' e s.det σ L ∧ ∀ k, c' ≤ k → k < N → e k c' = 0) ∨
  ∃ e σ L, s = ⟨Mat.ofFn N N e, s.det, false⟩ ∧ Reduced M c e s.det σ L

theorem minor_inv [DecidableEq K] {isz : K → Bool} (hz : ∀ x, isz x = true ↔ x = 0) (hf : Fits N N)
    (M : Matrix (Fin N) (Fin N) K) {c : Nat} (hc : c < N) (s : ElimState K) (h : MinorInv M c s) :
    ∃ s', elimStep isz N c s = .ok s' ∧ MinorInv M (c + 1) s' := by
  rcases h with ⟨h1, c', e, σ, L, h2, h3⟩ | ⟨e, σ, L, hs, hr⟩
  · exact ⟨s, by rw [elimStep, if_pos h1], .inl ⟨h1, c', e, σ, L, by omega, h3⟩⟩
  · obtain ⟨A, d, b⟩ := s
    obtain ⟨rfl, -, rfl⟩ : A = Mat.ofFn N N e ∧ d = d ∧ b = false := by simpa using hs
    dsimp only at hr
    rcases elimStep_eq hz hf hc e d with ⟨h1, h2⟩ | ⟨h0, h1⟩ | ⟨k, h2, h3, h4, h1⟩
    · exact ⟨_, h1, .inl ⟨rfl, c, e, σ, L, by omega, hc, hr, h2⟩⟩
    · exact ⟨_, h1, .inr ⟨_, σ, _, rfl, hr.elim hc h0⟩⟩
    · exact ⟨_, h1, .inr ⟨_, _, _, rfl, (hr.swap hc h3 h2).elim hc (by simpa [swapT] using h4)⟩⟩

/-- `determinant` of a matrix larger than 4×4: up to its sign a minor of the leading columns that is not zero, and either all columns are
leading or the next one is a combination of them. -/
theorem determinant_minor [DecidableEq K] {isz : K → Bool} (hz : ∀ x, isz x = true ↔ x = 0) {A : MB K} {e} (h : Rep A N N e) (hN : 4 < N) :
    ∃ d c, ∃ hc : c ≤ N, ∃ σ : Equiv.Perm (Fin N), determinant isz A = .ok d ∧
      d = (σ.sign : ℤ) * ((toM N N e).submatrix (fun i => σ (Fin.castLE hc i)) (Fin.castLE hc)).det ∧ d ≠ 0 ∧
      ∀ hc' : c < N, ∃ x : Fin c → K, ∀ i, toM N N e i ⟨c, hc'⟩ = ∑ j, x j * toM N N e i (Fin.castLE hc j) := by
  obtain ⟨s, h1, h2⟩ := forRange_inv (Nat.zero_le N) (MinorInv (toM N N e)) (s := ⟨Mat.ofFn N N e, 1, false⟩)
    (body := fun c s => elimStep isz N c s) (.inr ⟨e, 1, 1, rfl, Reduced.start e⟩) (fun c s _ hc hs => minor_inv hz h.fits _ hc s hs)
  have hd : determinant isz A = .ok s.det := by
    unfold determinant
    rw [isSquare_eq h.toRepAt, h.cols, beq_self_eq_true, Bool.not_true, if_neg Bool.false_ne_true, if_neg (by omega), if_neg (by omega),
      if_neg (by omega), if_neg (by omega), Mat.ofMB_eq h, Res.ok_bind]
    show (forRange 0 N (⟨Mat.ofFn N N e, 1, false⟩ : ElimState K) (fun c s => elimStep isz N c s) >>= _) = _
    rw [h1]; rfl
  rcases h2 with ⟨-, c, e', σ, L, -, hc, hr, h0⟩ | ⟨e', σ, L, -, hr⟩
  · exact ⟨_, c, hc.le, σ, hd, by rw [← hr.minor hc.le]; exact hr.det, hr.ne, fun _ => hr.dependent hc h0⟩
  · exact ⟨_, N, le_rfl, σ, hd, by rw [← hr.minor le_rfl]; exact hr.det, hr.ne, fun h => absurd h (lt_irrefl N)⟩

end Malg
