import Verif.Lemmas.Hess
import Mathlib.Algebra.BigOperators.Field
/-!
# What one pass of `hessenberg` does to a column
-/
namespace Malg
open Matrix
namespace Eigen
open Cpx
variable {K : Type} [Field K] [LinearOrder K] [IsStrictOrderedRing K] {n : Nat}

theorem ofReal_sqC (u : Fin n → Cpx K) : ofReal (sqC u) = star u ⬝ᵥ u := by
  rw [sqC, ofReal_sum, dotProduct]
  exact Finset.sum_congr rfl fun r _ => norm_eq _

theorem sqC_nonneg (u : Fin n → Cpx K) : 0 ≤ sqC u := Finset.sum_nonneg fun _ _ => norm_nonneg _

theorem tailSqC_nonneg (k : Nat) (x : Fin n → Cpx K) : 0 ≤ tailSqC k x :=
  Finset.sum_nonneg fun _ _ => by split_ifs; exacts [le_refl _, norm_nonneg _]

theorem tailSqC_zero {k : Nat} {x : Fin n → Cpx K} (h : tailSqC k x = 0) (r : Fin n) (hr : k < r.val) : x r = 0 := by
  have h1 := (Finset.sum_eq_zero_iff_of_nonneg (fun r _ => by
    split_ifs; exacts [le_refl _, norm_nonneg _])).1 h r (Finset.mem_univ r)
  rw [if_neg (by omega)] at h1
  exact norm_eq_zero.1 h1

theorem house_conjTranspose (v : Fin n → Cpx K) : (house v)ᴴ = house v := by
  apply Matrix.ext; intro r c
  rw [conjTranspose_apply, house_apply, house_apply, star_sub, star_mul', star_mul', star_star]
  have h2 : star (2 : Cpx K) = 2 := by
    rw [show (2 : Cpx K) = ofReal 2 by ext <;> simp [← one_add_one_eq_two], star_ofReal]
  rw [h2]
  by_cases h : r = c
  · subst h; simp; ring
  · rw [if_neg h, if_neg (Ne.symm h), star_zero]; ring

theorem house_mulVec (v x : Fin n → Cpx K) (r : Fin n) : (house v *ᵥ x) r = x r - v r * (2 * (star v ⬝ᵥ x)) := by
  rw [mulVec, dotProduct]
  simp only [house_apply]
  rw [dotProduct, Finset.mul_sum, Finset.mul_sum]
  simp only [sub_mul, Finset.sum_sub_distrib, ite_mul, one_mul, zero_mul, Finset.sum_ite_eq, Finset.mem_univ, if_true, Pi.star_apply]
  congr 1
  exact Finset.sum_congr rfl fun c _ => by ring

theorem house_zero : house (0 : Fin n → Cpx K) = 1 := by
  apply Matrix.ext; intro r c; rw [house_apply, Matrix.one_apply]; simp

theorem house_mul_self {v : Fin n → Cpx K} (h : sqC v = 1) : house v * house v = 1 := by
  have h1 : star v ⬝ᵥ v = 1 := by rw [← ofReal_sqC, h, ofReal_one]
  apply Matrix.ext_of_mulVec_single
  intro j
  funext r
  have h2 : star v ⬝ᵥ (house v *ᵥ Pi.single j 1) = -(star v ⬝ᵥ Pi.single j 1) := by
    have : house v *ᵥ Pi.single j 1 = Pi.single j 1 - (2 * (star v ⬝ᵥ Pi.single j 1)) • v := by
      funext r; rw [house_mulVec]; simp [mul_comm]
    rw [this, dotProduct_sub, dotProduct_smul, h1, smul_eq_mul]; ring
  rw [← mulVec_mulVec, house_mulVec, h2, house_mulVec, one_mulVec]
  ring

/-- The length of a column after the transformation. -/
theorem sqC_house (v x : Fin n → Cpx K) :
    sqC (house v *ᵥ x) = sqC x - 4 * norm (star v ⬝ᵥ x) * (1 - sqC v) := by
  apply ofReal_inj.1
  have hb : house v *ᵥ x = x - (2 * (star v ⬝ᵥ x)) • v := by
    funext r; rw [house_mulVec]; simp [mul_comm]
  have hs : star x ⬝ᵥ v = star (star v ⬝ᵥ x) := by
    rw [dotProduct, dotProduct, star_sum]
    exact Finset.sum_congr rfl fun r _ => by simp [mul_comm]
  have h4 : (ofReal 4 : Cpx K) = 4 := by
    rw [show (4 : Cpx K) = 1 + 1 + 1 + 1 by norm_num, show (4 : K) = 1 + 1 + 1 + 1 by norm_num]
    simp only [ofReal_add, ofReal_one]
  rw [ofReal_sub, ofReal_mul, ofReal_mul, ofReal_sub, ofReal_one, ofReal_sqC, ofReal_sqC, ofReal_sqC, norm_eq, h4, hb]
  generalize hvx : star v ⬝ᵥ x = b at hs ⊢
  have hst : star (x - (2 * b) • v) = star x - (2 * star b) • star v := by
    funext r; simp [star_mul']
  rw [hst, sub_dotProduct, dotProduct_sub, dotProduct_sub, smul_dotProduct, smul_dotProduct, dotProduct_smul,
    dotProduct_smul, hs, hvx]
  simp only [smul_eq_mul]
  ring

omit [LinearOrder K] [IsStrictOrderedRing K] in
theorem hvec_low {k : Nat} (x : Fin n → Cpx K) (t : Cpx K) (r : Fin n) (hr : r.val ≤ k) : hvec k x t r = 0 := if_pos hr

omit [LinearOrder K] [IsStrictOrderedRing K] in
theorem hvec_sum {G : Type} [AddCommGroup G] {k : Nat} (hk : k + 1 < n) (x : Fin n → Cpx K) (t : Cpx K) (g : Fin n → Cpx K → G) (h0 : ∀ r, g r 0 = 0) :
    ∑ r, g r (hvec k x t r) = (∑ r : Fin n, if r.val ≤ k then 0 else g r (x r)) +
      (g ⟨k + 1, hk⟩ (x ⟨k + 1, hk⟩ - t) - g ⟨k + 1, hk⟩ (x ⟨k + 1, hk⟩)) := by
  have : ∀ r : Fin n, g r (hvec k x t r) = (if r.val ≤ k then 0 else g r (x r)) +
      if r = ⟨k + 1, hk⟩ then g r (x r - t) - g r (x r) else 0 := by
    intro r
    unfold hvec
    by_cases h1 : r.val ≤ k
    · rw [if_pos h1, if_pos h1, h0, if_neg (by rw [Fin.ext_iff]; simp only; omega), add_zero]
    · rw [if_neg h1, if_neg h1]
      by_cases h2 : r.val = k + 1
      · rw [if_pos h2, if_pos (Fin.ext h2)]; abel
      · rw [if_neg h2, if_neg (by rw [Fin.ext_iff]; exact h2), add_zero]
  rw [Finset.sum_congr rfl fun r _ => this r, Finset.sum_add_distrib, Finset.sum_ite_eq' Finset.univ]
  simp

variable {k : Nat} (hk : k + 1 < n) (x : Fin n → Cpx K) {ρ : Cpx K} {σ : K}

omit [LinearOrder K] [IsStrictOrderedRing K] in
/-- The length of the mirror vector. -/
theorem sqC_hvec (hρ : norm ρ = 1) (hσ : σ * σ = tailSqC k x) :
    sqC (hvec k x (ρ * ofReal σ)) = 2 * (σ * σ) - 2 * σ * (star ρ * x ⟨k + 1, hk⟩).re := by
  rw [sqC, hvec_sum hk x _ (fun _ z => norm z) (fun _ => norm_zero)]
  change tailSqC k x + _ = _
  rw [← hσ]
  generalize x ⟨k + 1, hk⟩ = xk
  have : norm (xk - ρ * ofReal σ) - norm xk = norm ρ * (σ * σ) - 2 * σ * (star ρ * xk).re := by
    simp [Eigen.norm]; ring
  rw [this, hρ]; ring

/-- Its product with the column. -/
theorem dot_hvec (hσ : σ * σ = tailSqC k x) :
    star (hvec k x (ρ * ofReal σ)) ⬝ᵥ x = ofReal (σ * σ) - ofReal σ * (star ρ * x ⟨k + 1, hk⟩) := by
  rw [dotProduct]
  change ∑ r, star (hvec k x (ρ * ofReal σ) r) * x r = _
  rw [hvec_sum hk x _ (fun r z => star z * x r) (fun r => by rw [star_zero, zero_mul]), hσ, tailSqC, ofReal_sum]
  have : ∀ r : Fin n, (if r.val ≤ k then 0 else star (x r) * x r) = ofReal (if r.val ≤ k then 0 else norm (x r)) := by
    intro r; split_ifs
    · rfl
    · rw [norm_eq]
  rw [Finset.sum_congr rfl fun r _ => this r, star_sub, star_mul', star_ofReal]
  ring

/-- The transformed column when the mirror vector is normalised exactly: the part below row `k + 1` is small. -/
theorem house_tail (hρ : norm ρ = 1) (hσ : σ * σ = tailSqC k x) {v : Fin n → Cpx K} {L : K}
    (hv : v = fun r => hvec k x (ρ * ofReal σ) r / ofReal L) (hL : L * L = sqC (hvec k x (ρ * ofReal σ))) (hL0 : L ≠ 0)
    (r : Fin n) (hr : k + 1 < r.val) :
    (house v *ᵥ x) r = x r * ⟨0, 2 * σ * (star ρ * x ⟨k + 1, hk⟩).im / (L * L)⟩ := by
  have hur : hvec k x (ρ * ofReal σ) r = x r := by
    unfold hvec; rw [if_neg (by omega), if_neg (by omega)]
  have hd : star v ⬝ᵥ x = (star (hvec k x (ρ * ofReal σ)) ⬝ᵥ x) / ofReal L := by
    rw [hv, dotProduct, dotProduct, Finset.sum_div]
    exact Finset.sum_congr rfl fun r _ => by rw [Pi.star_apply, Pi.star_apply, star_div₀, star_ofReal, div_mul_eq_mul_div]
  have hL' : (ofReal L : Cpx K) ≠ 0 := ofReal_ne_zero.2 hL0
  have hLL := sqC_hvec hk x hρ hσ
  rw [house_mulVec, hd, dot_hvec hk x hσ, hv]
  simp only
  rw [hur]
  have key : (⟨0, 2 * σ * (star ρ * x ⟨k + 1, hk⟩).im / (L * L)⟩ : Cpx K) =
      1 - 2 * (ofReal (σ * σ) - ofReal σ * (star ρ * x ⟨k + 1, hk⟩)) / ofReal (L * L) := by
    have hL2 : (ofReal (L * L) : Cpx K) ≠ 0 := ofReal_ne_zero.2 (mul_ne_zero hL0 hL0)
    rw [eq_sub_iff_add_eq, ← eq_sub_iff_add_eq', div_eq_iff hL2]
    rw [hLL] at hL
    generalize star ρ * x ⟨k + 1, hk⟩ = τ at hL ⊢
    rw [two_eq]
    ext
    · simp; rw [hL]; ring
    · simp; field_simp
  rw [key, ofReal_mul L L]
  field_simp

theorem rho_unit {abs : Cpx K → K} (ha : IsAbs abs) {eps : K} (he : 0 ≤ eps) (z : Cpx K) : norm (rhoOf eps abs z) = 1 := by
  unfold rhoOf
  split_ifs with h
  · have h0 : abs z ≠ 0 := (lt_of_le_of_lt he h).ne'
    apply ofReal_inj.1
    rw [norm_eq, star_div₀, star_neg, star_ofReal, ofReal_one]
    have := norm_eq z
    rw [← (ha z).2, ofReal_mul] at this
    have h1 := ofReal_ne_zero.2 h0
    field_simp
    rw [pow_two, this]
  · exact norm_one

/-- The product of the chosen direction and the pivot. -/
theorem rho_mul {abs : Cpx K → K} (ha : IsAbs abs) {eps : K} (he : 0 ≤ eps) (z : Cpx K) :
    star (rhoOf eps abs z) * z = if eps < abs z then -ofReal (abs z) else z := by
  unfold rhoOf
  split_ifs with h
  · have h1 := ofReal_ne_zero.2 (lt_of_le_of_lt he h).ne'
    have := norm_eq z
    rw [← (ha z).2, ofReal_mul] at this
    rw [star_div₀, star_neg, star_ofReal]
    field_simp
    rw [pow_two, this]
  · rw [star_one, one_mul]

theorem le_of_mul_self {a b : K} (hb : 0 ≤ b) (h : a * a ≤ b * b) : a ≤ b := by
  by_contra hc
  exact absurd (mul_self_lt_mul_self hb (not_le.1 hc)) (not_lt.2 h)

/-- What one pass does: facts about the mirror vector and the working column. -/
structure PassFacts {k : Nat} (hk : k + 1 < n) (eps : K) (x v : Fin n → Cpx K) : Prop where
  low : ∀ r : Fin n, r.val ≤ k → v r = 0
  le : sqC v ≤ 1
  zero : tailSqC k x = 0 → v = 0
  unit : 4 * (eps * eps) ≤ tailSqC k x → sqC v = 1
  small : 4 * (eps * eps) ≤ tailSqC k x → tailSqC (k + 1) (house v *ᵥ x) ≤ 4 * (eps * eps)
  exact : 4 * (eps * eps) ≤ tailSqC k x → (x ⟨k + 1, hk⟩).im = 0 → ∀ r : Fin n, k + 1 < r.val → (house v *ᵥ x) r = 0
  real : (∀ r, (x r).im = 0) → ∀ r, (v r).im = 0

theorem passFacts {sqrt : K → K} (hs : ∀ x, 0 ≤ x → 0 ≤ sqrt x ∧ sqrt x * sqrt x = x) {abs : Cpx K → K} (ha : IsAbs abs) {eps : K}
    (he : 0 < eps) {u v : Fin n → Cpx K} (hu : u = hvec k x (rhoOf eps abs (x ⟨k + 1, hk⟩) * ofReal (sqrt (tailSqC k x))))
    (hv : v = fun r => u r / ofReal (lenOf eps sqrt (sqC u))) : PassFacts hk eps x v := by
  obtain ⟨hσ0, hσ⟩ := hs _ (tailSqC_nonneg k x)
  have hρ := rho_unit ha he.le (x ⟨k + 1, hk⟩)
  have hτ := rho_mul ha he.le (x ⟨k + 1, hk⟩)
  have hsq := sqC_hvec hk x hρ hσ
  rw [← hu] at hsq
  obtain ⟨hq0, hq⟩ := hs _ (sqC_nonneg u)
  have hLp : 0 < lenOf eps sqrt (sqC u) := by
    unfold lenOf
    split_ifs with h
    · exact he
    · exact lt_of_lt_of_le he (not_lt.1 h)
  have hLq : sqC u ≤ lenOf eps sqrt (sqC u) * lenOf eps sqrt (sqC u) := by
    unfold lenOf
    split_ifs with h
    · rw [← hq]; exact mul_le_mul h.le h.le hq0 he.le
    · rw [hq]
  have hsv : sqC v = sqC u / (lenOf eps sqrt (sqC u) * lenOf eps sqrt (sqC u)) := by
    apply ofReal_inj.1
    rw [ofReal_div, ofReal_sqC, ofReal_sqC, hv, dotProduct, dotProduct, Finset.sum_div, ofReal_mul]
    exact Finset.sum_congr rfl fun r _ => by
      rw [Pi.star_apply, Pi.star_apply, star_div₀, star_ofReal, div_mul_div_comm]
  have hxk : norm (x ⟨k + 1, hk⟩) ≤ tailSqC k x := by
    have := Finset.single_le_sum (f := fun r : Fin n => if r.val ≤ k then 0 else norm (x r))
      (fun r _ => by split_ifs; exacts [le_refl _, norm_nonneg _]) (Finset.mem_univ (⟨k + 1, hk⟩ : Fin n))
    dsimp only at this
    rwa [if_neg (by omega)] at this
  -- a long column gives a long mirror vector
  have hbig : 4 * (eps * eps) ≤ tailSqC k x → tailSqC k x ≤ sqC u := by
    intro h
    rw [hsq, hτ, hσ]
    have h2e : 2 * eps ≤ sqrt (tailSqC k x) := by
      apply le_of_mul_self hσ0
      rw [hσ]; linarith
    split_ifs with h1
    · have : 0 ≤ sqrt (tailSqC k x) * abs (x ⟨k + 1, hk⟩) := mul_nonneg hσ0 (ha _).1
      simp only [neg_re, ofReal_re]
      have := tailSqC_nonneg k x
      linarith
    · have hre : (x ⟨k + 1, hk⟩).re ≤ eps := by
        have h3 := (ha (x ⟨k + 1, hk⟩)).2
        have h4 := mul_self_nonneg (x ⟨k + 1, hk⟩).im
        unfold Eigen.norm at h3
        refine le_trans ?_ (not_lt.1 h1)
        apply le_of_mul_self (ha _).1
        linarith
      have : sqrt (tailSqC k x) * (x ⟨k + 1, hk⟩).re ≤ sqrt (tailSqC k x) * (sqrt (tailSqC k x) / 2) :=
        mul_le_mul_of_nonneg_left (by linarith) hσ0
      have h5 : sqrt (tailSqC k x) * (sqrt (tailSqC k x) / 2) = tailSqC k x / 2 := by rw [mul_div_assoc', hσ]
      linarith
  have hlen : 4 * (eps * eps) ≤ tailSqC k x → lenOf eps sqrt (sqC u) * lenOf eps sqrt (sqC u) = sqC u := by
    intro h
    unfold lenOf
    rw [if_neg, hq]
    intro h1
    have h2 := hbig h
    have h3 : sqrt (sqC u) * sqrt (sqC u) < eps * eps := mul_self_lt_mul_self hq0 h1
    have := mul_pos he he
    rw [hq] at h3
    linarith
  have htail : 4 * (eps * eps) ≤ tailSqC k x → ∀ r : Fin n, k + 1 < r.val → (house v *ᵥ x) r =
      x r * ⟨0, 2 * sqrt (tailSqC k x) * (star (rhoOf eps abs (x ⟨k + 1, hk⟩)) * x ⟨k + 1, hk⟩).im / sqC u⟩ := by
    intro h r hr
    have h1 := house_tail hk x hρ hσ (v := v) (L := lenOf eps sqrt (sqC u)) (by rw [hv, hu]) (by rw [← hu]; exact hlen h) hLp.ne' r hr
    rw [h1, hlen h]
  refine ⟨?_, ?_, ?_, ?_, ?_, ?_, ?_⟩
  · intro r hr
    rw [hv, hu]; simp only; rw [hvec_low _ _ r hr, zero_div]
  · rw [hsv]; exact (div_le_one (mul_pos hLp hLp)).2 hLq
  · intro h
    have hσz : sqrt (tailSqC k x) = 0 := by
      have := hσ; rw [h] at this ⊢; exact mul_self_eq_zero.1 this
    have hu0 : u = 0 := by
      funext r
      rw [hu, hσz, ofReal_zero, mul_zero]
      unfold hvec
      split_ifs with h1 h2
      · rfl
      · rw [sub_zero]; exact tailSqC_zero h r (by omega)
      · exact tailSqC_zero h r (by omega)
    funext r
    rw [hv, hu0]; simp
  · intro h
    have h0 : 0 < tailSqC k x := lt_of_lt_of_le (by have := mul_pos he he; linarith) h
    rw [hsv, hlen h, div_self (lt_of_lt_of_le h0 (hbig h)).ne']
  · intro h
    have h0 : 0 < tailSqC k x := lt_of_lt_of_le (by have := mul_pos he he; linarith) h
    have hu0 : 0 < sqC u := lt_of_lt_of_le h0 (hbig h)
    have h1 := htail h
    generalize hy : house v *ᵥ x = y at h1 ⊢
    generalize hi : (star (rhoOf eps abs (x ⟨k + 1, hk⟩)) * x ⟨k + 1, hk⟩).im = t at h1
    have ht : t * t ≤ eps * eps := by
      rw [← hi, hτ]
      split_ifs with h2
      · simp only [neg_im, ofReal_im, neg_zero, mul_zero]; exact (mul_pos he he).le
      · have h3 := (ha (x ⟨k + 1, hk⟩)).2
        unfold Eigen.norm at h3
        have h4 := mul_self_nonneg (x ⟨k + 1, hk⟩).re
        have h5 := mul_le_mul (not_lt.1 h2) (not_lt.1 h2) (ha (x ⟨k + 1, hk⟩)).1 he.le
        linarith
    have h2 : tailSqC (k + 1) y = tailSqC (k + 1) x * (4 * tailSqC k x * (t * t) / (sqC u * sqC u)) := by
      rw [tailSqC, tailSqC, Finset.sum_mul]
      refine Finset.sum_congr rfl fun r _ => ?_
      split_ifs with hr
      · rw [zero_mul]
      · rw [h1 r (by omega), norm_mul]
        congr 1
        unfold Eigen.norm
        simp only
        rw [mul_zero, zero_add, div_mul_div_comm]
        congr 1
        linear_combination 4 * t * t * hσ
    have h3 : tailSqC (k + 1) x ≤ sqC u := by
      rw [sqC, tailSqC]
      refine Finset.sum_le_sum fun r _ => ?_
      split_ifs with hr
      · exact norm_nonneg _
      · rw [hu]; unfold hvec; rw [if_neg (by omega), if_neg (by omega)]
    have h4 : 0 ≤ 4 * tailSqC k x * (t * t) := mul_nonneg (by linarith) (mul_self_nonneg _)
    calc tailSqC (k + 1) y ≤ sqC u * (4 * tailSqC k x * (t * t) / (sqC u * sqC u)) := by
          rw [h2]; exact mul_le_mul_of_nonneg_right h3 (div_nonneg h4 (mul_pos hu0 hu0).le)
      _ = 4 * (t * t) * (tailSqC k x / sqC u) := by field_simp
      _ ≤ 4 * (t * t) * 1 := mul_le_mul_of_nonneg_left ((div_le_one hu0).2 (hbig h)) (by have := mul_self_nonneg t; linarith)
      _ ≤ 4 * (eps * eps) := by linarith
  · intro h hre r hr
    rw [htail h r hr, hτ]
    have : (if eps < abs (x ⟨k + 1, hk⟩) then -ofReal (abs (x ⟨k + 1, hk⟩)) else x ⟨k + 1, hk⟩ : Cpx K).im = 0 := by
      split_ifs
      · simp
      · exact hre
    rw [this, mul_zero, zero_div]
    exact mul_zero _
  · intro hre r
    have hdiv : ∀ (a : Cpx K) (l : K), a.im = 0 → (a / ofReal l).im = 0 := by
      intro a l h
      rw [div_eq_mul_inv, mul_im, inv_re, inv_im, h]; simp
    rw [hv]
    simp only
    apply hdiv
    rw [hu]
    unfold hvec
    split_ifs with h1 h2
    · rfl
    · rw [sub_im, hre, mul_im, ofReal_im, mul_zero, zero_add]
      have : (rhoOf eps abs (x ⟨k + 1, hk⟩)).im = 0 := by
        unfold rhoOf
        split_ifs
        · apply hdiv; rw [neg_im, hre, neg_zero]
        · rfl
      rw [this, zero_mul, sub_zero]
    · exact hre r

end Eigen
end Malg
