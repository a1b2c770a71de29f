import Verif.Lemmas.HessInv
import Verif.Lemmas.Reflect
/-!
# The run of `hessenberg`
-/
namespace Malg
open Matrix
namespace Eigen
open Cpx
variable {K : Type} [Field K] [LinearOrder K] [IsStrictOrderedRing K] {n : Nat}

/-- `H` after `k` passes, as long as no pass met a tiny column. -/
structure HessInv (eps : K) (k : Nat) (A P H : Matrix (Fin n) (Fin n) (Cpx K)) : Prop where
  unit : Pᴴ * P = 1
  sim : A * P = P * H
  small : ∀ c : Fin n, c.val < k → tailSqC (c.val + 1) (fun r => H r c) ≤ 4 * (eps * eps)
  real : (∀ r c, (A r c).im = 0) → (∀ r c, (H r c).im = 0) ∧ ∀ r c : Fin n, c.val < k → c.val + 1 < r.val → H r c = 0

theorem hess_start (eps : K) (A : Matrix (Fin n) (Fin n) (Cpx K)) : HessInv eps 0 A 1 A where
  unit := by rw [conjTranspose_one, Matrix.one_mul]
  sim := by rw [Matrix.mul_one, Matrix.one_mul]
  small _ h := absurd h (Nat.not_lt_zero _)
  real h := ⟨h, fun _ _ h => absurd h (Nat.not_lt_zero _)⟩

omit [LinearOrder K] [IsStrictOrderedRing K] in
theorem sqC_split (k : Nat) (x : Fin n → Cpx K) : sqC x = (∑ r : Fin n, if r.val ≤ k then norm (x r) else 0) + tailSqC k x := by
  rw [sqC, tailSqC, ← Finset.sum_add_distrib]
  exact Finset.sum_congr rfl fun r _ => by split_ifs <;> simp

variable {k : Nat} {v : Fin n → Cpx K}

theorem house_row (hv : ∀ r : Fin n, r.val ≤ k → v r = 0) (X : Matrix (Fin n) (Fin n) (Cpx K)) (r c : Fin n) (hr : r.val ≤ k) :
    (house v * X) r c = X r c := by
  rw [mul_apply_col, house_mulVec, hv r hr, zero_mul, sub_zero]

theorem house_col (hv : ∀ r : Fin n, r.val ≤ k → v r = 0) (X : Matrix (Fin n) (Fin n) (Cpx K)) (r c : Fin n) (hc : c.val ≤ k) :
    (X * house v) r c = X r c := by
  rw [Matrix.mul_apply]
  simp only [house_apply, hv c hc, star_zero, mul_zero, sub_zero]
  simp

/-- The finished columns and the working column are multiplied from the left. -/
theorem pass_col (hv : ∀ r : Fin n, r.val ≤ k → v r = 0) (H : Matrix (Fin n) (Fin n) (Cpx K)) (r c : Fin n) (hc : c.val ≤ k) :
    (house v * (H * house v)) r c = (house v *ᵥ fun r => H r c) r := by
  rw [mul_apply_col]
  congr 2
  funext r
  exact house_col hv H r c hc

theorem tail_house (hv : ∀ r : Fin n, r.val ≤ k → v r = 0) (y : Fin n → Cpx K) {c : Nat} (hc : c ≤ k) :
    tailSqC c (house v *ᵥ y) = tailSqC c y - 4 * norm (star v ⬝ᵥ y) * (1 - sqC v) := by
  have h1 := sqC_house v y
  rw [sqC_split c, sqC_split c y] at h1
  have : ∀ r : Fin n, (if r.val ≤ c then norm ((house v *ᵥ y) r) else 0) = if r.val ≤ c then norm (y r) else 0 := by
    intro r
    split_ifs with h
    · rw [house_mulVec, hv r (by omega), zero_mul, sub_zero]
    · rfl
  rw [Finset.sum_congr rfl fun r _ => this r] at h1
  linarith

theorem tail_mono (x : Fin n → Cpx K) (k : Nat) : tailSqC (k + 1) x ≤ tailSqC k x := by
  refine Finset.sum_le_sum fun r _ => ?_
  split_ifs with h1 h2 h2
  · exact le_refl _
  · exact norm_nonneg _
  · omega
  · exact le_refl _

/-- A pass that meets no tiny column. -/
theorem hess_pass {eps : K} (hk : k + 1 < n) {A P H : Matrix (Fin n) (Fin n) (Cpx K)} (h : HessInv eps k A P H)
    (hp : PassFacts hk eps (fun r => H r ⟨k, by omega⟩) v)
    (hgood : tailSqC k (fun r => H r ⟨k, by omega⟩) = 0 ∨ 4 * (eps * eps) ≤ tailSqC k (fun r => H r ⟨k, by omega⟩)) :
    HessInv eps (k + 1) A (P * house v) (house v * (H * house v)) := by
  have hkn : k < n := by omega
  rcases hgood with h0 | hbig
  · rw [hp.zero h0, house_zero, Matrix.mul_one, Matrix.mul_one, Matrix.one_mul]
    refine ⟨h.unit, h.sim, fun c hc => ?_, fun hA => ⟨(h.real hA).1, fun r c hc hr => ?_⟩⟩
    · rcases Nat.lt_or_ge c.val k with hc' | hc'
      · exact h.small c hc'
      · have : c = ⟨k, hkn⟩ := Fin.ext (by simp only; omega)
        subst this
        refine le_trans (tail_mono _ k) (le_trans (le_of_eq h0) ?_)
        exact mul_nonneg (by norm_num) (mul_self_nonneg _)
    · rcases Nat.lt_or_ge c.val k with hc' | hc'
      · exact (h.real hA).2 r c hc' hr
      · have : c = ⟨k, hkn⟩ := Fin.ext (by simp only; omega)
        subst this
        exact tailSqC_zero h0 r (by simp only at hr; omega)
  · have hu := hp.unit hbig
    have hh := house_mul_self hu
    refine ⟨?_, ?_, ?_, ?_⟩
    · rw [conjTranspose_mul, house_conjTranspose, Matrix.mul_assoc, ← Matrix.mul_assoc Pᴴ, h.unit, Matrix.one_mul, hh]
    · rw [← Matrix.mul_assoc, h.sim, Matrix.mul_assoc P (house v), ← Matrix.mul_assoc (house v) (house v), hh, Matrix.one_mul,
        Matrix.mul_assoc]
    · intro c hc
      have he : (fun r => (house v * (H * house v)) r c) = house v *ᵥ fun r => H r c := by
        funext r; exact pass_col hp.low H r c (by omega)
      rw [he]
      rcases Nat.lt_or_ge c.val k with hc' | hc'
      · rw [tail_house hp.low _ (by omega), hu, sub_self, mul_zero, sub_zero]
        exact h.small c hc'
      · have : c = ⟨k, hkn⟩ := Fin.ext (by simp only; omega)
        subst this
        exact hp.small hbig
    · intro hA
      obtain ⟨hre, hz⟩ := h.real hA
      have hvr := hp.real fun r => hre r _
      have hhr : ∀ r c, (house v r c).im = 0 := by
        intro r c
        rw [house_apply, two_eq]
        have : (if r = c then (1 : Cpx K) else 0).im = 0 := by split_ifs <;> rfl
        simp [this, hvr]
      have hmr : ∀ X Y : Matrix (Fin n) (Fin n) (Cpx K), (∀ r c, (X r c).im = 0) → (∀ r c, (Y r c).im = 0) →
          ∀ r c, ((X * Y) r c).im = 0 := by
        intro X Y hX hY r c
        rw [Matrix.mul_apply]
        have : ∀ s : Finset (Fin n), (∑ j ∈ s, X r j * Y j c).im = 0 := by
          intro s
          induction s using Finset.induction_on with
          | empty => rfl
          | insert a s ha ih => rw [Finset.sum_insert ha, add_im, ih, mul_im, hX, hY]; simp
        exact this _
      refine ⟨hmr _ _ hhr (hmr _ _ hre hhr), fun r c hc hr => ?_⟩
      rw [pass_col hp.low H r c (by omega)]
      rcases Nat.lt_or_ge c.val k with hc' | hc'
      · rw [house_mulVec]
        have h1 : star v ⬝ᵥ (fun r => H r c) = 0 := by
          rw [dotProduct]
          refine Finset.sum_eq_zero fun j _ => ?_
          rcases Nat.lt_or_ge k j.val with hj | hj
          · rw [hz j c hc' (by omega), mul_zero]
          · rw [Pi.star_apply, hp.low j hj, star_zero, zero_mul]
        rw [h1, mul_zero, mul_zero, sub_zero]
        exact hz r c hc' hr
      · have : c = ⟨k, hkn⟩ := Fin.ext (by simp only; omega)
        subst this
        exact hp.exact hbig (hre _ _) r hr

/-- The two matrices after the next pass. -/
def hessNext (eps : K) (sqrt : K → K) (abs : Cpx K → K) (k : Nat) (p : Matrix (Fin n) (Fin n) (Cpx K) × Matrix (Fin n) (Fin n) (Cpx K)) :
    Matrix (Fin n) (Fin n) (Cpx K) × Matrix (Fin n) (Fin n) (Cpx K) :=
  if hk : k + 2 < n then
    let x : Fin n → Cpx K := fun r => p.2 r ⟨k, by omega⟩
    let u := hvec k x (rhoOf eps abs (x ⟨k + 1, by omega⟩) * ofReal (sqrt (tailSqC k x)))
    let v : Fin n → Cpx K := fun r => u r / ofReal (lenOf eps sqrt (sqC u))
    (p.1 * house v, house v * (p.2 * house v))
  else p

/-- The two matrices after `k` passes. -/
def hessSeq (eps : K) (sqrt : K → K) (abs : Cpx K → K) (A : Matrix (Fin n) (Fin n) (Cpx K)) :
    Nat → Matrix (Fin n) (Fin n) (Cpx K) × Matrix (Fin n) (Fin n) (Cpx K)
  | 0 => (1, A)
  | k + 1 => hessNext eps sqrt abs k (hessSeq eps sqrt abs A k)

variable {eps : K} {sqrt : K → K} {abs : Cpx K → K} (hs : ∀ x, 0 ≤ x → 0 ≤ sqrt x ∧ sqrt x * sqrt x = x) (ha : IsAbs abs)
  (he : 0 < eps)

include hs ha he in
theorem hessSeq_succ (A : Matrix (Fin n) (Fin n) (Cpx K)) {k : Nat} (hk : k + 2 < n) : ∃ v : Fin n → Cpx K,
    PassFacts (show k + 1 < n by omega) eps (fun r => (hessSeq eps sqrt abs A k).2 r ⟨k, by omega⟩) v ∧
    hessSeq eps sqrt abs A (k + 1) = ((hessSeq eps sqrt abs A k).1 * house v, house v * ((hessSeq eps sqrt abs A k).2 * house v)) := by
  refine ⟨_, passFacts (by omega) _ hs ha he rfl rfl, ?_⟩
  rw [hessSeq, hessNext, dif_pos hk]

include he in
/-- The loop computes the sequence. -/
theorem hess_loop (hf : Fits n n) (A : Matrix (Fin n) (Fin n) (Cpx K)) {k : Nat} (hk : k ≤ n - 2) :
    forRange 0 k (Mat.ofFn n n (tab (1 : Matrix (Fin n) (Fin n) (Cpx K))), Mat.ofFn n n (tab A)) (hessStep eps sqrt abs n) =
      .ok (Mat.ofFn n n (tab (hessSeq eps sqrt abs A k).1), Mat.ofFn n n (tab (hessSeq eps sqrt abs A k).2)) := by
  rw [forRange_eq (Nat.zero_le k) (fun i => (Mat.ofFn n n (tab (hessSeq eps sqrt abs A i).1), Mat.ofFn n n (tab (hessSeq eps sqrt abs A i).2)))]
  · rfl
  · intro i _ hi
    have hi2 : i + 2 < n := by omega
    rw [hessStep_eq he hf hi2 _ _ rfl rfl, hessSeq, hessNext, dif_pos hi2]

omit [LinearOrder K] [IsStrictOrderedRing K] in
theorem eye_tab (hn : 0 < n) (hf : Fits n n) :
    Util.eye n n (1 : Cpx K) = .ok (Mat.ofFn n n (tab (1 : Matrix (Fin n) (Fin n) (Cpx K)))) := by
  rw [Util.eye_eq hn hn hf]
  congr 1
  apply ofFn_congr
  intro r c hr hc
  rw [tab_lt _ hr hc, Matrix.one_apply]
  apply if_congr _ rfl rfl
  rw [Fin.mk.injEq]

include he in
theorem hessenberg_run (hf : Fits n n) (hn : 0 < n) (hn31 : n < 2 ^ 31) (A : Matrix (Fin n) (Fin n) (Cpx K)) :
    hessenberg eps sqrt abs (Mat.ofFn n n (tab A)) =
      .ok (Mat.ofFn n n (tab (hessSeq eps sqrt abs A (n - 2)).1), Mat.ofFn n n (tab (hessSeq eps sqrt abs A (n - 2)).2)) := by
  unfold hessenberg intDim
  rw [ofFn_rows, if_pos hn31, Res.ok_bind, eye_tab hn hf, Res.ok_bind]
  exact hess_loop he hf A (Nat.le_refl _)

include hs ha he in
/-- As long as every pass meets a zero or a long column, the invariant holds. -/
theorem hessSeq_inv (A : Matrix (Fin n) (Fin n) (Cpx K)) {k : Nat} (hk : k ≤ n - 2)
    (hgood : ∀ i (hi : i < k), tailSqC i (fun r => (hessSeq eps sqrt abs A i).2 r ⟨i, by omega⟩) = 0 ∨
      4 * (eps * eps) ≤ tailSqC i (fun r => (hessSeq eps sqrt abs A i).2 r ⟨i, by omega⟩)) :
    HessInv eps k A (hessSeq eps sqrt abs A k).1 (hessSeq eps sqrt abs A k).2 := by
  induction k with
  | zero => exact hess_start eps A
  | succ k ih =>
    obtain ⟨v, hp, e⟩ := hessSeq_succ hs ha he A (show k + 2 < n by omega)
    rw [e]
    exact hess_pass _ (ih (by omega) fun i hi => hgood i (by omega)) hp (hgood k (Nat.lt_succ_self k))

include hs ha he in
/-- The subdiagonal entries of the result bound the lengths of the working columns from below. -/
theorem hessSeq_sub (A : Matrix (Fin n) (Fin n) (Cpx K)) {i k : Nat} (hik : i < k) (hk : k ≤ n - 2) :
    norm ((hessSeq eps sqrt abs A k).2 ⟨i + 1, by omega⟩ ⟨i, by omega⟩) ≤
      tailSqC i (fun r => (hessSeq eps sqrt abs A i).2 r ⟨i, by omega⟩) := by
  induction k with
  | zero => omega
  | succ k ih =>
    obtain ⟨v, hp, e⟩ := hessSeq_succ hs ha he A (show k + 2 < n by omega)
    rw [e]
    rcases Nat.lt_or_ge i k with h | h
    · simp only
      rw [house_row hp.low _ _ _ (by simp only; omega), house_col hp.low _ _ _ (by simp only; omega)]
      exact ih h (by omega)
    · obtain rfl : i = k := by omega
      simp only
      rw [pass_col hp.low _ _ _ (by simp only; omega)]
      have h1 := tail_house hp.low (fun r => (hessSeq eps sqrt abs A i).2 r ⟨i, by omega⟩) (Nat.le_refl i)
      have h2 : 0 ≤ 4 * norm (star v ⬝ᵥ fun r => (hessSeq eps sqrt abs A i).2 r ⟨i, by omega⟩) * (1 - sqC v) :=
        mul_nonneg (mul_nonneg (by norm_num) (norm_nonneg _)) (by have := hp.le; linarith)
      have h3 := Finset.single_le_sum (f := fun r : Fin n => if r.val ≤ i then 0 else
          norm ((house v *ᵥ fun r => (hessSeq eps sqrt abs A i).2 r ⟨i, by omega⟩) r))
        (fun r _ => by split_ifs; exacts [le_refl _, norm_nonneg _]) (Finset.mem_univ (⟨i + 1, by omega⟩ : Fin n))
      dsimp only at h3
      rw [if_neg (by omega)] at h3
      refine le_trans h3 ?_
      change tailSqC i (house v *ᵥ fun r => (hessSeq eps sqrt abs A i).2 r ⟨i, by omega⟩) ≤ _
      rw [h1]; linarith

end Eigen
end Malg
