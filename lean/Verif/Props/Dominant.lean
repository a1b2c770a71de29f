import Verif.Props.FloatLu
import Verif.Props.Lu
/-!
# Property C136: `lu_decomposition` of diagonally dominant matrices
-/
namespace Malg
open Ops Lin

section
variable {K : Type} [Field K] [LinearOrder K] [IsStrictOrderedRing K]

/-- What is left of entry `(r, j)` after `k` columns of `l` and rows of `v`. -/
def red (α l v : Nat → Nat → K) (k r j : Nat) : K := α r j - ∑ m ∈ Finset.range k, l r m * v m j

omit [LinearOrder K] [IsStrictOrderedRing K] in
theorem red_succ (α l v : Nat → Nat → K) (k r j : Nat) : red α l v (k + 1) r j = red α l v k r j - l r k * v k j := by
  unfold red; rw [Finset.sum_range_succ]; ring

/-- By how much the product of the factors differs from the matrix. -/
def dev (α l v : Nat → Nat → K) (r j : Nat) : K := if j ≤ r then l r j - red α l v j r j else l r r * v r j - red α l v r r j

/-- The errors allowed in row sums `ρ`. -/
def domErr (n : Nat) (γ ν ρ : K) : K := γ * (2 * n + 1) * ρ + n * ν * (1 + 2 * ρ)

/-- After `k` steps. -/
structure DomInv (n : Nat) (α l v : Nat → Nat → K) (γ ν : K) (ρ g : Nat → K) (k : Nat) : Prop where
  su : ∀ m, m < k → ∑ j ∈ Finset.Ico (m + 1) n, |v m j| ≤ 1
  sl : ∀ m, m < k → ∀ r, m ≤ r → r < n → |l r m| ≤ 2 * ρ r
  dom : ∀ r, k ≤ r → r < n → ∑ j ∈ (Finset.Ico k n).erase r, |red α l v k r j| + g r ≤ |red α l v k r r| + ∑ m ∈ Finset.range k, |dev α l v r m|
  sum : ∀ r, k ≤ r → r < n → ∑ j ∈ Finset.Ico k n, |red α l v k r j| ≤ ρ r + ∑ m ∈ Finset.range k, |dev α l v r m|
  row : ∀ m, m < k → ∑ j ∈ Finset.range n, |dev α l v m j| ≤ domErr n γ ν (ρ m) ∧ g m - domErr n γ ν (ρ m) ≤ |l m m|

variable {n : Nat} {α l v : Nat → Nat → K} {γ ν : K} {ρ g : Nat → K} {k : Nat}

theorem double_sum_le {ρ' : K} (hsu : ∀ m, m < k → ∑ j ∈ Finset.Ico (m + 1) n, |v m j| ≤ 1) {y : Nat → K} (hy : ∀ m, m < k → |y m| ≤ 2 * ρ') {p : Nat} (hp : p ≤ n)
    (hk : k ≤ n) (hρ : 0 ≤ ρ') : ∑ j ∈ Finset.range p, ∑ m ∈ Finset.range (min j k), |y m| * |v m j| ≤ 2 * n * ρ' := by
  have h1 : ∀ j, ∑ m ∈ Finset.range (min j k), |y m| * |v m j| = ∑ m ∈ Finset.range k, if m < j then |y m| * |v m j| else 0 := by
    intro j
    rw [← Finset.sum_filter]
    refine Finset.sum_congr ?_ fun _ _ => rfl
    ext m
    simp only [Finset.mem_range, Finset.mem_filter]
    omega
  simp only [h1]
  rw [Finset.sum_comm]
  have h2 : ∀ m ∈ Finset.range k, (∑ j ∈ Finset.range p, if m < j then |y m| * |v m j| else 0) ≤ 2 * ρ' := by
    intro m hm
    have hm := Finset.mem_range.1 hm
    rw [← Finset.sum_filter, ← Finset.mul_sum]
    have h3 : ∑ j ∈ (Finset.range p).filter (m < ·), |v m j| ≤ 1 := by
      refine le_trans (Finset.sum_le_sum_of_subset_of_nonneg ?_ fun _ _ _ => abs_nonneg _) (hsu m hm)
      intro j hj
      simp only [Finset.mem_range, Finset.mem_filter] at hj
      exact Finset.mem_Ico.2 ⟨by omega, by omega⟩
    have h4 := mul_le_mul (hy m hm) h3 (Finset.sum_nonneg fun _ _ => abs_nonneg _) (by positivity)
    linarith
  refine (Finset.sum_le_sum h2).trans ?_
  rw [Finset.sum_const, Finset.card_range, nsmul_eq_mul]
  have : (k : K) ≤ n := by exact_mod_cast hk
  nlinarith

/-- The next column of `l`. -/
theorem DomInv.col (h : DomInv n α l v γ ν ρ g k) (hk : k < n) (hγ : 0 ≤ γ) (hν : 0 ≤ ν) (hρ : ∀ r, r < n → ∑ j ∈ Finset.range n, |α r j| ≤ ρ r)
    (hgr : ∀ r, r < n → g r ≤ ρ r) (hg : ∀ r, r < n → domErr n γ ν (ρ r) < g r)
    (hl : ∀ r c, r < n → c ≤ k → c ≤ r → |dev α l v r c| ≤ γ * (|α r c| + ∑ m ∈ Finset.range c, |l r m| * |v m c|) + ν) :
    ∀ r, k ≤ r → r < n → ∑ m ∈ Finset.range (k + 1), |dev α l v r m| ≤ domErr n γ ν (ρ r) ∧ |l r k| ≤ 2 * ρ r ∧
      g r ≤ |red α l v k r r| + ∑ m ∈ Finset.range k, |dev α l v r m| := by
  intro r hkr hr
  have hρ0 : 0 ≤ ρ r := (Finset.sum_nonneg fun _ _ => abs_nonneg _).trans (hρ r hr)
  have hn0 : (0 : K) ≤ n := Nat.cast_nonneg n
  have h1 : ∑ m ∈ Finset.range (k + 1), |dev α l v r m| ≤ domErr n γ ν (ρ r) := by
    have h2 : ∀ c ∈ Finset.range (k + 1), |dev α l v r c| ≤ γ * (|α r c| + ∑ m ∈ Finset.range (min c k), |l r m| * |v m c|) + ν := by
      intro c hc
      have hc := Finset.mem_range.1 hc
      rw [min_eq_left (by omega)]
      exact hl r c hr (by omega) (by omega)
    refine (Finset.sum_le_sum h2).trans ?_
    rw [Finset.sum_add_distrib, ← Finset.mul_sum, Finset.sum_add_distrib, Finset.sum_const, Finset.card_range, nsmul_eq_mul]
    have h3 : ∑ c ∈ Finset.range (k + 1), |α r c| ≤ ρ r :=
      le_trans (Finset.sum_le_sum_of_subset_of_nonneg (Finset.range_mono (by omega)) fun _ _ _ => abs_nonneg _) (hρ r hr)
    have h4 := double_sum_le (v := v) (k := k) (n := n) (ρ' := ρ r) h.su (y := l r) (fun m hm => h.sl m hm r (by omega) hr) (p := k + 1) (by omega) hk.le hρ0
    have h5 := mul_le_mul_of_nonneg_left (add_le_add h3 h4) hγ
    have h6 : ((k + 1 : ℕ) : K) ≤ n := by exact_mod_cast hk
    have h7 := mul_le_mul_of_nonneg_right h6 hν
    have h8 : 0 ≤ n * ν * (2 * ρ r) := by positivity
    unfold domErr
    linarith
  have hd := h.dom r hkr hr
  have hs := h.sum r hkr hr
  rw [Finset.sum_range_succ] at h1
  refine ⟨by rwa [Finset.sum_range_succ], ?_, ?_⟩
  · have e : l r k = dev α l v r k + red α l v k r k := by unfold dev; rw [if_pos hkr]; ring
    have h2 := Finset.single_le_sum (f := fun j => |red α l v k r j|) (fun j _ => abs_nonneg _) (Finset.mem_Ico.2 ⟨le_rfl, hk⟩)
    have h3 := abs_add_le (dev α l v r k) (red α l v k r k)
    rw [← e] at h3
    have := hg r hr
    have := hgr r hr
    linarith
  · have : 0 ≤ ∑ j ∈ (Finset.Ico k n).erase r, |red α l v k r j| := Finset.sum_nonneg fun _ _ => abs_nonneg _
    linarith

/-- The pivot. -/
theorem DomInv.pivot (h : DomInv n α l v γ ν ρ g k) (hk : k < n) (hγ : 0 ≤ γ) (hν : 0 ≤ ν) (hρ : ∀ r, r < n → ∑ j ∈ Finset.range n, |α r j| ≤ ρ r)
    (hgr : ∀ r, r < n → g r ≤ ρ r) (hg : ∀ r, r < n → domErr n γ ν (ρ r) < g r)
    (hl : ∀ r c, r < n → c ≤ k → c ≤ r → |dev α l v r c| ≤ γ * (|α r c| + ∑ m ∈ Finset.range c, |l r m| * |v m c|) + ν) :
    g k - domErr n γ ν (ρ k) ≤ |l k k| := by
  obtain ⟨h1, h2, h3⟩ := h.col hk hγ hν hρ hgr hg hl k le_rfl hk
  have e : red α l v k k k = l k k - dev α l v k k := by unfold dev; rw [if_pos le_rfl]; ring
  have h4 := abs_sub (l k k) (dev α l v k k)
  rw [← e] at h4
  rw [Finset.sum_range_succ] at h1
  linarith

/-- The next step. -/
theorem DomInv.step (h : DomInv n α l v γ ν ρ g k) (hk : k < n) (hγ : 0 ≤ γ) (hν : 0 ≤ ν) (hρ : ∀ r, r < n → ∑ j ∈ Finset.range n, |α r j| ≤ ρ r)
    (hgr : ∀ r, r < n → g r ≤ ρ r) (hg : ∀ r, r < n → domErr n γ ν (ρ r) < g r)
    (hl : ∀ r c, r < n → c ≤ k → c ≤ r → |dev α l v r c| ≤ γ * (|α r c| + ∑ m ∈ Finset.range c, |l r m| * |v m c|) + ν)
    (hv : ∀ c, c < n → k < c → |dev α l v k c| ≤ γ * (|α k c| + ∑ m ∈ Finset.range k, |l k m| * |v m c|) + ν * (1 + |l k k|)) :
    DomInv n α l v γ ν ρ g (k + 1) := by
  have hcol := h.col hk hγ hν hρ hgr hg hl
  have hpiv := h.pivot hk hγ hν hρ hgr hg hl
  have hρ0 : 0 ≤ ρ k := (Finset.sum_nonneg fun _ _ => abs_nonneg _).trans (hρ k hk)
  have hn0 : (0 : K) ≤ n := Nat.cast_nonneg n
  have hlpos : 0 < |l k k| := by have := hg k hk; linarith
  -- all of row `k`
  have hrow : ∑ j ∈ Finset.range n, |dev α l v k j| ≤ domErr n γ ν (ρ k) := by
    have h2 : ∀ c ∈ Finset.range n, |dev α l v k c| ≤ γ * (|α k c| + ∑ m ∈ Finset.range (min c k), |l k m| * |v m c|) + ν * (1 + 2 * ρ k) := by
      intro c hc
      have hc := Finset.mem_range.1 hc
      have h0 : 0 ≤ ν * (2 * ρ k) := by positivity
      by_cases hck : c ≤ k
      · rw [min_eq_left hck]
        refine (hl k c hk hck hck).trans (add_le_add le_rfl ?_)
        linarith
      · rw [min_eq_right (by omega)]
        refine (hv c hc (by omega)).trans (add_le_add le_rfl ?_)
        exact mul_le_mul_of_nonneg_left (by linarith [(hcol k le_rfl hk).2.1]) hν
    refine (Finset.sum_le_sum h2).trans ?_
    rw [Finset.sum_add_distrib, ← Finset.mul_sum, Finset.sum_add_distrib, Finset.sum_const, Finset.card_range, nsmul_eq_mul]
    have h4 := double_sum_le (v := v) (k := k) (n := n) (ρ' := ρ k) h.su (y := l k) (fun m hm => h.sl m hm k (by omega) hk) (p := n) le_rfl hk.le hρ0
    have h5 := mul_le_mul_of_nonneg_left (add_le_add (hρ k hk) h4) hγ
    unfold domErr
    linarith
  -- row `k` of `v`
  have hsu : ∑ j ∈ Finset.Ico (k + 1) n, |v k j| ≤ 1 := by
    refine le_of_mul_le_mul_left ?_ hlpos
    rw [mul_one, Finset.mul_sum]
    have h1 : ∀ j ∈ Finset.Ico (k + 1) n, |l k k| * |v k j| ≤ |red α l v k k j| + |dev α l v k j| := by
      intro j hj
      have hj := (Finset.mem_Ico.1 hj).1
      rw [← abs_mul]
      have e : l k k * v k j = red α l v k k j + dev α l v k j := by unfold dev; rw [if_neg (by omega)]; ring
      rw [e]
      exact abs_add_le _ _
    refine (Finset.sum_le_sum h1).trans ?_
    rw [Finset.sum_add_distrib]
    have h2 := h.dom k le_rfl hk
    have e2 : (Finset.Ico k n).erase k = Finset.Ico (k + 1) n := by
      ext j; simp only [Finset.mem_erase, Finset.mem_Ico]; omega
    rw [e2] at h2
    have h3 : ∑ m ∈ Finset.range k, |dev α l v k m| + |dev α l v k k| + ∑ j ∈ Finset.Ico (k + 1) n, |dev α l v k j| = ∑ j ∈ Finset.range n, |dev α l v k j| := by
      rw [← Finset.sum_range_succ, Finset.sum_range_add_sum_Ico _ (by omega)]
    have e : red α l v k k k = l k k - dev α l v k k := by unfold dev; rw [if_pos le_rfl]; ring
    have h4 := abs_sub (l k k) (dev α l v k k)
    rw [← e] at h4
    have := hg k hk
    linarith
  have hlast : ∀ m, m < k + 1 → m = k ∨ m < k := fun m hm => by omega
  -- the rows below
  have hrest : ∀ r, k + 1 ≤ r → r < n → ∀ s : Finset Nat, s ⊆ Finset.Ico (k + 1) n →
      ∑ j ∈ s, |red α l v (k + 1) r j| ≤ ∑ j ∈ s, |red α l v k r j| + |l r k| * ∑ j ∈ s, |v k j| := by
    intro r _ _ s _
    rw [Finset.mul_sum, ← Finset.sum_add_distrib]
    refine Finset.sum_le_sum fun j _ => ?_
    rw [red_succ, ← abs_mul]
    exact abs_sub _ _
  have hsplit : ∀ r, k ≤ r → |l r k| ≤ |red α l v k r k| + |dev α l v r k| := by
    intro r hr
    have e : l r k = red α l v k r k + dev α l v r k := by unfold dev; rw [if_pos hr]; ring
    have := abs_add_le (red α l v k r k) (dev α l v r k)
    rwa [← e] at this
  refine ⟨fun m hm => ?_, fun m hm r hmr hr => ?_, fun r hkr hr => ?_, fun r hkr hr => ?_, fun m hm => ?_⟩
  · rcases hlast m hm with rfl | hm
    · exact hsu
    · exact h.su m hm
  · rcases hlast m hm with rfl | hm
    · exact (hcol r hmr hr).2.1
    · exact h.sl m hm r hmr hr
  · have h1 := h.dom r (by omega) hr
    have h2 := hrest r hkr hr ((Finset.Ico (k + 1) n).erase r) (Finset.erase_subset _ _)
    have h3 := hsplit r (by omega)
    have e1 : (Finset.Ico k n).erase r = insert k ((Finset.Ico (k + 1) n).erase r) := by
      ext j; simp only [Finset.mem_erase, Finset.mem_Ico, Finset.mem_insert]; omega
    rw [e1, Finset.sum_insert (by simp)] at h1
    have e2 : ∑ j ∈ (Finset.Ico (k + 1) n).erase r, |v k j| + |v k r| = ∑ j ∈ Finset.Ico (k + 1) n, |v k j| :=
      Finset.sum_erase_add _ _ (Finset.mem_Ico.2 ⟨hkr, hr⟩)
    have h4 : |l r k| * (∑ j ∈ (Finset.Ico (k + 1) n).erase r, |v k j| + |v k r|) ≤ |l r k| * 1 :=
      mul_le_mul_of_nonneg_left (e2 ▸ hsu) (abs_nonneg _)
    have h5 : |red α l v k r r| ≤ |red α l v (k + 1) r r| + |l r k| * |v k r| := by
      have e : red α l v k r r = red α l v (k + 1) r r + l r k * v k r := by rw [red_succ]; ring
      rw [e, ← abs_mul]
      exact abs_add_le _ _
    rw [Finset.sum_range_succ]
    linarith
  · have h1 := h.sum r (by omega) hr
    have h2 := hrest r hkr hr (Finset.Ico (k + 1) n) (Finset.Subset.refl _)
    have h3 := hsplit r (by omega)
    rw [Finset.sum_eq_sum_Ico_succ_bot hk] at h1
    have h4 := mul_le_mul_of_nonneg_left hsu (abs_nonneg (l r k))
    rw [Finset.sum_range_succ]
    linarith
  · rcases hlast m hm with rfl | hm
    · exact ⟨hrow, hpiv⟩
    · exact h.row m hm

/-- All steps. -/
theorem domInv {i : Nat} (hi : i ≤ n) (hγ : 0 ≤ γ) (hν : 0 ≤ ν) (hdom : ∀ r, r < n → ∑ j ∈ (Finset.range n).erase r, |α r j| + g r ≤ |α r r|)
    (hρ : ∀ r, r < n → ∑ j ∈ Finset.range n, |α r j| ≤ ρ r)
    (hgr : ∀ r, r < n → g r ≤ ρ r) (hg : ∀ r, r < n → domErr n γ ν (ρ r) < g r)
    (hl : ∀ r c, r < n → c < i → c ≤ r → |dev α l v r c| ≤ γ * (|α r c| + ∑ m ∈ Finset.range c, |l r m| * |v m c|) + ν)
    (hv : ∀ r c, r < i → c < n → r < c → |dev α l v r c| ≤ γ * (|α r c| + ∑ m ∈ Finset.range r, |l r m| * |v m c|) + ν * (1 + |l r r|)) :
    DomInv n α l v γ ν ρ g i := by
  have key : ∀ k, k ≤ i → DomInv n α l v γ ν ρ g k := by
    intro k
    induction k with
    | zero =>
      intro _
      refine ⟨fun m hm => absurd hm (by omega), fun m hm => absurd hm (by omega), fun r _ hr => ?_, fun r _ hr => ?_, fun m hm => absurd hm (by omega)⟩
      · have := hdom r hr
        rw [← Finset.range_eq_Ico, Finset.sum_range_zero, add_zero]
        simpa [red] using this
      · rw [← Finset.range_eq_Ico, Finset.sum_range_zero, add_zero]
        simpa [red] using hρ r hr
    | succ k ih =>
      intro hk
      exact (ih (by omega)).step (by omega) hγ hν hρ hgr hg (fun r c hr hc hcr => hl r c hr (by omega) hcr) (fun c hc hkc => hv k c (by omega) hc hkc)
  exact key i le_rfl

end

section
variable {T K : Type} [Zero T] [One T] [Add T] [Sub T] [Mul T] [CDiv T] [Field K] [LinearOrder K] [IsStrictOrderedRing K]
  {val : T → K} {u η : K} (R : Rounds val u η)
include R

omit [One T] in
/-- The error of an entry of the lower factor. -/
theorem lu_low_err {n r c : Nat} {a l v : Nat → Nat → T} (hc : c < n) (hcr : c ≤ r) (e : l r c = lsub (a r c) c fun k => l r k * v k c) :
    |dev (fun i j => val (a i j)) (fun i j => val (l i j)) (fun i j => val (v i j)) r c| ≤
      ((1 + u) ^ n - 1) * (|val (a r c)| + ∑ m ∈ Finset.range c, |val (l r m)| * |val (v m c)|) + n * (1 + u) ^ n * η := by
  have hu := R.u_nonneg
  have hη := R.η_nonneg
  have h1u : (1 : K) ≤ 1 + u := by linarith
  have hpown : ∀ k, k ≤ n → (1 + u) ^ k ≤ (1 + u) ^ n := fun k hk => pow_le_pow_right₀ h1u hk
  have := lsub_err R (x := a r c) (ξ := val (a r c)) (t := fun k => l r k * v k c) (τ := fun k => val (l r k) * val (v k c))
    (a := 1) (k := c) hη (by rw [sub_self, abs_zero, pow_one, add_sub_cancel_left]; positivity)
    (fun k _ => by rw [pow_one, add_sub_cancel_left]; exact R.mul _ _)
  rw [← e] at this
  simp only [abs_mul] at this
  unfold dev red
  rw [if_pos hcr]
  refine this.trans (add_le_add ?_ ?_)
  · apply mul_le_mul_of_nonneg_right
    · have := hpown (1 + c) (by omega); linarith
    · have : 0 ≤ ∑ k ∈ Finset.range c, |val (l r k)| * |val (v k c)| :=
        Finset.sum_nonneg fun k _ => mul_nonneg (abs_nonneg _) (abs_nonneg _)
      positivity
  · have h3 : ((c : K) + 1) ≤ n := by exact_mod_cast hc
    exact mul_le_mul_of_nonneg_right (mul_le_mul h3 (hpown c hc.le) (by positivity) (Nat.cast_nonneg n)) hη

omit [One T] in
/-- The error of an entry of the upper factor. -/
theorem lu_up_err {n r c : Nat} {a l v : Nat → Nat → T} (hc : c < n) (hrc : r < c) (hp : val (l r r) ≠ 0)
    (e : v r c = lsub (quo (a r c) (l r r)) r fun k => quo (l r k * v k c) (l r r)) :
    |dev (fun i j => val (a i j)) (fun i j => val (l i j)) (fun i j => val (v i j)) r c| ≤
      ((1 + u) ^ n - 1) * (|val (a r c)| + ∑ m ∈ Finset.range r, |val (l r m)| * |val (v m c)|) + n * (1 + u) ^ n * η * (1 + |val (l r r)|) := by
  have hu := R.u_nonneg
  have hη := R.η_nonneg
  have h1u : (1 : K) ≤ 1 + u := by linarith
  have hpown : ∀ k, k ≤ n → (1 + u) ^ k ≤ (1 + u) ^ n := fun k hk => pow_le_pow_right₀ h1u hk
  have hp' := abs_pos.2 hp
  have hε : 0 ≤ (1 + u) * η / |val (l r r)| + η := by positivity
  obtain ⟨q, hq1, hq2⟩ := R.div (a r c) (l r r) hp
  have hq : quo (a r c) (l r r) = q := by unfold quo; rw [hq1]
  have := lsub_err R (x := quo (a r c) (l r r)) (ξ := val (a r c) / val (l r r)) (t := fun k => quo (l r k * v k c) (l r r))
    (τ := fun k => val (l r k) * val (v k c) / val (l r r)) (a := 2) (k := r) hε
    (by
      rw [hq]
      have h3 := abs_nonneg (val (a r c) / val (l r r))
      have h4 : 0 ≤ (1 + u) * η / |val (l r r)| := by positivity
      have h5 := mul_nonneg (mul_nonneg hu (by linarith : 0 ≤ 1 + u)) h3
      have e : (1 + u) ^ 2 - 1 = u + u * (1 + u) := by ring
      rw [e, add_mul]
      linarith)
    (fun k _ => quo_mul_err R hp)
  rw [← e] at this
  have h3 := mul_le_mul_of_nonneg_left this hp'.le
  rw [← abs_mul, mul_sub, mul_sub, mul_div_cancel₀ _ hp, ← Finset.sum_div, mul_div_cancel₀ _ hp] at h3
  simp only [abs_div, abs_mul] at h3
  rw [← Finset.sum_div, ← add_div, mul_add, ← mul_assoc, mul_comm |val (l r r)| ((1 + u) ^ (2 + r) - 1), mul_assoc,
    mul_div_cancel₀ _ hp'.ne'] at h3
  unfold dev red
  rw [if_neg (by omega)]
  refine h3.trans (add_le_add ?_ ?_)
  · apply mul_le_mul_of_nonneg_right
    · have := hpown (2 + r) (by omega); linarith
    · have : 0 ≤ ∑ k ∈ Finset.range r, |val (l r k)| * |val (v k c)| :=
        Finset.sum_nonneg fun k _ => mul_nonneg (abs_nonneg _) (abs_nonneg _)
      positivity
  · have h4 : ((r : K) + 1) ≤ n := by exact_mod_cast (by omega : r + 1 ≤ n)
    have h5 : (1 + u) ^ (r + 1) ≤ (1 + u) ^ n := hpown _ (by omega)
    have e : |val (l r r)| * ((r + 1) * (1 + u) ^ r * ((1 + u) * η / |val (l r r)| + η)) =
        (r + 1) * ((1 + u) ^ (r + 1) + (1 + u) ^ r * |val (l r r)|) * η := by
      rw [pow_succ]; field_simp
    rw [e]
    have h6 : (1 + u) ^ r ≤ (1 + u) ^ n := hpown _ (by omega)
    calc ((r : K) + 1) * ((1 + u) ^ (r + 1) + (1 + u) ^ r * |val (l r r)|) * η
        ≤ n * ((1 + u) ^ n + (1 + u) ^ n * |val (l r r)|) * η :=
          mul_le_mul_of_nonneg_right (mul_le_mul h4 (add_le_add h5 (mul_le_mul_of_nonneg_right h6 hp'.le)) (by positivity) (Nat.cast_nonneg n)) hη
      _ = _ := by ring

/-- C136: the decomposition of a matrix that is diagonally dominant by more than the rounding errors returns. The product of the factors (in
exact arithmetic) differs from the matrix by at most `E i` in row `i`, the entries of the lower factor are at most twice the row sums of the
matrix, its pivots are at least the dominance less `E i`, and the rows of the upper factor sum to at most one beside its diagonal. -/
theorem C136_rounded (one : val 1 = 1) (hz : ∀ y : T, val y = 0 → ∀ x, cdiv x y = .ub .divZero)
    {A : MB T} {n : Nat} {M : Matrix (Fin n) (Fin n) T} (hA : A.Is M) {E : Fin n → K}
    (hE : ∀ i, ((1 + u) ^ n - 1) * (2 * n + 1) * ∑ j, |val (M i j)| + n ^ 2 * (1 + u) ^ n * η * (1 + 2 * ∑ j, |val (M i j)|) ≤ E i)
    (hdom : ∀ i, ∑ j ∈ Finset.univ.erase i, |val (M i j)| + E i < |val (M i i)|) :
    ∃ L U, lu A = .ok (L, U) ∧ ∃ ML MU : Matrix (Fin n) (Fin n) T, L.WF ∧ U.WF ∧ L.toMB.Is ML ∧ U.toMB.Is MU ∧ (∀ i j, i < j → ML i j = 0) ∧
      (∀ i j, j < i → MU i j = 0) ∧ (∀ i, MU i i = 1) ∧ ∀ i,
        ∑ j, |(ML.map val * MU.map val) i j - val (M i j)| ≤ E i ∧ (∀ k, |val (ML i k)| ≤ 2 * ∑ j, |val (M i j)|) ∧
        |val (M i i)| - ∑ j ∈ Finset.univ.erase i, |val (M i j)| - E i ≤ |val (ML i i)| ∧
        ∑ j ∈ Finset.univ.erase i, |val (MU i j)| ≤ 1 := by
  have hu := R.u_nonneg
  have hη := R.η_nonneg
  have h1u : (1 : K) ≤ 1 + u := by linarith
  obtain ⟨a, h, rfl⟩ := hA
  have hdiv : ∀ y : T, Divisor y ∨ ∀ x, cdiv x y = .ub .divZero := by
    intro y
    by_cases hy : val y = 0
    · exact .inr (hz y hy)
    · left
      intro x
      obtain ⟨z, h1, -⟩ := R.div x y hy
      rw [h1]; unfold quo; rw [h1]
  have hne : ∀ y : T, Divisor y → val y ≠ 0 := fun y hy h0 => by
    have := hy 0
    rw [hz _ h0] at this; cases this
  have hγ : 0 ≤ (1 + u) ^ n - 1 := by have := one_le_pow₀ (n := n) h1u; linarith
  have hν : 0 ≤ n * (1 + u) ^ n * η := by positivity
  set α : Nat → Nat → K := fun i j => val (a i j) with hα
  set ρ : Nat → K := fun r => ∑ j ∈ Finset.range n, |α r j| with hρ
  set g : Nat → K := fun r => 2 * |α r r| - ρ r with hg
  have hρM : ∀ i : Fin n, ∑ j, |val (toM n n a i j)| = ρ i := fun i => (Finset.sum_range fun j => |α i j|).symm
  have hgM : ∀ i : Fin n, |val (toM n n a i i)| - ∑ j ∈ Finset.univ.erase i, |val (toM n n a i j)| = g i := fun i => by
    have h1 := Finset.sum_erase_add Finset.univ (fun j => |val (toM n n a i j)|) (Finset.mem_univ i)
    rw [hρM i] at h1
    have e : |val (toM n n a i i)| = |α i i| := rfl
    simp only [hg]
    linarith
  have hEr : ∀ i : Fin n, domErr n ((1 + u) ^ n - 1) (n * (1 + u) ^ n * η) (ρ i) ≤ E i := fun i => by
    refine le_trans (le_of_eq ?_) (hE i)
    rw [hρM i]
    unfold domErr
    ring
  have hdom' : ∀ r, r < n → ∑ j ∈ (Finset.range n).erase r, |α r j| + g r ≤ |α r r| := fun r hr => by
    have h1 := Finset.sum_erase_add (Finset.range n) (fun j => |α r j|) (Finset.mem_range.2 hr)
    simp only [hg, hρ]
    linarith
  have hgr : ∀ r, r < n → g r ≤ ρ r := fun r hr => by
    have h1 := Finset.single_le_sum (f := fun j => |α r j|) (fun j _ => abs_nonneg _) (Finset.mem_range.2 hr)
    simp only [hg]
    linarith
  have hgE : ∀ r, r < n → domErr n ((1 + u) ^ n - 1) (n * (1 + u) ^ n * η) (ρ r) < g r := fun r hr => by
    have h1 := hdom ⟨r, hr⟩
    have h2 := hgM ⟨r, hr⟩
    have h3 := hEr ⟨r, hr⟩
    dsimp only at h2 h3
    linarith
  rcases lu_exec_stop h.toRepAt hdiv with ⟨l, v, e, h2⟩ | ⟨-, i, l, v, hs⟩
  swap
  · have hlow : ∀ r c, r < n → c ≤ i → c ≤ r → _ := fun r c hr hc hcr => lu_low_err R (n := n) (by have := hs.lt; omega) hcr (hs.l_low r c hr hc hcr)
    have hinv : DomInv n α (fun i j => val (l i j)) (fun i j => val (v i j)) _ _ ρ g i := domInv (by have := hs.lt; omega) hγ hν hdom' (fun _ _ => le_rfl) hgr hgE
      (fun r c hr hc hcr => hlow r c hr hc.le hcr) (fun r c hr hc hrc => lu_up_err R hc hrc (hne _ (hs.piv r hr)) (hs.u_up r c hr hc hrc))
    have hin : i < n := by have := hs.lt; omega
    have h3 := hinv.pivot hin hγ hν (fun _ _ => le_rfl) hgr hgE hlow
    have h4 := hgE i hin
    exfalso
    refine hs.stop ((hdiv (l i i)).resolve_right fun h5 => ?_)
    have h6 : val (l i i) ≠ 0 := abs_pos.1 (by linarith)
    obtain ⟨z, h7, -⟩ := R.div 0 (l i i) h6
    rw [h5] at h7; cases h7
  have hhv : ∀ r c, r < n → c < n → r < c → _ := fun r c hr hc hrc =>
    lu_up_err R hc hrc (hne _ (h2.piv r hr (by omega))) (h2.u_up r c hr hc hrc)
  have hinv : DomInv n α (fun i j => val (l i j)) (fun i j => val (v i j)) _ _ ρ g n := domInv le_rfl hγ hν hdom' (fun _ _ => le_rfl) hgr hgE
    (fun r c hr hc hcr => lu_low_err R hc hcr (h2.l_low r c hr hc hcr)) hhv
  refine ⟨_, _, e, toM n n l, toM n n v, (ofFn_holds h.fits l).wf, (ofFn_holds h.fits v).wf, (ofFn_rep h.fits l).is, (ofFn_rep h.fits v).is,
    fun i j hij => h2.l_up i j i.2 j.2 hij, fun i j hij => h2.u_low i j i.2 j.2 hij, fun i => h2.u_one i i.2, fun i => ?_⟩
  obtain ⟨hr1, hr2⟩ := hinv.row i i.2
  have hEi := hEr i
  refine ⟨?_, fun k => ?_, ?_, ?_⟩
  · refine le_trans (le_of_eq ?_) (hr1.trans hEi)
    rw [Finset.sum_range]
    refine Finset.sum_congr rfl fun j _ => congrArg _ ?_
    rw [Matrix.mul_apply]
    simp only [Matrix.map_apply, toM_apply]
    rw [← Finset.sum_range (fun k => val (l i k) * val (v k j))]
    have hcut : ∀ (m : Nat) (f : Nat → K), m < n → (∀ k, m < k → k < n → f k = 0) →
        ∑ k ∈ Finset.range n, f k = ∑ k ∈ Finset.range m, f k + f m := by
      intro m f hm h0
      rw [← Finset.sum_range_add_sum_Ico _ (show m + 1 ≤ n by omega), Finset.sum_range_succ,
        Finset.sum_eq_zero (s := Finset.Ico (m + 1) n), add_zero]
      intro k hk
      have := Finset.mem_Ico.1 hk
      exact h0 k (by omega) (by omega)
    unfold dev red
    by_cases hij : (j : Nat) ≤ i
    · rw [if_pos hij, hcut j _ j.2 (fun k h3 h4 => by rw [h2.u_low k j h4 j.2 h3, R.zero, mul_zero]), h2.u_one j j.2, one, mul_one]
      ring
    · rw [if_neg hij, hcut i _ i.2 (fun k h3 h4 => by rw [h2.l_up i k i.2 h4 h3, R.zero, zero_mul])]
      ring
  · rw [hρM i, toM_apply]
    by_cases hki : (k : Nat) ≤ i
    · exact hinv.sl k k.2 i hki i.2
    · rw [h2.l_up i k i.2 k.2 (by omega), R.zero, abs_zero]
      have : 0 ≤ ρ i := Finset.sum_nonneg fun _ _ => abs_nonneg _
      linarith
  · rw [hgM i]
    refine le_trans ?_ hr2
    linarith
  · have h3 := hinv.su i i.2
    refine le_trans (le_of_eq ?_) h3
    have h4 := Finset.sum_erase_add Finset.univ (fun j : Fin n => |val (toM n n v i j)|) (Finset.mem_univ i)
    have h5 : ∑ j : Fin n, |val (toM n n v i j)| = ∑ j ∈ Finset.range n, |val (v i j)| := (Finset.sum_range fun j => |val (v i j)|).symm
    rw [h5, ← Finset.sum_range_add_sum_Ico _ (show (i : Nat) + 1 ≤ n by omega), Finset.sum_range_succ, Finset.sum_eq_zero (s := Finset.range i), zero_add] at h4
    · have e : |val (toM n n v i i)| = |val (v i i)| := rfl
      rw [e] at h4
      linarith
    · intro k hk
      have := Finset.mem_range.1 hk
      rw [h2.u_low i k i.2 (by omega) this, R.zero, abs_zero]

end

/-- Exact arithmetic. -/
theorem exact_rounds {K : Type} [Field K] [LinearOrder K] [IsStrictOrderedRing K] : Rounds (fun x : K => x) 0 0 where
  u_nonneg := le_rfl
  η_nonneg := le_rfl
  zero := rfl
  zero_add x := zero_add x
  add x y := by simp
  sub x y := by simp
  mul x y := by simp
  div x y hy := ⟨x / y, if_neg hy, by simp⟩

/-- C136 in exact arithmetic: every strictly diagonally dominant matrix is decomposed, and its determinant (the product of the pivots) is at
least the product of the dominances. -/
theorem C136_exact {K : Type} [Field K] [LinearOrder K] [IsStrictOrderedRing K] {A : MB K} {n : Nat} {M : Matrix (Fin n) (Fin n) K} (hA : A.Is M)
    (hdom : ∀ i, ∑ j ∈ Finset.univ.erase i, |M i j| < |M i i|) :
    ∃ L U, lu A = .ok (L, U) ∧ ∃ ML MU : Matrix (Fin n) (Fin n) K, L.toMB.Is ML ∧ U.toMB.Is MU ∧ ML * MU = M ∧ M.det = ∏ i, ML i i ∧
      (∀ i, |M i i| - ∑ j ∈ Finset.univ.erase i, |M i j| ≤ |ML i i|) ∧
      ∏ i, (|M i i| - ∑ j ∈ Finset.univ.erase i, |M i j|) ≤ |M.det| := by
  obtain ⟨L, U, e, ML, MU, -, -, h1, h2, -, -, -, h3⟩ := C136_rounded (exact_rounds (K := K)) rfl (fun y hy x => if_pos hy) hA (E := fun _ => 0)
    (fun i => by simp) (fun i => by rw [add_zero]; exact hdom i)
  have hd := C53_det hA e h1
  refine ⟨L, U, e, ML, MU, h1, h2, ?_, hd, fun i => ?_, ?_⟩
  · ext i j
    have h4 := (h3 i).1
    have h5 := Finset.single_le_sum (f := fun j => |(ML.map (fun x => x) * MU.map (fun x => x)) i j - M i j|) (fun j _ => abs_nonneg _) (Finset.mem_univ j)
    have h6 : |(ML.map (fun x => x) * MU.map (fun x => x)) i j - M i j| ≤ 0 := h5.trans h4
    rw [abs_nonpos_iff, sub_eq_zero] at h6
    exact h6
  · have := (h3 i).2.2.1
    rwa [sub_zero] at this
  · rw [hd, Finset.abs_prod]
    refine Finset.prod_le_prod (fun i _ => ?_) fun i _ => ?_
    · linarith [hdom i]
    · have := (h3 i).2.2.1
      rwa [sub_zero] at this

/-- C136 for `double` (without overflow): it is enough that the diagonal dominates by `n (2 n + 1) 2^-52` times the row sum, and by
`n² 2^-1074 (1 + 2 …)` for underflow. -/
theorem C136_double {A : MB Double} {n : Nat} {M : Matrix (Fin n) (Fin n) Double} (hA : A.Is M) (hn : n ≤ 2 ^ 52) {E : Fin n → ℚ}
    (hE : ∀ i, E i = n * (2 * n + 1) / 2 ^ 52 * ∑ j, |(M i j).val| + n ^ 2 * (1 + 2 * ∑ j, |(M i j).val|) / 2 ^ 1074)
    (hdom : ∀ i, ∑ j ∈ Finset.univ.erase i, |(M i j).val| + E i < |(M i i).val|) :
    ∃ L U, lu A = .ok (L, U) ∧ ∃ ML MU : Matrix (Fin n) (Fin n) Double, L.WF ∧ U.WF ∧ L.toMB.Is ML ∧ U.toMB.Is MU ∧ (∀ i j, i < j → ML i j = 0) ∧
      (∀ i j, j < i → MU i j = 0) ∧ (∀ i, MU i i = 1) ∧ ∀ i,
        ∑ j, |(ML.map Fl.val * MU.map Fl.val) i j - (M i j).val| ≤ E i ∧ (∀ k, |(ML i k).val| ≤ 2 * ∑ j, |(M i j).val|) ∧
        |(M i i).val| - ∑ j ∈ Finset.univ.erase i, |(M i j).val| - E i ≤ |(ML i i).val| ∧
        ∑ j ∈ Finset.univ.erase i, |(MU i j).val| ≤ 1 := by
  obtain ⟨hone, hz⟩ := C84_float (K := ℚ) (p := 53) (emin := -1074) (by norm_num) (by norm_num)
  refine C136_rounded (Fl.rounds ℚ (p := 53) (by norm_num) (-1074)) hone hz hA (fun i => ?_) hdom
  have hu : (2 : ℚ) ^ (-((53 : ℕ) : ℤ)) = 1 / 2 ^ 53 := by norm_num
  rw [hu, two_zpow_emin, hE i]
  generalize hS : ∑ j, |(M i j).val| = S
  have hS0 : 0 ≤ S := by rw [← hS]; exact Finset.sum_nonneg fun _ _ => abs_nonneg _
  have hn0 : (0 : ℚ) ≤ n := Nat.cast_nonneg n
  apply add_le_add
  · have := mul_le_mul_of_nonneg_right (double_factor hn) (mul_nonneg (by linarith : (0 : ℚ) ≤ 2 * n + 1) hS0)
    calc _ = ((1 + 1 / 2 ^ 53 : ℚ) ^ n - 1) * ((2 * n + 1) * S) := by ring
      _ ≤ n / 2 ^ 52 * ((2 * n + 1) * S) := this
      _ = _ := by ring
  · have h9 := double_factor_le hn
    generalize hq : (1 : ℚ) / 2 ^ 1074 = q
    have hq0 : 0 ≤ q := by rw [← hq]; exact div_nonneg zero_le_one (pow_nonneg zero_le_two _)
    rw [div_eq_mul_one_div _ ((2 : ℚ) ^ 1074), hq]
    have h1 : 0 ≤ (n : ℚ) ^ 2 * (1 + 2 * S) * q := by positivity
    have := mul_le_mul_of_nonneg_right h9 h1
    linarith

/-- The dominance has to be strict: a matrix whose diagonal only reaches the sum of the other entries can make the code divide by zero. -/
theorem C136_weak_false : ∃ M : Matrix (Fin 3) (Fin 3) ℚ, (∀ i, ∑ j ∈ Finset.univ.erase i, |M i j| ≤ |M i i|) ∧ (∀ i, M i i ≠ 0) ∧
    ∃ A : Mat ℚ, A.WF ∧ A.toMB.Is M ∧ lu A.toMB = .ub .divZero := by
  have hf : Fits 3 3 := fits_small (by norm_num) (by norm_num)
  refine ⟨toM 3 3 fun r c => if r < 2 ∧ c < 2 ∨ r = c then 1 else 0, by decide +kernel, by decide +kernel, _, (ofFn_holds hf _).wf, (ofFn_rep hf _).is, ?_⟩
  decide +kernel

/-- A tridiagonal matrix in `double`. -/
example : ∃ A : Mat Double, A.WF ∧ ∃ M : Matrix (Fin 3) (Fin 3) Double, A.toMB.Is M ∧
    (∀ i, ∑ j ∈ Finset.univ.erase i, |(M i j).val| + 1 / 2 ^ 40 < |(M i i).val|) ∧
    lu A.toMB = .ok (⟨3, 3, doubles [4, 0, 0, 1, 15 / 4, 0, 0, 1, 56 / 15]⟩, ⟨3, 3, doubles [1, 1 / 4, 0, 0, 1, 4 / 15, 0, 0, 1]⟩) := by
  have hf : Fits 3 3 := fits_small (by norm_num) (by norm_num)
  refine ⟨_, (ofFn_holds hf fun r c => if r = c then Fl.of 53 (-1074) 4 else if r = c + 1 ∨ c = r + 1 then 1 else 0).wf, _, (ofFn_rep hf _).is, ?_, ?_⟩
  · decide +kernel
  · decide +kernel

end Malg
