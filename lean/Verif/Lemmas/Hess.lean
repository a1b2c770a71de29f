import Verif.Lemmas.Givens
/-!
# Complex Householder reflections and the run of `hessenberg`
-/
namespace Malg
open Matrix
namespace Eigen
open Cpx
variable {K : Type} [Field K] [LinearOrder K] [IsStrictOrderedRing K] {n : Nat}

/-- `1 - 2 v v*`. -/
def house (v : Fin n → Cpx K) : Matrix (Fin n) (Fin n) (Cpx K) := 1 - (2 : Cpx K) • vecMulVec v (star v)

/-- The entries of a column below row `k`, the first of them diminished by `t`. -/
def hvec (k : Nat) (x : Fin n → Cpx K) (t : Cpx K) (r : Fin n) : Cpx K :=
  if r.val ≤ k then 0 else if r.val = k + 1 then x r - t else x r

/-- The squared length of the part of a column below row `k`. -/
def tailSqC (k : Nat) (x : Fin n → Cpx K) : K := ∑ r : Fin n, if r.val ≤ k then 0 else norm (x r)

/-- The squared length of a vector. -/
def sqC (u : Fin n → Cpx K) : K := ∑ r : Fin n, norm (u r)

/-- The direction chosen by the code. -/
def rhoOf (eps : K) (abs : Cpx K → K) (xk : Cpx K) : Cpx K := if eps < abs xk then -xk / ofReal (abs xk) else 1

/-- The length by which the code divides. -/
def lenOf (eps : K) (sqrt : K → K) (q : K) : K := if sqrt q < eps then eps else sqrt q

theorem house_apply (v : Fin n → Cpx K) (r c : Fin n) : house v r c = (if r = c then 1 else 0) - v r * 2 * star (v c) := by
  rw [house, Matrix.sub_apply, Matrix.smul_apply, vecMulVec_apply, Matrix.one_apply, smul_eq_mul, Pi.star_apply]
  ring

theorem sum_range_fin {M : Type} [AddCommMonoid M] (n : Nat) (g : Nat → M) : ∑ r ∈ Finset.range n, g r = ∑ r : Fin n, g r :=
  Finset.sum_range g

/-- One pass of the loop. -/
theorem hessStep_eq {eps : K} (he : 0 < eps) {sqrt : K → K} {abs : Cpx K → K} {k : Nat} (hf : Fits n n)
    (hk : k + 2 < n) (P H : Matrix (Fin n) (Fin n) (Cpx K)) {u v : Fin n → Cpx K}
    (hu : u = hvec k (fun r => H r ⟨k, by omega⟩) (rhoOf eps abs (H ⟨k + 1, by omega⟩ ⟨k, by omega⟩) *
      ofReal (sqrt (tailSqC k fun r => H r ⟨k, by omega⟩))))
    (hv : v = fun r => u r / ofReal (lenOf eps sqrt (sqC u))) :
    hessStep eps sqrt abs n k (Mat.ofFn n n (tab P), Mat.ofFn n n (tab H)) =
      .ok (Mat.ofFn n n (tab (P * house v)), Mat.ofFn n n (tab (house v * (H * house v)))) := by
  have hna : n < allocMax := Nat.lt_of_le_of_lt (Nat.le_mul_of_pos_right n (by omega)) hf.1
  have hkn : k < n := by omega
  have hk1 : k + 1 < n := by omega
  have hL : lenOf eps sqrt (sqC u) ≠ 0 := by
    unfold lenOf
    split_ifs with h
    · exact he.ne'
    · exact (lt_of_lt_of_le he (not_lt.1 h)).ne'
  -- tables
  let uN : Nat → Cpx K := fun r => if h : r < n then u ⟨r, h⟩ else 0
  have huN : ∀ r (h : r < n), uN r = u ⟨r, h⟩ := fun r h => dif_pos h
  have hu0 : ∀ r, r ≤ k → uN r = 0 := by
    intro r hr
    rw [huN r (by omega), hu]; exact if_pos hr
  have hu1 : uN (k + 1) = H ⟨k + 1, hk1⟩ ⟨k, hkn⟩ - rhoOf eps abs (H ⟨k + 1, hk1⟩ ⟨k, hkn⟩) *
      ofReal (sqrt (tailSqC k fun r => H r ⟨k, hkn⟩)) := by
    rw [huN _ hk1, hu]
    simp only [hvec]
    rw [if_neg (by omega), if_pos trivial]
  have hu2 : ∀ r (hr : r < n), k + 2 ≤ r → uN r = H ⟨r, hr⟩ ⟨k, hkn⟩ := by
    intro r hr h
    rw [huN r hr, hu]
    simp only [hvec]
    rw [if_neg (by omega), if_neg (by omega)]
  have hsq : ∑ r ∈ Finset.range n, norm (uN r) = sqC u := by
    rw [sum_range_fin, sqC]
    exact Finset.sum_congr rfl fun r _ => by rw [huN r r.2]
  -- the length of the column
  have hlen : vectorLengthC sqrt (Mat.ofFn n n (tab H)).toMB k (k + 1) n =
      .ok (sqrt (tailSqC k fun r => H r ⟨k, hkn⟩)) := by
    unfold vectorLengthC
    rw [show (Mat.ofFn n n (tab H)).toMB.rows = n from rfl, Nat.min_self, forRange_eq (Nat.le_of_lt hk1)
      (fun i => ∑ r ∈ Finset.range i, if r ≤ k then 0 else norm (tab H r k)), Res.ok_bind]
    · show Res.ok _ = Res.ok _
      rw [sum_range_fin, tailSqC]
      congr 2
      exact Finset.sum_congr rfl fun r _ => by rw [tab_lt H r.2 hkn]
    · symm
      exact Finset.sum_eq_zero fun r hr => if_pos (by rw [Finset.mem_range] at hr; omega)
    · intro i h1 h2
      rw [Finset.sum_range_succ, if_neg (by omega), show (Mat.ofFn n n (tab H)).toMB.at_ i k = .ok (tab H i k) from ofFn_at hf h2 hkn]
      rfl
  -- the unnormalised vector
  have hrho : rhoDir eps abs (H ⟨k + 1, hk1⟩ ⟨k, hkn⟩) = .ok (rhoOf eps abs (H ⟨k + 1, hk1⟩ ⟨k, hkn⟩)) := by
    unfold rhoDir
    dsimp only
    unfold rhoOf
    split_ifs with h
    · exact divR_ok _ (lt_trans he h).ne'
    · rfl
  unfold hessStep
  dsimp only
  rw [hlen, Res.ok_bind, vnew_ok hna, Res.ok_bind, ofFn_at hf hk1 hkn, Res.ok_bind, tab_lt H hk1 hkn, hrho, Res.ok_bind,
    mulR_eq, ← hu1, replicate_eq_vtab, vset_vtab hk1, Res.ok_bind, vget_vtab hk1, Res.ok_bind]
  rw [forRange_eq (Nat.le_of_lt hk) (fun i => (vtab n fun r => if r < i then uN r else 0, ∑ r ∈ Finset.range i, norm (uN r)))]
  rotate_left
  · congr 1
    · apply vtab_congr
      intro r hr
      by_cases h : r = k + 1
      · subst h; rw [Function.update_self, if_pos (by omega)]
      · rw [Function.update_of_ne h]
        split_ifs with h'
        · rw [hu0 r (by omega)]
        · rfl
    · rw [Function.update_self, Finset.sum_range_succ, Finset.sum_eq_zero, zero_add]
      intro r hr
      rw [Finset.mem_range] at hr
      rw [hu0 r (by omega), norm_zero]
  · intro i h1 h2
    dsimp only
    rw [ofFn_at hf h2 hkn, tab_lt H h2 hkn, Res.ok_bind, vset_vtab h2, Res.ok_bind, vget_vtab h2, Res.ok_bind, Function.update_self,
      ← hu2 i h2 h1]
    show Res.ok _ = Res.ok _
    congr 2
    · apply vtab_congr
      intro r hr
      by_cases h : r = i
      · subst h; rw [Function.update_self, if_pos (by omega)]
      · rw [Function.update_of_ne h]
        apply if_congr _ rfl rfl; omega
    · rw [Finset.sum_range_succ]
  rw [Res.ok_bind]
  dsimp only
  rw [hsq, show (if sqrt (sqC u) < eps then eps else sqrt (sqC u)) = lenOf eps sqrt (sqC u) from rfl]
  rw [forRange_eq (Nat.le_of_lt hk1) (fun i => vtab n fun r => if r < i then uN r / ofReal (lenOf eps sqrt (sqC u)) else uN r)]
  rotate_left
  · apply vtab_congr
    intro r hr
    rw [if_pos hr]
    split_ifs with h
    · rw [hu0 r (by omega), zero_div]
    · rfl
  · intro i h1 h2
    rw [vget_vtab h2, Res.ok_bind, if_neg (by omega), divR_ok _ hL, Res.ok_bind, vset_vtab h2]
    congr 1
    apply vtab_congr
    intro r hr
    by_cases h : r = i
    · subst h; rw [Function.update_self, if_pos (by omega)]
    · rw [Function.update_of_ne h]
      apply if_congr _ rfl rfl; omega
  rw [Res.ok_bind, Util.eye_eq (by omega) (by omega) hf, Res.ok_bind]
  have hPK : (forRange (k + 1) n (Mat.ofFn n n fun r c => if r = c then (1 : Cpx K) else 0) fun r PK =>
      forRange (k + 1) n PK fun c PK => do
        let p ← PK.at_ r c
        let ur ← vget (vtab n fun r => if r < n then uN r / ofReal (lenOf eps sqrt (sqC u)) else uN r) r
        let uc ← vget (vtab n fun r => if r < n then uN r / ofReal (lenOf eps sqrt (sqC u)) else uN r) c
        PK.setAt r c (p - mulR ur (1 + 1) * conj uc)) = .ok (Mat.ofFn n n (tab (house v))) := by
    rw [fillRect (Nat.le_of_lt hk1) (Nat.le_of_lt hk1) (Mat.ofFn n n) (f0 := fun r c => if r = c then (1 : Cpx K) else 0)
      (e := tab (house v)) rfl]
    · congr 1
      apply ofFn_congr
      intro r c hr hc
      split_ifs with h h'
      · rfl
      · subst h'
        have h0 : v ⟨r, hr⟩ = 0 := by rw [hv]; simp only; rw [← huN r hr, hu0 r (by omega), zero_div]
        rw [tab_lt _ hr hc, house_apply, if_pos rfl, h0, zero_mul, zero_mul, sub_zero]
      · have : v ⟨r, hr⟩ * 2 * star (v ⟨c, hc⟩) = 0 := by
          rcases Nat.lt_or_ge k r with h1 | h1
          · have h0 : v ⟨c, hc⟩ = 0 := by rw [hv]; simp only; rw [← huN c hc, hu0 c (by omega), zero_div]
            rw [h0, star_zero, mul_zero]
          · have h0 : v ⟨r, hr⟩ = 0 := by rw [hv]; simp only; rw [← huN r hr, hu0 r h1, zero_div]
            rw [h0, zero_mul, zero_mul]
        rw [tab_lt _ hr hc, house_apply, this, if_neg (by rw [Fin.mk.injEq]; exact h'), sub_zero]
    · intro r c f hr1 hr hc1 hc _ hf0
      rw [ofFn_at hf hr hc, Res.ok_bind, vget_vtab hr, Res.ok_bind, vget_vtab hc, Res.ok_bind, if_pos hr, if_pos hc,
        ofFn_setAt hf hr hc, hf0 r c (by omega), tab_lt _ hr hc, house_apply, hv, mulR_eq, huN r hr, huN c hc,
        show (ofReal (1 + 1) : Cpx K) = 2 by rw [ofReal_add, ofReal_one, one_add_one_eq_two]]
      simp only [Fin.mk.injEq, star_def]
  rw [hPK, Res.ok_bind]
  have hPI : (Mat.ofFn n n (tab P)).toMB.Is P := is_iff_rep.2 (ofFn_rep hf _)
  have hHI : (Mat.ofFn n n (tab H)).toMB.Is H := is_iff_rep.2 (ofFn_rep hf _)
  have hKI : (Mat.ofFn n n (tab (house v))).toMB.Is (house v) := is_iff_rep.2 (ofFn_rep hf _)
  have hHP := C35_product hHI hKI hf
  have hHPI : (Mat.ofFn n n (tab (H * house v))).toMB.Is (H * house v) := is_iff_rep.2 (ofFn_rep hf _)
  rw [hHP.eq, Res.ok_bind, (C35_product hKI hHPI hf).eq, Res.ok_bind, (C35_product hPI hKI hf).eq, Res.ok_bind]
  have hsz : ∀ (e : Nat → Nat → Cpx K) (Y : Mat (Cpx K)), (Y.moveAssign (Mat.ofFn n n e)).1 = Mat.ofFn n n e := by
    intro e Y
    unfold Mat.moveAssign
    rw [if_pos (by rw [Mat.size, ofFn_rows, ofFn_cols, hf.wmul]; exact Nat.mul_pos (by omega) (by omega))]
  rw [hsz, hsz]
  rfl

end Eigen
end Malg
