import Verif.Props.FloatAcker
import Verif.Props.IeeeC2d
/-!
# Property C131: pole placement on IEEE doubles

C130 bounds the error of `acker` in an arithmetic without largest number. Here the numbers are IEEE doubles.
-/
namespace Malg
open Ops Lin Control Ieee Polynomial Matrix

set_option exponentiation.threshold 3000

section
variable {T : Type} [Zero T] [One T] [Sub T] [Mul T]

/-- The coefficients that `poly` has computed after `j` roots, highest degree first, `control.hpp:211-217`. -/
def rootTab (f : Nat → T) : Nat → Nat → T
  | 0 => fun i => if i = 0 then 1 else 0
  | j + 1 => fun i => if i = 0 ∨ j + 1 < i then rootTab f j i else rootTab f j i - f j * rootTab f j (i - 1)

theorem polyLoop_tab {n : Nat} {a : Nat → Res T} {f : Nat → T} (ha : ∀ j, j < n → a j = .ok (f j)) :
    polyLoop n a (vtab (n + 1) fun i => if i = 0 then 1 else 0) = .ok (vtab (n + 1) (rootTab f n)) := by
  unfold polyLoop
  obtain ⟨s, h1, rfl⟩ := forRange_inv (lo := 0) (hi := n) (Nat.zero_le n)
    (fun j (c : List T) => c = vtab (n + 1) (rootTab f j))
    (s := vtab (n + 1) fun i => if i = 0 then 1 else 0)
    (body := fun j c => forRange 0 (j + 1) c fun k c => do
      let i := j + 1 - k
      let z ← vget c i
      let x ← a j
      let y ← vget c (i - 1)
      vset c i (z - x * y))
    rfl
    (by
      rintro j c - hj rfl
      obtain ⟨s, h1, rfl⟩ := forRange_inv (lo := 0) (hi := j + 1) (Nat.zero_le _)
        (fun k (c : List T) => c = vtab (n + 1) fun i => if j + 1 - k < i ∧ i ≤ j + 1 then rootTab f (j + 1) i else rootTab f j i)
        (s := vtab (n + 1) (rootTab f j))
        (body := fun k c => do
          let i := j + 1 - k
          let z ← vget c i
          let x ← a j
          let y ← vget c (i - 1)
          vset c i (z - x * y))
        (vtab_congr fun i _ => by rw [if_neg (by omega)])
        (by
          rintro k c - hk rfl
          obtain ⟨i, hi⟩ : ∃ i, j + 1 - k = i + 1 := ⟨j - k, by omega⟩
          dsimp only
          rw [hi, Nat.add_sub_cancel, vget_vtab (by omega), Res.ok_bind, ha j hj, Res.ok_bind, vget_vtab (by omega), Res.ok_bind,
            vset_vtab (by omega)]
          refine ⟨_, rfl, vtab_congr fun l hl => ?_⟩
          by_cases h : l = i + 1
          · subst h
            rw [Function.update_self, if_neg (by omega), if_neg (by omega), if_pos ⟨by omega, by omega⟩]
            show _ = if _ then _ else _
            rw [if_neg (by omega), Nat.add_sub_cancel]
          · rw [Function.update_of_ne h]
            by_cases h2 : i + 1 < l ∧ l ≤ j + 1
            · rw [if_pos h2, if_pos ⟨by omega, h2.2⟩]
            · rw [if_neg h2, if_neg (by omega)])
      refine ⟨_, h1, vtab_congr fun i hi => ?_⟩
      by_cases h : 0 < i ∧ i ≤ j + 1
      · rw [if_pos ⟨by omega, h.2⟩]
      · rw [if_neg (by omega)]
        show _ = if _ then _ else _
        rw [if_pos (by omega)])
  exact h1

end

theorem polyMat_tab {T : Type} [Zero T] [One T] [Add T] [Sub T] [Mul T] [Neg T] [NatCast T] [CDiv T] {n : Nat} {P : MB T} {e : Nat → Nat → T} (hP : Rep P 1 n e)
    (hn : 0 < n) (hka : n + 1 < allocMax) : polyMat P = .ok (vtab (n + 1) (rootTab (e 0) n)) := by
  unfold polyMat polyMatD
  rw [hP.size, Nat.one_mul, if_neg (by omega), if_pos (Or.inl hP.rows), initCoeff' (by omega), polyLoop_tab fun j hj => ?_]
  have := hP.lin' (i := j) (by omega)
  rwa [Nat.div_eq_of_lt hj, Nat.mod_eq_of_lt hj] at this

theorem expPow_eq_powT {T : Type} [Zero T] [One T] [Add T] [Mul T] (n : Nat) (a : Nat → Nat → T) (q : Nat) : expPow n a q = powT n a q := by
  induction q with
  | zero => rfl
  | succ q ih => funext r c; show (lsum n fun k => _) = lsum n fun k => _; rw [ih]

section
variable (f : Nat → IDouble) (a v w : Nat → Nat → IDouble) (g : Nat → IDouble) (n : Nat)

theorem rd_rootTab (j i : Nat) : Rd fl (rootTab f j i) (rootTab (fun i => (f i).flD) j i) := by
  induction j generalizing i with
  | zero =>
    unfold rootTab
    split
    · exact ireads.rd_one
    · exact ireads.rd_zero
  | succ j ih =>
    unfold rootTab
    split
    · exact ih i
    · exact ireads.rd_sub (ih i) (ireads.rd_mul (rd_flD _) (ih _))

variable {g} in
theorem rd_ackerAcc {g' : Nat → Double} {k : Nat} (hg : ∀ i, i < k → Rd fl (g i) (g' i)) (r c : Nat) :
    Rd fl (ackerAcc n a g k r c) (ackerAcc n (fun i j => (a i j).flD) g' k r c) := by
  induction k with
  | zero => exact ireads.rd_zero
  | succ k ih =>
    refine ireads.rd_add (ih fun i hi => hg i (by omega)) (ireads.rd_mul ?_ (hg k (by omega)))
    rw [expPow_eq_powT, expPow_eq_powT]
    exact ireads.rd_powT (fun _ _ => rd_flD _) _ _ _

variable {w} in
theorem rd_ackerGain {w' : Nat → Nat → Double} (hw : ∀ i j, Rd fl (w i j) (w' i j)) (r c : Nat) :
    Rd fl (ackerGain n v w r c) (ackerGain n (fun i j => (v i j).flD) w' r c) := by
  refine ireads.rd_lsum fun k _ => ireads.rd_mul (ireads.rd_lsum fun l _ => ireads.rd_mul ?_ (rd_flD _)) (hw k c)
  split
  · exact ireads.rd_one
  · exact ireads.rd_zero

variable {f a v w g n}

/-- The coefficient of the second highest power is finite only if all roots are. -/
theorem rootTab_finite {j : Nat} (h : (rootTab f j 1).Finite) : ∀ i, i < j → (f i).Finite := by
  induction j with
  | zero => exact fun i hi => absurd hi (Nat.not_lt_zero i)
  | succ j ih =>
    unfold rootTab at h
    rw [if_neg (by omega)] at h
    obtain ⟨h1, h2⟩ := ireads.some_sub h
    intro i hi
    by_cases hij : i = j
    · subst hij; exact (ireads.some_mul h2).1
    · exact ih h1 i (by omega)

theorem ackerAcc_finite {k : Nat} {r c : Nat} (h : (ackerAcc n a g k r c).Finite) : ∀ i, i < k → (expPow n a (n - i) r c).Finite ∧ (g i).Finite := by
  induction k with
  | zero => exact fun i hi => absurd hi (Nat.not_lt_zero i)
  | succ k ih =>
    obtain ⟨h1, h2⟩ := ireads.some_add h
    intro i hi
    by_cases hik : i = k
    · subst hik; exact ireads.some_mul h2
    · exact ih h1 i (by omega)

theorem ackerGain_finite {r c : Nat} (h : (ackerGain n v w r c).Finite) : (∀ l k, l < n → k < n → (v l k).Finite) ∧ ∀ k, k < n → (w k c).Finite := by
  have h1 := fun k hk => ireads.some_mul (ireads.some_lsum h k hk)
  exact ⟨fun l k hl hk => (ireads.some_mul (ireads.some_lsum (h1 k hk).1 l hl)).2, fun k hk => (h1 k hk).2⟩

/-- A column of a positive power is finite only if the matrix is. -/
theorem expPow_finite {N c : Nat} (hN : 0 < N) (hc : c < n) (h1 : n = 1 ∨ 2 ≤ N) (h : ∀ k, k < n → (expPow n a N k c).Finite) : ∀ i j, i < n → j < n → (a i j).Finite := by
  obtain ⟨N, rfl⟩ := Nat.exists_eq_succ_of_ne_zero hN.ne'
  have h2 : ∀ k i, k < n → i < n → (expPow n a N k i).Finite ∧ (a i c).Finite := fun k i hk hi => ireads.some_mul (ireads.some_lsum (h k hk) i hi)
  intro i j hi hj
  rcases h1 with rfl | h1
  · obtain rfl : j = c := by omega
    exact (h2 0 i (by omega) hi).2
  · obtain ⟨N, rfl⟩ := Nat.exists_eq_succ_of_ne_zero (show N ≠ 0 by omega)
    exact (ireads.some_mul (ireads.some_lsum (h2 i j hi hj).1 i hi)).2

/-! ## Sizes -/

theorem expPow_sz {s q : Nat} (hn : n ≤ 2 ^ q) (hq : q ≤ 53) (ha : ∀ i j, i < n → j < n → Sz (a i j) (a i j).flD s) {N : Nat} (hN : N * (s + q) < 1024) (r : Nat) {c : Nat}
    (hc : c < n) : Sz (expPow n a N r c) (expPow n (fun i j => (a i j).flD) N r c) (N * (s + q)) := by
  induction N generalizing c with
  | zero =>
    unfold expPow
    rw [Nat.zero_mul]
    split
    · exact Sz.one
    · exact Sz.zero
  | succ N ih =>
    have e : (N + 1) * (s + q) = N * (s + q) + s + q := by ring
    rw [e] at hN ⊢
    exact Sz.sum hn hq (fun k hk => Sz.mul (ih (by omega) hk) (ha k c hk hc) (by omega)) hN

theorem rootTab_sz {s : Nat} (hf : ∀ i, i < n → Sz (f i) (f i).flD s) {j : Nat} (hj : j ≤ n) (h : j * (s + 1) < 1024) (i : Nat) :
    Sz (rootTab f j i) (rootTab (fun i => (f i).flD) j i) (j * (s + 1)) := by
  induction j generalizing i with
  | zero =>
    unfold rootTab
    rw [Nat.zero_mul]
    split
    · exact Sz.one
    · exact Sz.zero
  | succ j ih =>
    have e : (j + 1) * (s + 1) = j * (s + 1) + s + 1 := by ring
    rw [e] at h ⊢
    have ih' := fun i => ih (by omega) (by omega) i
    unfold rootTab
    split
    · exact (ih' i).mono (by omega)
    · refine Sz.sub (by omega) ((ih' i).mono (by omega)) ?_
      have := Sz.mul (hf j (by omega)) (ih' (i - 1)) (by omega)
      exact this.mono (by omega)

theorem ackerAcc_eq_lsum {T : Type} [Zero T] [One T] [Add T] [Mul T] [Sub T] [Neg T] [NatCast T] [CDiv T] (n : Nat) (a : Nat → Nat → T) (g : Nat → T) (k r c : Nat) :
    ackerAcc n a g k r c = lsum k fun i => expPow n a (n - i) r c * g i := by
  induction k with
  | zero => rfl
  | succ k ih => show ackerAcc n a g k r c + _ = lsum k _ + _; rw [ih]

theorem ackerAcc_sz {s q : Nat} (hn : n + 1 ≤ 2 ^ q) (hq : q ≤ 53) (ha : ∀ i j, i < n → j < n → Sz (a i j) (a i j).flD s) (hf : ∀ i, i < n → Sz (f i) (f i).flD s)
    (hb : n * (2 * s + q + 1) + q < 1024) (r : Nat) {c : Nat} (hc : c < n) :
    Sz (ackerAcc n a (rootTab f n) (n + 1) r c) (ackerAcc n (fun i j => (a i j).flD) (rootTab (fun i => (f i).flD) n) (n + 1) r c) (n * (2 * s + q + 1) + q) := by
  rw [ackerAcc_eq_lsum, ackerAcc_eq_lsum]
  have e : n * (2 * s + q + 1) = n * (s + q) + n * (s + 1) := by ring
  refine Sz.sum hn hq (fun i hi => ?_) hb
  have h1 : (n - i) * (s + q) ≤ n * (s + q) := Nat.mul_le_mul_right _ (Nat.sub_le _ _)
  refine Sz.mono (Sz.mul (expPow_sz (by omega) hq ha (by omega) r hc) (rootTab_sz hf le_rfl (by omega) i) (by omega)) (by omega)

theorem ackerGain_sz {q t b : Nat} {w' : Nat → Nat → Double} (hn : n ≤ 2 ^ q) (hq : q ≤ 53) (hv : ∀ i j, i < n → j < n → Sz (v i j) (v i j).flD t)
    (hw : ∀ i j, i < n → j < n → Sz (w i j) (w' i j) b) (hb : t + b + 2 * q < 1024) {r c : Nat} (hc : c < n) :
    Sz (ackerGain n v w r c) (ackerGain n (fun i j => (v i j).flD) w' r c) (t + b + 2 * q) := by
  have : t + b + 2 * q = t + q + b + q := by ring
  rw [this] at hb ⊢
  refine Sz.sum hn hq (fun k hk => Sz.mul (Sz.sum hn hq (fun l hl => ?_) (by omega)) (hw k c hk hc) (by omega)) hb
  have h2 : Sz (if r = 0 ∧ l = n - 1 then 1 else 0) (if r = 0 ∧ l = n - 1 then 1 else 0) 0 := by
    split
    · exact Sz.one
    · exact Sz.zero
  have := h2.mul (hv l k hl hk) (by omega)
  rwa [Nat.zero_add] at this

end

section
open scoped Matrix.Norms.Operator
variable {n : Nat} {A B P : MB IDouble} {M : Matrix (Fin n) (Fin n) IDouble} {N : Matrix (Fin n) (Fin 1) IDouble} {e : Nat → Nat → IDouble}

/-- C131: `acker(A, B, poles)` in `double` with `n` poles, where `V` is the computed inverse of the computed controllability matrix. A gain is finite only if `A`, the
poles and `V` are. The finite gains satisfy the bound of C130. All gains are finite if `V` is and does not exceed `2^t`, `A` and the poles are and do not exceed
`2^s`, and these exponents are small enough. -/
theorem C131_gain (isz : IDouble → Bool) (hA : A.Is M) (hB : B.Is N) (hP : Rep P 1 n e) (hPe : P.empty = false) (hn : 0 < n) (hka : n + 1 < allocMax)
    {ct : Mat IDouble} (hct : ctrb A B = .ok ct) {d : IDouble} (hd : determinant isz ct.toMB = .ok d) (hz : isz d = false)
    {V : Matrix (Fin n) (Fin n) IDouble} (hV : Yields (inverse isz ct.toMB) V) :
    ∃ G : Matrix (Fin 1) (Fin n) IDouble, Yields (acker isz A B P) G ∧
      (∀ j, (G 0 j).Finite → (∀ i k, (M i k).Finite) ∧ (∀ k, k < n → (e 0 k).Finite) ∧ ∀ i k, (V i k).Finite) ∧
      (∀ y α ρ : ℝ, ‖M.map rval‖ ≤ y → (∀ i, ∑ j, |(ctrbMatrix (M.map rval) (N.map rval))⁻¹ i j| ≤ α) →
        (∀ i, ∑ j, |rval (V i j) - (ctrbMatrix (M.map rval) (N.map rval))⁻¹ i j| ≤ ρ) → ∀ J : Finset (Fin n), (∀ j ∈ J, (G 0 j).Finite) →
        ∑ j ∈ J, |rval (G 0 j) - ((lastRow n : Matrix (Fin 1) (Fin n) ℝ) * (ctrbMatrix (M.map rval) (N.map rval))⁻¹ *
            aeval (M.map rval) (∏ j : Fin n, (X - C (rval (e 0 j))) : ℝ[X])) 0 j| ≤
          gainErr n (1 / 2 ^ 53) (1 / 2 ^ 1075) α ρ (∏ j : Fin n, (y + |rval (e 0 j)|))
            (ackerUnder n (1 / 2 ^ 53) (1 / 2 ^ 1075) y (∏ j : Fin n, (1 + |rval (e 0 j)|)))) ∧
      (∀ q s t : Nat, n + 1 ≤ 2 ^ q → (∀ i k, (M i k).Finite ∧ |(M i k).val| ≤ 2 ^ s) → (∀ k, k < n → (e 0 k).Finite ∧ |(e 0 k).val| ≤ 2 ^ s) →
        (∀ i k, (V i k).Finite ∧ |(V i k).val| ≤ 2 ^ t) → n * (2 * s + q + 1) + t + 3 * q < 1024 → ∀ j, (G 0 j).Finite) := by
  obtain ⟨a, hA, rfl⟩ := hA
  obtain ⟨b, hB, rfl⟩ := hB
  have hf := hA.fits
  have hctr : ct.rows = n := by
    have := ctrb_exec hA hB hn (by rw [Nat.mul_one]; exact hf) fun i _ => powm_tab hA hn i
    rw [hct] at this
    injection this with this
    rw [this]; rfl
  obtain ⟨Vm, hVe, -, v, hv, rfl⟩ := hV
  have i0 : Fin n := ⟨0, hn⟩
  have hg := polyMat_tab hP hn hka
  refine ⟨_, Yields.of_eq (hf.mono (by omega) (Nat.le_refl n)) (acker_tables isz hA hB hP hPe hn hka hg hct hctr hd hz hVe hv), fun j hj => ?_,
    fun y α ρ hy hα hρ J hJ => ?_, fun q s t hq hM he hV hb j => ?_⟩
  · obtain ⟨h1, h2⟩ := ackerGain_finite (n := n) hj
    have h3 := fun k hk => ackerAcc_finite (h2 k hk)
    refine ⟨fun i k => expPow_finite (N := n) hn j.2 (by omega) (fun k hk => (h3 k hk 0 (by omega)).1) i k i.2 k.2,
      rootTab_finite (h3 0 hn 1 (by omega)).2, fun i k => h1 i k i.2 k.2⟩
  · obtain ⟨g, hg1, hg2⟩ := polyLoop_near double_rounds double_one (n := n) (a := fun j => .ok (e 0 j).flD) (f := fun j => (e 0 j).flD) fun _ _ => rfl
    rw [polyLoop_tab (f := fun j => (e 0 j).flD) fun _ _ => rfl] at hg1
    have hgt : ∀ i, i ≤ n → g i = rootTab (fun j => (e 0 j).flD) n i := fun i hi => by
      have h1 := vget_vtab (f := g) (show i < n + 1 by omega)
      rw [← Res.ok.inj hg1, vget_vtab (by omega)] at h1
      exact (Res.ok.inj h1).symm
    have hlin : linProd (fun l => rval (e 0 l)) n = ∏ j : Fin n, (X - C (rval (e 0 j))) := by unfold linProd; rw [Finset.prod_range]
    have hdeg : (∏ j : Fin n, (X - C (rval (e 0 j))) : ℝ[X]).natDegree = n := by
      rw [natDegree_prod_of_monic _ _ fun j _ => monic_X_sub_C _]; simp
    have near := ackerAcc_near double_rounds double_one hn ((norm_nonneg _).trans hy) (a := fun i j => (a i j).flD) hy (r := fun l => rval (e 0 l)) hg2
    rw [hlin, ackerPoly_eq _ hdeg, Finset.prod_range, Finset.prod_range] at near
    have key := ackerGain_err double_rounds double_one (v := fun i j => (v i j).flD) rfl ((Finset.sum_nonneg fun _ _ => abs_nonneg _).trans (hρ i0)) hρ
      ((Finset.sum_nonneg fun _ _ => abs_nonneg _).trans (hα i0)) hα near 0
    refine le_trans (le_of_eq (Finset.sum_congr rfl fun j hj => ?_)) ((Finset.sum_le_univ_sum_of_nonneg (s := J) fun j => abs_nonneg _).trans key)
    congr 2
    have := (hJ j hj).eq (rd_ackerGain v n (rd_ackerAcc a n (k := n + 1) (g' := g) fun i hi => by rw [hgt i (by omega)]; exact rd_rootTab _ _ _) 0 j)
    rw [rval_flD, this]
    rfl
  · have sa : ∀ i j, i < n → j < n → Sz (a i j) (a i j).flD s := fun i j hi hj => Sz.of_finite (hM ⟨i, hi⟩ ⟨j, hj⟩).1 (hM ⟨i, hi⟩ ⟨j, hj⟩).2
    have sf : ∀ i, i < n → Sz (e 0 i) (e 0 i).flD s := fun i hi => Sz.of_finite (he i hi).1 (he i hi).2
    have sv : ∀ i j, i < n → j < n → Sz (v i j) (v i j).flD t := fun i j hi hj => Sz.of_finite (hV ⟨i, hi⟩ ⟨j, hj⟩).1 (hV ⟨i, hi⟩ ⟨j, hj⟩).2
    have main : ∀ q, q ≤ 53 → n + 1 ≤ 2 ^ q → n * (2 * s + q + 1) + t + 3 * q < 1024 → (toM 1 n (ackerGain n v (ackerAcc n a (rootTab (e 0) n) (n + 1))) 0 j).Finite :=
      fun q hq53 hq hb => (ackerGain_sz (by omega) hq53 sv (fun i j _ hj => ackerAcc_sz hq hq53 sa sf (by omega) i hj) (by omega) j.2).finite
    by_cases hq53 : q ≤ 53
    · exact main q hq53 hq hb
    · have h1 : n * 54 ≤ n * (2 * s + q + 1) := Nat.mul_le_mul_left _ (by omega)
      have h2 : n * (2 * s + 5 + 1) ≤ n * (2 * s + q + 1) := Nat.mul_le_mul_left _ (by omega)
      exact main 5 (by norm_num) (by omega) (by omega)

/-- C131: so the polynomial of the closed loop satisfies the bound of C130 whenever all gains are finite. -/
theorem C131_placed (isz : IDouble → Bool) (hA : A.Is M) (hB : B.Is N) (hP : Rep P 1 n e) (hPe : P.empty = false) (hn : 0 < n) (hka : n + 1 < allocMax)
    {ct : Mat IDouble} (hct : ctrb A B = .ok ct) {d : IDouble} (hd : determinant isz ct.toMB = .ok d) (hz : isz d = false)
    {V : Matrix (Fin n) (Fin n) IDouble} (hV : Yields (inverse isz ct.toMB) V) {y α ρ : ℝ} (hy : ‖M.map rval‖ ≤ y)
    (hctrl : (ctrbMatrix (M.map rval) (N.map rval)).det ≠ 0) (hα : ∀ i, ∑ j, |(ctrbMatrix (M.map rval) (N.map rval))⁻¹ i j| ≤ α)
    (hρ : ∀ i, ∑ j, |rval (V i j) - (ctrbMatrix (M.map rval) (N.map rval))⁻¹ i j| ≤ ρ) {G : Matrix (Fin 1) (Fin n) IDouble} (hG : Yields (acker isz A B P) G)
    (hfin : ∀ j, (G 0 j).Finite) {j : Nat} (hj : j < n) {β : ℝ} (hβ : ∀ i, |(placeWeight (M.map rval) j * N.map rval) i 0| ≤ β) :
    |(M.map rval - N.map rval * G.map rval).charpoly.coeff (n - 1 - j) - (∏ j : Fin n, (X - C (rval (e 0 j))) : ℝ[X]).coeff (n - 1 - j)| ≤
      gainErr n (1 / 2 ^ 53) (1 / 2 ^ 1075) α ρ (∏ j : Fin n, (y + |rval (e 0 j)|))
        (ackerUnder n (1 / 2 ^ 53) (1 / 2 ^ 1075) y (∏ j : Fin n, (1 + |rval (e 0 j)|))) * β := by
  obtain ⟨G', hG', -, hGe, -⟩ := C131_gain isz hA hB hP hPe hn hka hct hd hz hV
  obtain rfl := Yields.inj hG hG'
  have hGe := hGe y α ρ hy hα hρ Finset.univ fun j _ => hfin j
  have hmonic : (∏ j : Fin n, (X - C (rval (e 0 j))) : ℝ[X]).Monic := monic_prod_of_monic _ _ fun j _ => monic_X_sub_C _
  have hdeg : (∏ j : Fin n, (X - C (rval (e 0 j))) : ℝ[X]).natDegree = n := by
    rw [natDegree_prod_of_monic _ _ fun j _ => monic_X_sub_C _]; simp
  rw [placed_shift hn (M.map rval) (N.map rval) (IsUnit.mk0 _ hctrl) hmonic hdeg (G.map rval) hj, add_sub_cancel_left, Matrix.mul_apply]
  have hβ0 : 0 ≤ β := (abs_nonneg _).trans (hβ ⟨0, hn⟩)
  refine (Finset.abs_sum_le_sum_abs _ _).trans (le_trans ?_ (mul_le_mul_of_nonneg_right hGe hβ0))
  rw [Finset.sum_mul]
  refine Finset.sum_le_sum fun i _ => ?_
  rw [abs_mul]
  exact mul_le_mul_of_nonneg_left (hβ i) (abs_nonneg _)

/-- C131: if the computed determinant of the controllability matrix is zero or infinite, the program ends with status 1. If it is NaN, up to four states,
all gains are NaN. -/
theorem C131_determinant (hA : A.Is M) (hB : B.Is N) (hP : Rep P 1 n e) (hPe : P.empty = false) (hn : 0 < n) {ct : Mat IDouble} (hct : ctrb A B = .ok ct) {d : IDouble}
    (hd : determinant dIsZero ct.toMB = .ok d) :
    ((d.Finite ∧ d.val = 0 ∨ ∃ s, d = .inf s) → acker dIsZero A B P = .exit 1) ∧
    (d = .nan → n ≤ 4 → Yields (acker dIsZero A B P) (fun _ _ => .nan : Matrix (Fin 1) (Fin n) IDouble)) := by
  obtain ⟨a, hA, rfl⟩ := hA
  obtain ⟨b, hB, rfl⟩ := hB
  refine ⟨fun h => ?_, fun h h4 => ?_⟩
  · have h0 : dIsZero d = true := (approxZero_iff (by decide) dtol_ok d).2 h
    unfold acker
    have c1 : (!Util.isSquare A || !Util.isColumnVector B || A.rows != B.rows) = false := by
      simp [Util.isSquare, Util.isColumnVector, hA.rows, hA.cols, hB.rows, hB.cols]
    have c2 : (!Util.isRowVector P || P.empty) = false := by simp [Util.isRowVector, hP.rows, hPe]
    rw [c1, if_neg Bool.false_ne_true, c2, if_neg Bool.false_ne_true, hct, Res.ok_bind, hd, Res.ok_bind, if_pos h0]
  · obtain ⟨n, rfl⟩ := Nat.exists_eq_succ_of_ne_zero hn.ne'
    have hf := hA.fits
    have hce := ctrb_exec hA hB hn (by rw [Nat.mul_one]; exact hf) fun i _ => powm_tab hA hn i
    rw [hct] at hce
    generalize (fun r c => if c / 1 = 0 then b r (c % 1) else lsum (n + 1) fun k => expPow (n + 1) a (c / 1) r k * b k (c % 1)) = C at hce
    simp only [Nat.mul_one, Nat.succ_eq_add_one] at hce
    obtain rfl := Res.ok.inj hce
    have hz : dIsZero d = false := by
      rw [Bool.eq_false_iff, Ne, approxZero_iff (by decide) dtol_ok, h]
      rintro (⟨h1, -⟩ | ⟨s, h1⟩) <;> cases h1
    obtain ⟨d', g1, -, g3, -⟩ := C128_inverse (K := ℚ) (p := 53) (emin := -1074) (emax := 1024) (by decide) (by decide) (by decide) dtol_ok (ofFn_rep hf C).is (by omega)
    obtain rfl := Res.ok.inj (hd.symm.trans g1)
    obtain ⟨Vm, hVe, -, v, hv, hvn⟩ := g3 h
    have hka : n + 1 + 1 < allocMax := by rw [allocMax_eq]; omega
    have := acker_tables dIsZero hA hB hP hPe hn hka (polyMat_tab hP hn hka) hct rfl hd hz hVe hv
    rw [this]
    refine Yields.congr (Yields.of_eq (hf.mono (by omega) le_rfl) rfl) ?_
    funext i j
    have h0 : v 0 0 = .nan := (congrFun (congrFun hvn 0) 0 : _)
    refine lsum_nan hn (?_ : (lsum (n + 1) fun l => _) * _ = _)
    rw [lsum_nan hn (by rw [h0]; exact mul_nan _)]
    exact nan_mul _

theorem real_inv {m : Nat} {S : Matrix (Fin m) (Fin m) IDouble} (h : (S.map val).det ≠ 0) (i j : Fin m) :
    (S.map rval)⁻¹ i j = (((S.map val)⁻¹ i j : ℚ) : ℝ) := by
  have h1 : (S.map val)⁻¹.map (Rat.castHom ℝ) * S.map rval = 1 := by
    have := congrArg (fun X : Matrix (Fin m) (Fin m) ℚ => X.map (Rat.castHom ℝ)) (Matrix.nonsing_inv_mul _ (IsUnit.mk0 _ h))
    simp only [Matrix.map_mul, Matrix.map_one, map_zero, map_one] at this
    exact this
  rw [Matrix.inv_eq_left_inv h1]
  rfl
end

section
open scoped Matrix.Norms.Operator
variable {n : Nat} {A B P : MB IDouble} {M : Matrix (Fin (n + 1)) (Fin (n + 1)) IDouble} {N : Matrix (Fin (n + 1)) (Fin 1) IDouble} {e : Nat → Nat → IDouble}

/-- C131: up to four states everything is explicit, see `C130_small_partial`. If the entries of `A`, `B` and the poles do not exceed `2^48`, the computed
controllability matrix `S` is finite and within `δ` of the controllability matrix. If its determinant exceeds the error by `2^-200`, and the inverse with its
error does not exceed `2^300`, then all gains are finite and the characteristic polynomial of `A - B K` is the wanted one up to `gainErr`. Missing: more states, other
controllable systems, see `C131_controllable_false`. -/
theorem C131_small_partial (hA : A.Is M) (hB : B.Is N) (hP : Rep P 1 (n + 1) e) (hPe : P.empty = false) (hn : n ≤ 3)
    (hM : ∀ i j, (M i j).Finite ∧ |(M i j).val| ≤ 2 ^ 48) (hN : ∀ i j, (N i j).Finite ∧ |(N i j).val| ≤ 2 ^ 48)
    (he : ∀ k, k < n + 1 → (e 0 k).Finite ∧ |(e 0 k).val| ≤ 2 ^ 48) {y α δ : ℝ} (hy : ‖M.map rval‖ ≤ y)
    (hctrl : (ctrbMatrix (M.map rval) (N.map rval)).det ≠ 0) (hα : ‖(ctrbMatrix (M.map rval) (N.map rval))⁻¹‖ ≤ α)
    (hδ : ∀ i, ∑ j, ctrbErr (1 / 2 ^ 53) (1 / 2 ^ 1075) (M.map (|rval ·|)) (N.map (|rval ·|)) i j ≤ δ) (hαδ : α * δ < 1) :
    ∃ S : Matrix (Fin (n + 1)) (Fin (n + 1)) IDouble, Yields (ctrb A B) S ∧ (∀ i j, (S i j).Finite ∧ |(S i j).val| ≤ 2 ^ 200) ∧
      ‖S.map rval - ctrbMatrix (M.map rval) (N.map rval)‖ ≤ δ ∧
      ∀ m β σ : ℚ, (∀ i j, |(S i j).val| ≤ m) → m ≤ 2 ^ 200 → β = detErr (1 / 2 ^ 53) (1 / 2 ^ 1075) m (n + 1) (S.map (|val ·|)).permanent →
        β + 1 / 2 ^ 200 ≤ |(S.map val).det| →
        (∀ i, ∑ j : Fin (n + 1), (1 / 2 ^ 53 * |(S.map val)⁻¹ i j| +
          (1 + 1 / 2 ^ 53) * ((detErr (1 / 2 ^ 53) (1 / 2 ^ 1075) m n ((S.map (|val ·|)).submatrix j.succAbove i.succAbove).permanent + |(S.map val)⁻¹ i j| * β) /
            (|(S.map val).det| - β)) + 1 / 2 ^ 1075) ≤ σ) → α + (σ + α ^ 2 * δ / (1 - α * δ)) ≤ 2 ^ 300 →
        ∃ G : Matrix (Fin 1) (Fin (n + 1)) IDouble, Yields (acker dIsZero A B P) G ∧ (∀ j, (G 0 j).Finite) ∧
          ∀ j, j < n + 1 → ∀ κ : ℝ, (∀ i, |(placeWeight (M.map rval) j * N.map rval) i 0| ≤ κ) →
            |(M.map rval - N.map rval * G.map rval).charpoly.coeff (n - j) - (∏ j : Fin (n + 1), (X - C (rval (e 0 j))) : ℝ[X]).coeff (n - j)| ≤
              gainErr (n + 1) (1 / 2 ^ 53) (1 / 2 ^ 1075) α (σ + α ^ 2 * δ / (1 - α * δ)) (∏ j : Fin (n + 1), (y + |rval (e 0 j)|))
                (ackerUnder (n + 1) (1 / 2 ^ 53) (1 / 2 ^ 1075) y (∏ j : Fin (n + 1), (1 + |rval (e 0 j)|))) * κ := by
  obtain ⟨a, hA', rfl⟩ := id hA
  obtain ⟨b, hB', rfl⟩ := id hB
  have hf := hA'.fits
  have h0n : 0 < n + 1 := Nat.succ_pos n
  have hn4 : n + 1 ≤ 2 ^ 2 := by omega
  have sa : ∀ i j, i < n + 1 → j < n + 1 → Sz (a i j) (a i j).flD 48 := fun i j hi hj => Sz.of_finite (hM ⟨i, hi⟩ ⟨j, hj⟩).1 (hM ⟨i, hi⟩ ⟨j, hj⟩).2
  have sb : ∀ i, i < n + 1 → Sz (b i 0) (b i 0).flD 48 := fun i hi => Sz.of_finite (hN ⟨i, hi⟩ 0).1 (hN ⟨i, hi⟩ 0).2
  -- the controllability matrix
  set c : Nat → Nat → IDouble := fun r k => if k = 0 then b r 0 else lsum (n + 1) fun l => expPow (n + 1) a k r l * b l 0 with hc
  set c' : Nat → Nat → Double := fun r k => if k = 0 then (b r 0).flD else lsum (n + 1) fun l => expPow (n + 1) (fun i j => (a i j).flD) k r l * (b l 0).flD with hc'
  have hct : ctrb A B = .ok (Mat.ofFn (n + 1) (n + 1) c) := by
    have := ctrb_exec hA' hB' h0n (by rw [Nat.mul_one]; exact hf) fun i _ => powm_tab hA' h0n i
    simp only [Nat.mul_one, Nat.div_one, Nat.mod_one] at this
    exact this
  have sc : ∀ i j, i < n + 1 → j < n + 1 → Sz (c i j) (c' i j) 200 := by
    intro i j hi hj
    simp only [hc, hc']
    split
    · exact (sb i hi).mono (by norm_num)
    · have h1 : j * 50 ≤ 150 := by omega
      refine Sz.mono (Sz.sum (e := j * (48 + 2) + 48) (q := 2) hn4 (by norm_num) (fun l hl => Sz.mul (expPow_sz hn4 (by norm_num) sa (by omega) i hl) (sb l hl) (by omega))
        (by omega)) (by omega)
  have hval : ∀ i j : Fin (n + 1), rval (c i j) = ((c' i j).val : ℝ) := fun i j => by
    rw [rval, Ieee.val, Ieee.flD, (sc i j i.2 j.2).1]; rfl
  have hSe : ∀ i j, |rval (toM (n + 1) (n + 1) c i j) - ctrbMatrix ((toM (n + 1) (n + 1) a).map rval) ((toM (n + 1) 1 b).map rval) i j| ≤
      ctrbErr (1 / 2 ^ 53) (1 / 2 ^ 1075) ((toM (n + 1) (n + 1) a).map (|rval ·|)) ((toM (n + 1) 1 b).map (|rval ·|)) i j := by
    have rA := ofFn_rep hf fun i j => (a i j).flD
    have rB := ofFn_rep hB'.fits fun i j => (b i j).flD
    obtain ⟨E, hE, hEe⟩ := C116_ctrb double_rounds double_one rA.is rB.is h0n (by rw [Nat.mul_one]; exact hf)
    have := ctrb_exec rA rB h0n (by rw [Nat.mul_one]; exact hf) fun i _ => powm_tab rA h0n i
    have g3 := Yields.inj hE (Yields.of_eq (by rw [Nat.mul_one]; exact hf) this)
    intro i j
    have := hEe i j 0 (by simpa using j.2)
    rw [g3] at this
    simp only [toM_apply, Nat.mul_one, Fin.val_zero, Nat.add_zero, Nat.div_one, Nat.mod_one] at this
    rw [toM_apply, hval]
    exact this
  have hδ0 : 0 ≤ δ := by
    refine le_trans (Finset.sum_nonneg fun j _ => ?_) (hδ 0)
    exact (abs_nonneg _).trans (hSe 0 j)
  have hSn := norm_le_of_rows hδ0 fun i => (Finset.sum_le_sum fun j _ => hSe i j).trans (hδ i)
  have hSfin : ∀ i j, (toM (n + 1) (n + 1) c i j).Finite ∧ |(toM (n + 1) (n + 1) c i j).val| ≤ 2 ^ 200 := fun i j => by
    have := sc i j i.2 j.2
    refine ⟨this.finite, ?_⟩
    rw [toM_apply, Ieee.val, Ieee.flD, this.1]
    exact this.2
  refine ⟨_, Yields.of_eq hf hct, hSfin, hSn, fun m β σ hm hm2 hβ hd hσ hsmall => ?_⟩
  obtain ⟨hSd, hSi⟩ := inv_perturb hα hSn hctrl hαδ
  have hS := ofFn_rep hf c
  obtain ⟨V, hV, hVe⟩ := C128_inverse_double hS.is hn (fun i j => (hSfin i j).1) hm hm2 hβ hd
  obtain ⟨d, hde⟩ : ∃ d, determinant dIsZero (Mat.ofFn (n + 1) (n + 1) c).toMB = .ok d := ⟨_, determinant_closed dIsZero hS (by omega)⟩
  have hz : dIsZero d = false := by
    rw [Bool.eq_false_iff]
    intro h0
    have h1 : inverse dIsZero (Mat.ofFn (n + 1) (n + 1) c).toMB = .ok Mat.empty0 := by
      unfold inverse
      rw [if_neg (by rw [Lin.isSquare_eq hS.toRepAt]; simp), hde, Res.ok_bind, if_pos h0]
      rfl
    obtain ⟨X, h2, -, h3⟩ := hV
    obtain rfl := Res.ok.inj (h1.symm.trans h2)
    obtain ⟨f, h4, -⟩ := h3
    have := h4.rows
    cases this
  have hdet0 : ((toM (n + 1) (n + 1) c).map val).det ≠ 0 := by
    obtain ⟨d', -, g2⟩ := determinant_err (K := ℚ) (p := 53) (emin := -1074) (by decide) (by decide) (fun _ => false) (ofFn_rep hf fun i j => (c i j).flD)
      (show n + 1 ≤ 4 by omega) (m := m) (fun i j hi hj => hm ⟨i, hi⟩ ⟨j, hj⟩)
    have q1 : (1 / 2 ^ 53 : ℚ) = 2 ^ (-((53 : ℕ) : ℤ)) := by norm_num
    have q2 : (1 / 2 ^ 1075 : ℚ) = 2 ^ (-1074 : ℤ) / 2 := by norm_num
    rw [← q1, ← q2] at g2
    have g3 : 0 ≤ β := (abs_nonneg _).trans (g2.trans hβ.ge)
    intro h0
    rw [h0, abs_zero] at hd
    have : (0 : ℚ) < 1 / 2 ^ 200 := by norm_num
    linarith
  have hka : n + 1 + 1 < allocMax := by rw [allocMax_eq]; omega
  have hρ : ∀ i, ∑ j, |rval (V i j) - (ctrbMatrix ((toM (n + 1) (n + 1) a).map rval) ((toM (n + 1) 1 b).map rval))⁻¹ i j| ≤ σ + α ^ 2 * δ / (1 - α * δ) := fun i => by
    have h1 := (Finset.sum_le_sum fun j _ => (hVe i j).2).trans (hσ i)
    have h1' : ∑ j, |rval (V i j) - ((toM (n + 1) (n + 1) c).map rval)⁻¹ i j| ≤ (σ : ℝ) := by
      simp only [real_inv hdet0, rval]
      exact_mod_cast h1
    have h2 := (row_sum_le_norm (((toM (n + 1) (n + 1) c).map rval)⁻¹ - (ctrbMatrix ((toM (n + 1) (n + 1) a).map rval) ((toM (n + 1) 1 b).map rval))⁻¹) i).trans hSi
    refine le_trans ?_ (add_le_add h1' h2)
    rw [← Finset.sum_add_distrib]
    refine Finset.sum_le_sum fun j _ => ?_
    exact abs_sub_le _ _ _
  have hα' := fun i => (row_sum_le_norm _ i).trans hα
  obtain ⟨G, hG, -, -, hGf⟩ := C131_gain dIsZero hA hB hP hPe h0n hka hct hde hz hV
  have hVb : ∀ i k, (V i k).Finite ∧ |(V i k).val| ≤ 2 ^ 300 := fun i k => by
    refine ⟨(hVe i k).1, ?_⟩
    have h1 := (Finset.single_le_sum (f := fun j => |rval (V i j) - (ctrbMatrix ((toM (n + 1) (n + 1) a).map rval) ((toM (n + 1) 1 b).map rval))⁻¹ i j|)
      (fun _ _ => abs_nonneg _) (Finset.mem_univ k)).trans (hρ i)
    have h2 := (Finset.single_le_sum (f := fun j => |(ctrbMatrix ((toM (n + 1) (n + 1) a).map rval) ((toM (n + 1) 1 b).map rval))⁻¹ i j|)
      (fun _ _ => abs_nonneg _) (Finset.mem_univ k)).trans (hα' i)
    have h3 := abs_sub_abs_le_abs_sub (rval (V i k)) ((ctrbMatrix ((toM (n + 1) (n + 1) a).map rval) ((toM (n + 1) 1 b).map rval))⁻¹ i k)
    have h4 : |rval (V i k)| ≤ 2 ^ 300 := by linarith
    rw [rval] at h4
    exact_mod_cast h4
  have hfin := hGf 3 48 300 (by omega) hM he hVb (by omega)
  refine ⟨G, hG, hfin, fun j hj κ hκ => ?_⟩
  exact C131_placed dIsZero hA hB hP hPe h0n hka hct hde hz hV hy hctrl hα' hρ hG hfin hj hκ
end

/-- C131: a controllable system with finite numbers is refused because the determinant of its controllability matrix overflows: `A = (0 2^600; 0 0)`,
`B = (0, 2^600)`. For the poles `p` and `q` the gains would be `(p q / 2^1200, -(p + q) / 2^600)`. -/
theorem C131_controllable_false : ∃ (A B : Mat IDouble) (M : Matrix (Fin 2) (Fin 2) IDouble) (N : Matrix (Fin 2) (Fin 1) IDouble), A.toMB.Is M ∧ B.toMB.Is N ∧
    (∀ i j, (M i j).Finite) ∧ (∀ i j, (N i j).Finite) ∧ (ctrbMatrix (M.map val) (N.map val)).det ≠ 0 ∧
    (∀ p q : ℚ, (lastRow 2 : Matrix (Fin 1) (Fin 2) ℚ) * (ctrbMatrix (M.map val) (N.map val))⁻¹ * aeval (M.map val) ((X - C p) * (X - C q) : ℚ[X]) =
      !![p * q / 2 ^ 1200, -(p + q) / 2 ^ 600]) ∧
    ∀ P : MB IDouble, acker dIsZero A.toMB B.toMB P = .exit 1 := by
  have hf : Fits 2 2 := fits_small (by omega) (by omega)
  have hf1 : Fits 2 1 := fits_small (by omega) (by omega)
  set a : Nat → Nat → IDouble := fun i j => if i = 0 ∧ j = 1 then dbl (2 ^ 600) else 0 with ha
  set b : Nat → Nat → IDouble := fun i _ => if i = 1 then dbl (2 ^ 600) else 0 with hb
  have hv : (dbl (2 ^ 600)).val = 2 ^ 600 ∧ (dbl (2 ^ 600)).Finite ∧ (0 : IDouble).val = 0 := by decide +kernel
  obtain ⟨h1, h2, h3⟩ := hv
  have mA : (toM 2 2 a).map val = !![0, 2 ^ 600; 0, 0] := by
    funext i j
    fin_cases i <;> fin_cases j <;> simp [ha, toM, h1, h3]
  have mB : (toM 2 1 b).map val = !![0; 2 ^ 600] := by
    funext i j
    fin_cases i <;> fin_cases j <;> simp [hb, toM, h1, h3]
  have mC : ctrbMatrix !![(0 : ℚ), 2 ^ 600; 0, 0] !![0; 2 ^ 600] = !![0, 2 ^ 1200; 2 ^ 600, 0] := by
    funext i j
    fin_cases i <;> fin_cases j <;> simp [ctrbMatrix, Matrix.mul_apply, Fin.sum_univ_two]
    rw [← pow_add]
  have mI : (!![(0 : ℚ), 2 ^ 1200; 2 ^ 600, 0])⁻¹ = !![0, 1 / 2 ^ 600; 1 / 2 ^ 1200, 0] := by
    apply Matrix.inv_eq_left_inv
    funext i j
    fin_cases i <;> fin_cases j <;> simp [Matrix.mul_apply, Fin.sum_univ_two]
  refine ⟨Mat.ofFn 2 2 a, Mat.ofFn 2 1 b, _, _, (ofFn_rep hf a).is, (ofFn_rep hf1 b).is, fun i j => ?_, fun i j => ?_, ?_, fun p q => ?_, fun P => ?_⟩
  · simp only [ha, toM_apply]
    split
    · exact h2
    · exact zero_finite
  · simp only [hb, toM_apply]
    split
    · exact h2
    · exact zero_finite
  · rw [mA, mB, mC, Matrix.det_fin_two]
    simp
  · rw [mA, mB, mC, mI]
    simp only [map_mul, map_sub, aeval_X, aeval_C, Algebra.algebraMap_eq_smul_one]
    funext i j
    fin_cases i
    fin_cases j <;> simp [lastRow, Matrix.mul_apply, Fin.sum_univ_two, Matrix.one_apply]
    · ring
    · ring
  · by_cases h : P.rows ≠ 1 ∨ P.empty = true
    · exact C63_exit _ (by tauto)
    · have h' : (!Util.isRowVector P || P.empty) = false := by
        simp only [not_or, not_not] at h
        simp [Util.isRowVector, h.1, h.2]
      have hct : ctrb (Mat.ofFn 2 2 a).toMB (Mat.ofFn 2 1 b).toMB = .ok (Mat.ofFn 2 2 fun i j => if i = j then 0 else if i = 0 then .inf false else dbl (2 ^ 600)) := by
        decide +kernel
      unfold acker
      rw [show (!Util.isSquare (Mat.ofFn 2 2 a).toMB || !Util.isColumnVector (Mat.ofFn 2 1 b).toMB || (Mat.ofFn 2 2 a).toMB.rows != (Mat.ofFn 2 1 b).toMB.rows) =
        false from rfl, if_neg Bool.false_ne_true, h', if_neg Bool.false_ne_true, hct, Res.ok_bind, determinant_closed _ (ofFn_rep hf _) (by omega), Res.ok_bind,
        if_pos (by decide +kernel)]

section
open scoped Matrix.Norms.Operator

/-- C131: the double integrator with any two poles between `-1` and `1`: the gains are finite, and they are the product and minus the sum of the poles up to `2^-46`. -/
theorem C131_integrator {P : MB IDouble} {e : Nat → Nat → IDouble} (hP : Rep P 1 2 e) (hPe : P.empty = false) (he : ∀ k, k < 2 → (e 0 k).Finite ∧ |(e 0 k).val| ≤ 1) :
    ∃ G : Matrix (Fin 1) (Fin 2) IDouble,
      Yields (acker dIsZero (⟨2, 2, [0, 1, 0, 0]⟩ : Mat IDouble).toMB (⟨2, 1, [0, 1]⟩ : Mat IDouble).toMB P) G ∧ (∀ j, (G 0 j).Finite) ∧
      |rval (G 0 0) - rval (e 0 0) * rval (e 0 1)| + |rval (G 0 1) + (rval (e 0 0) + rval (e 0 1))| ≤ 1 / 2 ^ 46 := by
  have hf : Fits 2 2 := fits_small (by omega) (by omega)
  have hf1 : Fits 2 1 := fits_small (by omega) (by omega)
  set a : Nat → Nat → IDouble := fun i j => if i = 0 ∧ j = 1 then 1 else 0 with ha
  set b : Nat → Nat → IDouble := fun i _ => if i = 1 then 1 else 0 with hb
  set c : Nat → Nat → IDouble := fun i j => if i = j then 0 else 1 with hc
  set v : Nat → Nat → IDouble := fun i j => if i = j then -0 else 1 with hv
  have one : rval 1 = 1 := by rw [rval, show (1 : IDouble).val = 1 by decide +kernel, Rat.cast_one]
  have zero : rval 0 = 0 := by rw [rval, show (0 : IDouble).val = 0 by decide +kernel, Rat.cast_zero]
  have nzero : rval (-0) = 0 := by rw [rval, show (-0 : IDouble).val = 0 by decide +kernel, Rat.cast_zero]
  have eA : (⟨2, 2, [0, 1, 0, 0]⟩ : Mat IDouble) = Mat.ofFn 2 2 a := by decide +kernel
  have eB : (⟨2, 1, [0, 1]⟩ : Mat IDouble) = Mat.ofFn 2 1 b := by decide +kernel
  rw [eA, eB]
  have hct : ctrb (Mat.ofFn 2 2 a).toMB (Mat.ofFn 2 1 b).toMB = .ok (Mat.ofFn 2 2 c) := by decide +kernel
  have hd : determinant dIsZero (Mat.ofFn 2 2 c).toMB = .ok (-1) := by decide +kernel
  have hi : inverse dIsZero (Mat.ofFn 2 2 c).toMB = .ok (Mat.ofFn 2 2 v) := by
    rw [inverse_table (by norm_num) (by decide +kernel)]
    decide +kernel
  have mA : (toM 2 2 a).map rval = !![0, 1; 0, 0] := by
    funext i j
    fin_cases i <;> fin_cases j <;> simp [ha, toM, one, zero]
  have mB : (toM 2 1 b).map rval = !![0; 1] := by
    funext i j
    fin_cases i <;> fin_cases j <;> simp [hb, toM, one, zero]
  have mC : ctrbMatrix !![(0 : ℝ), 1; 0, 0] !![0; 1] = !![0, 1; 1, 0] := by
    funext i j
    fin_cases i <;> fin_cases j <;> simp [ctrbMatrix, Matrix.mul_apply, Fin.sum_univ_two]
  have mI : (!![(0 : ℝ), 1; 1, 0])⁻¹ = !![0, 1; 1, 0] := by
    apply Matrix.inv_eq_left_inv
    funext i j
    fin_cases i <;> fin_cases j <;> simp [Matrix.mul_apply, Fin.sum_univ_two]
  obtain ⟨G, hG, -, hGe, hGf⟩ := C131_gain dIsZero (ofFn_rep hf a).is (ofFn_rep hf1 b).is hP hPe (by norm_num)
    (by rw [allocMax_eq]; norm_num) hct hd (by decide +kernel) (Yields.of_eq hf hi)
  have za : ∀ x : IDouble, x = 0 ∨ x = 1 ∨ x = -0 → x.Finite ∧ |x.val| ≤ 2 ^ 0 := by
    rintro x (rfl | rfl | rfl) <;> decide +kernel
  have hfin := hGf 2 0 0 (by norm_num) (fun i k => za _ (by rw [toM_apply, ha]; dsimp only; split <;> simp)) (fun k hk => by rw [pow_zero]; exact he k hk)
    (fun i k => za _ (by rw [toM_apply, hv]; dsimp only; split <;> simp)) (by norm_num)
  refine ⟨G, hG, hfin, ?_⟩
  have hGe := hGe 1 1 0 (norm_le_of_rows zero_le_one fun i => by rw [mA]; fin_cases i <;> simp)
    (fun i => by rw [mA, mB, mC, mI]; fin_cases i <;> simp)
    (fun i => by rw [mA, mB, mC, mI]; fin_cases i <;> simp [hv, toM, one, nzero]) Finset.univ fun j _ => hfin j
  have hK : ∀ j, ((lastRow 2 : Matrix (Fin 1) (Fin 2) ℝ) * (ctrbMatrix ((toM 2 2 a).map rval) ((toM 2 1 b).map rval))⁻¹ *
      aeval ((toM 2 2 a).map rval) (∏ j : Fin 2, (X - C (rval (e 0 j))) : ℝ[X])) 0 j =
      ![rval (e 0 0) * rval (e 0 1), -(rval (e 0 0) + rval (e 0 1))] j := fun j => by
    rw [mA, mB, mC, mI, Fin.prod_univ_two]
    simp only [map_mul, map_sub, aeval_X, aeval_C, Algebra.algebraMap_eq_smul_one]
    fin_cases j <;> simp [lastRow, Matrix.mul_apply, Fin.sum_univ_two, Matrix.one_apply]
    ring
  simp only [hK] at hGe
  simp only [Fin.sum_univ_two, Fin.prod_univ_two] at hGe
  simp only [Matrix.cons_val_zero, Matrix.cons_val_one, sub_neg_eq_add, Fin.val_zero, Fin.val_one] at hGe
  refine hGe.trans ?_
  have h0 : |rval (e 0 0)| ≤ 1 := by rw [rval]; exact_mod_cast (he 0 (by norm_num)).2
  have h1 : |rval (e 0 1)| ≤ 1 := by rw [rval]; exact_mod_cast (he 1 (by norm_num)).2
  have q1 : (1 + |rval (e 0 0)|) * (1 + |rval (e 0 1)|) ≤ 4 := by
    have := abs_nonneg (rval (e 0 0)); have := abs_nonneg (rval (e 0 1)); nlinarith
  have q0 : 0 ≤ (1 + |rval (e 0 0)|) * (1 + |rval (e 0 1)|) := by positivity
  generalize (1 + |rval (e 0 0)|) * (1 + |rval (e 0 1)|) = q at q0 q1
  unfold gainErr ackerUnder expmRate
  norm_num
  linarith

end

/-- Poles that are too large make the gains of the double integrator NaN, without a message: the product of the poles overflows. -/
example : acker dIsZero (Mat.ofFn 2 2 fun i j => if i = 0 ∧ j = 1 then 1 else 0 : Mat IDouble).toMB (Mat.ofFn 2 1 fun i _ => if i = 1 then 1 else 0 : Mat IDouble).toMB
    (Mat.ofFn 1 2 fun _ _ => dbl (-2 ^ 600) : Mat IDouble).toMB = .ok ⟨1, 2, [.nan, .nan]⟩ := by
  have hf : Fits 2 2 := fits_small (by omega) (by omega)
  have hi : inverse dIsZero (Mat.ofFn 2 2 fun i j => if i = j then 0 else 1 : Mat IDouble).toMB = .ok (Mat.ofFn 2 2 fun i j => if i = j then -0 else 1) := by
    rw [inverse_table (by norm_num) (by decide +kernel)]
    decide +kernel
  rw [acker_tables dIsZero (ofFn_rep hf _) (ofFn_rep (fits_small (by omega) (by omega)) _) (ofFn_rep (fits_small (by omega) (by omega)) _) rfl (by omega)
    (by rw [allocMax_eq]; norm_num) (g := fun i => if i = 0 then 1 else if i = 1 then dbl (2 ^ 601) else .inf false) (by decide +kernel)
    (ct := Mat.ofFn 2 2 fun i j => if i = j then 0 else 1) (by decide +kernel) rfl (d := -1) (by decide +kernel) (by decide +kernel) hi (ofFn_rep hf _)]
  decide +kernel

end Malg
