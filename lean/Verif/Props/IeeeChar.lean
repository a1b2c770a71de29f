import Verif.Props.FloatChar
import Verif.Props.IeeeC2d
/-!
# Property C134: characteristic polynomials of IEEE doubles

C133 bounds the error of `poly(A)` in an arithmetic without largest number. Here the numbers are IEEE doubles.
-/
namespace Malg
open Ops Lin Control Ieee Polynomial Matrix

set_option exponentiation.threshold 3000

theorem natCast_fl {m : Nat} (hm : m ≤ 2 ^ 53) : ((m : IDouble)).fl = some (m : Double) ∧ ((m : Double)).val = m := by
  have h : ((m : Double)).val = m := natCast_val (by norm_num) (by norm_num) hm
  refine ⟨fl_mk ?_, h⟩
  show |((m : Double)).val| < 2 ^ 1024
  rw [h, abs_of_nonneg (Nat.cast_nonneg m)]
  calc (m : ℚ) ≤ 2 ^ 53 := by exact_mod_cast hm
    _ < 2 ^ 1024 := pow_lt_pow_right₀ (by norm_num) (by norm_num)

theorem quot_ieee (t : IDouble) (m : Nat) : quot t m = Ieee.div t (m : IDouble) := rfl

theorem quot_double {x : Double} {m : Nat} (h1 : 1 ≤ m) (hm : m ≤ 2 ^ 53) : quot x m = Fl.of 53 (-1074) (x.val / m) := by
  have h : ((m : Double)).val = m := (natCast_fl hm).2
  have h0 : ((m : Double)).val ≠ 0 := by rw [h]; exact Nat.cast_ne_zero.2 (by omega)
  have : cdiv x (m : Double) = .ok (Fl.of 53 (-1074) (x.val / ((m : Double)).val)) := if_neg h0
  unfold quot
  rw [this, h]

theorem rd_quot {t : IDouble} {x : Double} (h : Rd fl t x) {m : Nat} (h1 : 1 ≤ m) (hm : m ≤ 2 ^ 53) : Rd fl (quot t m) (quot x m) := by
  intro c hc
  rw [quot_ieee] at hc
  obtain ⟨h2, h3⟩ := natCast_fl hm
  obtain ⟨h4, h5⟩ := fl_div_some (Option.isSome_iff_exists.2 ⟨_, h2⟩) hc
  have h6 : t.val = x.val := by rw [Ieee.val, h4.eq h]
  have h7 : (m : IDouble).val = m := by rw [Ieee.val, Ieee.flD, h2]; exact h3
  rw [h5, quot_double h1 hm, h6, h7]

theorem Sz.quot {t : IDouble} {x : Double} {s : Nat} (h : Sz t x s) (hs : s < 1024) {m : Nat} (h1 : 1 ≤ m) (hm : m ≤ 2 ^ 53) :
    Sz (Malg.quot t m) (Malg.quot x m) s := by
  obtain ⟨h2, h3⟩ := natCast_fl hm
  have hm1 : (1 : ℚ) ≤ m := by exact_mod_cast h1
  have hle : |x.val / m| ≤ 2 ^ s := by
    rw [abs_div, abs_of_nonneg (by linarith : (0 : ℚ) ≤ m)]
    exact (div_le_self (abs_nonneg _) hm1).trans h.2
  have h4 := rnd_pow hle
  have h5 : (Ieee.div t (m : IDouble)).fl = some (Fl.of 53 (-1074) (x.val / (m : Double).val)) := by
    refine fl_div h.1 h2 (by rw [h3]; linarith) ?_
    rw [h3]
    exact h4.trans_lt (pow_lt_max hs)
  rw [h3] at h5
  rw [quot_ieee, quot_double h1 hm]
  exact ⟨h5, h4⟩

theorem rd_levStep {n : Nat} (hn : n ≤ 2 ^ 53) (e : Nat → Nat → IDouble) {k : Nat} (hk : k + 1 ≤ n) :
    (∀ i j, Rd fl ((levStep n e k).1 i j) ((levStep n (fun i j => (e i j).flD) k).1 i j)) ∧
      Rd fl (levStep n e k).2 (levStep n (fun i j => (e i j).flD) k).2 := by
  induction k with
  | zero => exact ⟨fun i j => rd_flD _, ireads.rd_lsum fun i _ => rd_flD _⟩
  | succ k ih =>
    obtain ⟨h1, h2⟩ := ih (by omega)
    have h3 : ∀ i j, Rd fl ((levStep n e (k + 1)).1 i j) ((levStep n (fun i j => (e i j).flD) (k + 1)).1 i j) := fun i j =>
      ireads.rd_lsum fun l _ => ireads.rd_mul (rd_flD _) (ireads.rd_sub (h1 l j) (ireads.rd_mul (by
        split
        · exact ireads.rd_one
        · exact ireads.rd_zero) h2))
    exact ⟨h3, rd_quot (ireads.rd_lsum fun i _ => h3 i i) (by omega) (by omega)⟩

theorem levStep_sz {n s q : Nat} (hq : n ≤ 2 ^ q) (hs : n * (s + 2 * q + 1) ≤ 1023) {e : Nat → Nat → IDouble}
    (he : ∀ i j, i < n → j < n → Sz (e i j) (e i j).flD s) {k : Nat} (hk : k + 1 ≤ n) :
    (∀ i j, i < n → j < n → Sz ((levStep n e k).1 i j) ((levStep n (fun i j => (e i j).flD) k).1 i j) (s + k * (s + 2 * q + 1))) ∧
      Sz (levStep n e k).2 (levStep n (fun i j => (e i j).flD) k).2 (s + k * (s + 2 * q + 1) + q) := by
  have hle : ∀ j, j ≤ n → j * (s + 2 * q + 1) ≤ 1023 := fun j hj => (Nat.mul_le_mul_right _ hj).trans hs
  have hn53 : n ≤ 2 ^ 53 := by
    have : n ≤ 1023 := by nlinarith
    omega
  have hq53 : ∀ {a : Nat → IDouble} {x : Nat → Double} {f : Nat}, (∀ i, i < n → Sz (a i) (x i) f) → f + q < 1024 → Sz (lsum n a) (lsum n x) (f + q) := by
    intro a x f ha hf
    by_cases h : q ≤ 53
    · exact Sz.sum hq h ha hf
    · exact (Sz.sum (q := 53) hn53 le_rfl ha (by omega)).mono (by omega)
  induction k with
  | zero =>
    refine ⟨fun i j hi hj => by simpa [levStep] using he i j hi hj, ?_⟩
    have := hle 1 hk
    simpa [levStep] using hq53 (f := s) (fun i hi => he i i hi hi) (by omega)
  | succ k ih =>
    obtain ⟨h1, h2⟩ := ih (by omega)
    have hs2 := hle (k + 2) (by omega)
    have e1 : (k + 2) * (s + 2 * q + 1) = k * (s + 2 * q + 1) + (s + 2 * q + 1) + (s + 2 * q + 1) := by ring
    have e2 : (k + 1) * (s + 2 * q + 1) = k * (s + 2 * q + 1) + (s + 2 * q + 1) := by ring
    rw [e1] at hs2
    rw [e2]
    set P := k * (s + 2 * q + 1)
    have h3 : ∀ i j, i < n → j < n → Sz ((levStep n e (k + 1)).1 i j) ((levStep n (fun i j => (e i j).flD) (k + 1)).1 i j) (s + (P + (s + 2 * q + 1))) := by
      intro i j hi hj
      refine Sz.mono (hq53 (f := s + (s + P + q + 1)) (fun l hl => ?_) (by omega)) (by omega)
      refine Sz.mul (he i l hi hl) (Sz.sub (by omega) ((h1 l j hl hj).mono (by omega)) ?_) (by omega)
      have h4 : Sz (if l = j then 1 else 0) (if l = j then 1 else 0) 0 := by
        split
        · exact Sz.one
        · exact Sz.zero
      exact (Sz.mul h4 h2 (by omega)).mono (by omega)
    exact ⟨h3, Sz.quot (hq53 (fun i hi => h3 i i hi hi) (by omega)) (by omega) (by omega) (by omega)⟩

/-- C134: `poly(A)` of doubles returns `n + 1` coefficients. A finite one comes from a finite diagonal, from the third on from a finite matrix, and satisfies the
bound of C133. All are finite if the elements are finite and at most `2^s`, `n ≤ 2^q` and `n (s + 2 q + 1) < 1024`. -/
theorem C134_poly_partial {A : MB IDouble} {n : Nat} {M : Matrix (Fin n) (Fin n) IDouble} (hA : A.Is M) (hn : (2 * n + 3) * n ≤ 2 ^ 52) :
    ∃ c : List IDouble, polyMat A = .ok c ∧ c.length = n + 1 ∧
      (∀ i x, c[i]? = some x → x.Finite → (1 ≤ i → ∀ j, (M j j).Finite) ∧ (2 ≤ i → ∀ j l, (M j l).Finite) ∧
        ∀ μ, 0 ≤ μ → (∀ i, ∑ j, |(M i j).val| ≤ μ) →
          |x.val - (M.map Ieee.val).charpoly.coeff (n - i)| ≤ ((2 * n + 3) * i : ℕ) / 2 ^ 52 * ((n + i - 1).choose i * μ ^ i) +
            (n + 1) * (2 * ((n + 1) * (μ + 1))) ^ i / 2 ^ 1074) ∧
      ∀ s q, n ≤ 2 ^ q → n * (s + 2 * q + 1) < 1024 → (∀ i j, (M i j).Finite ∧ |(M i j).val| ≤ 2 ^ s) → ∀ x ∈ c, x.Finite := by
  obtain ⟨e, hA, rfl⟩ := hA
  set z : Nat → Nat → Double := fun i j => (e i j).flD with hz
  set A' : Mat Double := Mat.ofFn n n z with hA'
  have hf := hA.fits
  have hr : A'.toMB.Is (toM n n z) := ⟨z, ofFn_rep hf z, rfl⟩
  have hone : (1 : IDouble).Finite := Option.isSome_iff_exists.2 ⟨_, ireads.one⟩
  -- the list, its counterpart without overflow, and how they relate
  obtain ⟨c, d, hc, hd, hcl, hrd, h1, h2, hsz⟩ : ∃ (c : List IDouble) (d : List Double), polyMat A = .ok c ∧ polyMat A'.toMB = .ok d ∧ c.length = n + 1 ∧
      (∀ (i : Nat) (x : IDouble), c[i]? = some x → ∃ y : Double, d[i]? = some y ∧ Rd fl x y) ∧ (∀ i x, c[i]? = some x → x.Finite → 1 ≤ i → ∀ j, j < n → (e j j).Finite) ∧
      (∀ i x, c[i]? = some x → x.Finite → 2 ≤ i → ∀ j l, j < n → l < n → (e j l).Finite) ∧
      ∀ s q, n ≤ 2 ^ q → n * (s + 2 * q + 1) < 1024 → (∀ i j : Fin n, (e i j).Finite ∧ |(e i j).val| ≤ 2 ^ s) → ∀ x ∈ c, x.Finite := by
    by_cases h0 : n = 0
    · subst h0
      refine ⟨[1], [1], ?_, ?_, rfl, fun i x hx => ?_, fun i x hx _ _ j hj => absurd hj (Nat.not_lt_zero _), fun i x hx _ _ j l hj => absurd hj (Nat.not_lt_zero _),
        fun _ _ _ _ _ x hx => ?_⟩
      · unfold polyMat polyMatD; rw [hA.size, if_pos rfl]
      · unfold polyMat polyMatD; rw [(ofFn_rep hf z).size, if_pos rfl]
      · cases i with
        | zero => injection hx with hx; subst hx; exact ⟨1, rfl, ireads.rd_one⟩
        | succ i => cases hx
      · rw [List.mem_singleton.1 hx]; exact hone
    by_cases h1 : n = 1
    · subst h1
      refine ⟨_, _, polyMat_single hA, polyMat_single (ofFn_rep hf z), rfl, fun i x hx => ?_, fun i x hx hxf hi j hj => ?_, fun i x hx _ hi => ?_,
        fun s q _ hs he x hx => ?_⟩
      · match i with
        | 0 => injection hx with hx; subst hx; exact ⟨1, rfl, ireads.rd_one⟩
        | 1 =>
          injection hx with hx; subst hx
          exact ⟨_, rfl, ireads.rd_sub ireads.rd_zero (ireads.rd_mul (rd_flD _) ireads.rd_one)⟩
        | i + 2 => cases hx
      · match i with
        | 1 =>
          injection hx with hx; subst hx
          obtain rfl : j = 0 := by omega
          exact (ireads.some_mul (ireads.some_sub hxf).2).1
        | i + 2 => cases hx
      · match i with
        | i + 2 => cases hx
      · rcases List.mem_cons.1 hx with rfl | hx
        · exact hone
        · rw [List.mem_singleton.1 hx]
          have h4 : Sz (e 0 0) (e 0 0).flD s := Sz.of_finite (he 0 0).1 (he 0 0).2
          exact (Sz.sub (e := s) (by omega) (Sz.zero.mono (by omega)) (Sz.mul h4 Sz.one (by omega))).finite
    have hn2 : 2 ≤ n := by omega
    have hn53 : n ≤ 2 ^ 53 := by nlinarith
    have hget : ∀ {T : Type} (f : Nat → T) i x, (vtab (n + 1) f)[i]? = some x → i < n + 1 ∧ x = f i := by
      intro T f i x hx
      have hi : i < n + 1 := by
        by_contra hc
        rw [List.getElem?_eq_none (by simp; omega)] at hx
        cases hx
      rw [vtab, List.getElem?_map, List.getElem?_range hi] at hx
      injection hx with hx
      exact ⟨hi, hx.symm⟩
    have hnegf : ∀ {a : IDouble}, (-a).Finite → a.Finite := by
      intro a ha
      unfold Ieee.Finite at ha ⊢
      rw [fl_neg, Option.isSome_map] at ha
      exact ha
    have hmf : ∀ m, m ≤ n → ((m : IDouble)).Finite := fun m hm => Option.isSome_iff_exists.2 ⟨_, (natCast_fl (hm.trans hn53)).1⟩
    refine ⟨_, _, polyMat_tables hA hn2 fun t m _ _ => ⟨_, rfl⟩, polyMat_tables (ofFn_rep hf z) hn2 fun t m h2 h3 => ?_, by simp, fun i x hx => ?_,
      fun i x hx hxf hi j hj => ?_, fun i x hx hxf hi j l hj hl => ?_, fun s q hq hs he x hx => ?_⟩
    · have hv := (natCast_fl (h3.trans hn53)).2
      exact ⟨_, if_neg (by rw [hv]; exact Nat.cast_ne_zero.2 (by omega))⟩
    · obtain ⟨hi, rfl⟩ := hget _ _ _ hx
      refine ⟨if i = 0 then 1 else -(levStep n z (i - 1)).2, by
        unfold vtab; rw [List.getElem?_map, List.getElem?_range hi]; rfl, ?_⟩
      split
      · exact ireads.rd_one
      · intro c hc
        rw [fl_neg] at hc
        obtain ⟨y, hy, rfl⟩ := Option.map_eq_some_iff.1 hc
        rw [(rd_levStep hn53 e (by omega)).2 y hy]
    · obtain ⟨hi', rfl⟩ := hget _ _ _ hx
      rw [if_neg (by omega)] at hxf
      obtain ⟨k, rfl⟩ : ∃ k, i = k + 1 := ⟨i - 1, by omega⟩
      have h4 := hnegf hxf
      rw [Nat.add_sub_cancel] at h4
      match k, h4 with
      | 0, h4 => exact ireads.some_lsum h4 j hj
      | k + 1, h4 =>
        obtain ⟨c, hc⟩ := Option.isSome_iff_exists.1 h4
        have h5 := (fl_div_some (hmf (k + 2) (by omega)) hc).1
        exact (ireads.some_mul (ireads.some_lsum (ireads.some_lsum h5 j hj) j hj)).1
    · obtain ⟨hi', rfl⟩ := hget _ _ _ hx
      rw [if_neg (by omega)] at hxf
      obtain ⟨k, rfl⟩ : ∃ k, i = k + 2 := ⟨i - 2, by omega⟩
      have h4 := hnegf hxf
      obtain ⟨c, hc⟩ := Option.isSome_iff_exists.1 h4
      have h5 := (fl_div_some (hmf (k + 2) (by omega)) hc).1
      exact (ireads.some_mul (ireads.some_lsum (ireads.some_lsum h5 j hj) l hl)).1
    · obtain ⟨i, hi⟩ := List.getElem?_of_mem hx
      obtain ⟨hi', rfl⟩ := hget _ _ _ hi
      split
      · exact hone
      · exact ((levStep_sz hq (by omega) (fun i j hi hj => Sz.of_finite (he ⟨i, hi⟩ ⟨j, hj⟩).1 (he ⟨i, hi⟩ ⟨j, hj⟩).2) (by omega)).2.neg).finite
  refine ⟨c, hc, hcl, fun i x hx hxf => ⟨fun hi j => h1 i x hx hxf hi j j.2, fun hi j l => h2 i x hx hxf hi j l j.2 l.2, fun μ hμ0 hμ => ?_⟩, hsz⟩
  obtain ⟨d', hd', -, hb⟩ := C133_double_partial hr hn hμ0 hμ
  rw [hd] at hd'
  injection hd' with hd'
  subst hd'
  obtain ⟨y, hy, hry⟩ := hrd i x hx
  have h3 := hb i y hy
  rw [Ieee.val, hxf.eq hry]
  exact h3

set_option maxRecDepth 100000 in
/-- C134, the part that fails: a product overflows and is then multiplied by zero, although the matrix and the coefficients of its characteristic polynomial
`x^3 - 2^600 x^2` are doubles. -/
theorem C134_overflow_false : ∃ h : IDouble, h.Finite ∧ h.val = 2 ^ 600 ∧ polyMat (⟨3, 3, [h, h, 0, 0, 0, 0, 0, 0, 0]⟩ : Mat IDouble).toMB = .ok [1, -h, -0, .nan] ∧
    (!![(2 : ℚ) ^ 600, 2 ^ 600, 0; 0, 0, 0; 0, 0, 0]).charpoly = X ^ 3 - C (2 ^ 600) * X ^ 2 := by
  refine ⟨Ieee.mk false (2 ^ 600), by decide +kernel, by decide +kernel, by decide +kernel, ?_⟩
  rw [Matrix.charpoly, Matrix.det_fin_three]
  simp
  ring

set_option maxRecDepth 100000 in
/-- Infinities and NaN: on the diagonal they show in the second coefficient, elsewhere in the third. -/
example : polyMat (⟨2, 2, [1, .inf false, 0, 1]⟩ : Mat IDouble).toMB = .ok [1, -2, .nan] ∧ polyMat (⟨2, 2, [.inf true, 0, 0, 1]⟩ : Mat IDouble).toMB = .ok [1, .inf false, .nan] ∧
    polyMat (⟨1, 1, [.nan]⟩ : Mat IDouble).toMB = .ok [1, .nan] ∧ polyMat (⟨2, 2, [1, 1, 1, 1]⟩ : Mat IDouble).toMB = .ok [1, -2, -0] := by decide +kernel

end Malg
