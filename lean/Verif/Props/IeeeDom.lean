import Verif.Props.DominantDet
import Verif.Props.IeeeLu
/-!
# Property C139: `determinant` of 5×5 and larger matrices of IEEE doubles
-/
namespace Malg
open Ops Lin Ieee

set_option exponentiation.threshold 3000

/-- A step of the elimination with a usable pivot. -/
theorem elimStep_pivot {T : Type} [Zero T] [One T] [Sub T] [Mul T] [Neg T] [CDiv T] {isz : T → Bool} {N c : Nat} (hf : Fits N N) (hc : c < N) (e : Nat → Nat → T)
    (d : T) (h0 : isz (e c c) = false) (hd : Divisor (e c c)) :
    elimStep isz N c ⟨Mat.ofFn N N e, d, false⟩ = .ok ⟨Mat.ofFn N N (elimT e c fun r => quo (e r c) (e c c)), d * e c c, false⟩ := by
  unfold elimStep
  rw [if_neg (by simp)]
  dsimp only
  rw [ofFn_at hf hc hc, Res.ok_bind, h0, if_neg (by simp)]
  show ((Mat.ofFn N N e).at_ c c >>= _) = _
  rw [ofFn_at hf hc hc, Res.ok_bind, eliminate_eq hf hc (q := fun r => quo (e r c) (e c c)) (fun r _ _ => hd _)]
  rfl

theorem elim_eps_le {K : Type} [Field K] [LinearOrder K] [IsStrictOrderedRing K] {u η G : K} {n : Nat} (hu : 0 ≤ u) (hu8 : u ≤ 1 / 8) (hη : 0 ≤ η) (hG0 : 0 ≤ G) (hn : 4 < n) :
    (n : K) * (((1 + u) ^ 3 - 1) * G + (1 + u) ^ 2 * η * (n + G)) ≤ n ^ 2 * (4 * u * G + (2 + G) * η) := by
  have hn5 : (5 : K) ≤ n := by exact_mod_cast hn
  have hn0 : (0 : K) ≤ n := by linarith
  have h2 : (1 + u) ^ 3 - 1 ≤ 4 * u := by nlinarith [mul_nonneg hu hu]
  have h3 : (1 + u) ^ 2 ≤ 2 := by nlinarith [mul_nonneg hu hu]
  have h4 := mul_le_mul_of_nonneg_right h2 hG0
  have h5 : (1 + u) ^ 2 * η * (n + G) ≤ 2 * η * (n + G) := by
    apply mul_le_mul_of_nonneg_right (mul_le_mul_of_nonneg_right h3 hη) (by positivity)
  have h6 : 0 ≤ u * G := by positivity
  have h7 : 0 ≤ η * G := by positivity
  rw [pow_two (n : K), mul_assoc (n : K)]
  apply mul_le_mul_of_nonneg_left _ hn0
  have h8 : u * G ≤ n * (u * G) := le_mul_of_one_le_left h6 (by linarith)
  have h9 : 2 * (η * G) ≤ n * (η * G) := mul_le_mul_of_nonneg_right (by linarith) h7
  linarith

/-- The pivots are not much smaller than the largest entry. -/
theorem elim_pivot_large {n : Nat} (hn : 4 < n) {G δ p : ℚ} (hG : 0 ≤ G) (hδ : δ = n ^ 2 * (G / 2 ^ 51 + (2 + G) / 2 ^ 1075)) (hp : δ ≤ p) : 0 < δ ∧ G ≤ 2 ^ 47 * p := by
  have hn5 : (5 : ℚ) ≤ n := by exact_mod_cast hn
  have hn25 : (25 : ℚ) ≤ n ^ 2 := by nlinarith
  have h1 : 0 < (2 + G) / 2 ^ 1075 := by positivity
  have h2 : 0 ≤ G / 2 ^ 51 := by positivity
  have h3 : 25 * (G / 2 ^ 51) ≤ n ^ 2 * (G / 2 ^ 51) := mul_le_mul_of_nonneg_right hn25 h2
  have h4 : 0 < (n : ℚ) ^ 2 * ((2 + G) / 2 ^ 1075) := by positivity
  rw [mul_add] at hδ
  generalize (n : ℚ) ^ 2 * ((2 + G) / 2 ^ 1075) = z at *
  refine ⟨by linarith, ?_⟩
  have h5 : 25 * (G / 2 ^ 51) ≤ p := by linarith
  have h6 : (2 : ℚ) ^ 47 * (25 * (G / 2 ^ 51)) = 25 / 16 * G := by ring
  have h7 := mul_le_mul_of_nonneg_left h5 (by positivity : (0 : ℚ) ≤ 2 ^ 47)
  rw [h6] at h7
  linarith

theorem abs_div_le_pow {y p G : ℚ} {k : Nat} (hp : p ≠ 0) (hy : |y| ≤ G) (h : G ≤ 2 ^ k * |p|) : |y / p| ≤ 2 ^ k := by
  rw [abs_div, div_le_iff₀ (abs_pos.2 hp)]
  exact hy.trans h

/-- C139: the determinant of a finite matrix that is diagonally dominant by twice the rounding errors, and whose row sums are not too large for
their `n`-th power to be a `double`, is finite and has the relative accuracy of C137. -/
theorem C139_dominant_partial {A : MB IDouble} {n : Nat} (hn : 4 < n) {M : Matrix (Fin n) (Fin n) IDouble} (hA : A.Is M) (hfin : ∀ i j, (M i j).Finite) {G g δ : ℚ} {s : Nat}
    (hG : ∀ i, 2 * ∑ j, |(M i j).val| ≤ G) (hGs : G ≤ 2 ^ s) (hs : s * n < 1024) (hδ : δ = n ^ 2 * (G / 2 ^ 51 + (2 + G) / 2 ^ 1075)) (hδg : 2 * δ ≤ g)
    (hdom : ∀ i, ∑ j ∈ Finset.univ.erase i, |(M i j).val| + g ≤ |(M i i).val|) :
    ∃ d, determinant dIsZero A = .ok d ∧ d.Finite ∧
      |d.val - (M.map val).det| ≤ ((1 + 1 / 2 ^ 53) ^ n * (1 + δ / (g - δ)) ^ n - 1) * |(M.map val).det| + n * ((1 + 1 / 2 ^ 53) * (1 + G)) ^ n / 2 ^ 1075 := by
  obtain ⟨a, h, rfl⟩ := hA
  have ht : |doubleTol.val| ≤ 1 / 4 := by decide +kernel
  obtain ⟨R, one, -, hu8, hz⟩ := C123_float (K := ℚ) (p := 53) (emin := -1074) (by norm_num) (by norm_num) ht
  set isz := Feq.approxZero Fl.abs doubleTol with hisz
  have hu : (2 : ℚ) ^ (-((53 : ℕ) : ℤ)) = 1 / 2 ^ 53 := by norm_num
  have hη : (2 : ℚ) ^ (-1074 : ℤ) / 2 = 1 / 2 ^ 1075 := by
    rw [two_zpow_emin, div_div, ← pow_succ]
  rw [hu] at R hu8
  rw [hη] at R
  have hu0 := R.u_nonneg
  have hη0 := R.η_nonneg
  have hδ' : δ = n ^ 2 * (4 * (1 / 2 ^ 53) * G + (2 + G) * (1 / 2 ^ 1075)) := by
    rw [hδ]
    congr 2
    swap
    · rw [mul_one_div]
    rw [mul_one_div, div_mul_eq_mul_div, mul_comm 4 G, div_eq_div_iff (by positivity) (by positivity), pow_succ, pow_succ]
    ring
  set ρ : Nat → ℚ := fun r => ∑ j ∈ Finset.range n, |(a r j).val| with hρ
  set γ : Nat → ℚ := fun r => 2 * |(a r r).val| - ρ r with hγ
  have hρM : ∀ i : Fin n, ∑ j, |(toM n n a i j).val| = ρ i := fun i => (Finset.sum_range fun j => |(a i j).val|).symm
  have hρG : ∀ r, r < n → 2 * ρ r ≤ G := fun r hr => by
    have := hG ⟨r, hr⟩
    rwa [hρM ⟨r, hr⟩] at this
  have hG0 : 0 ≤ G := by
    have h1 := hρG 0 (by omega)
    have : 0 ≤ ρ 0 := Finset.sum_nonneg fun _ _ => abs_nonneg _
    linarith
  have hδ0 : 0 < δ := (elim_pivot_large hn hG0 hδ le_rfl).1
  have hgr : ∀ r, r < n → γ r ≤ ρ r := fun r hr => by
    have h1 := Finset.single_le_sum (f := fun j => |(a r j).val|) (fun j _ => abs_nonneg _) (Finset.mem_range.2 hr)
    simp only [hγ]
    linarith
  have hgγ : ∀ r, r < n → g ≤ γ r := fun r hr => by
    have h1 := Finset.sum_erase_add Finset.univ (fun j => |(toM n n a ⟨r, hr⟩ j).val|) (Finset.mem_univ ⟨r, hr⟩)
    rw [hρM ⟨r, hr⟩] at h1
    have h2 := hdom ⟨r, hr⟩
    have e : |(toM n n a ⟨r, hr⟩ ⟨r, hr⟩).val| = |(a r r).val| := rfl
    rw [e] at h1 h2
    simp only [hγ]
    linarith
  obtain ⟨ε, hε⟩ : ∃ ε : ℚ, ε = ((1 + 1 / 2 ^ 53) ^ 3 - 1) * G + (1 + 1 / 2 ^ 53) ^ 2 * (1 / 2 ^ 1075) * (n + G) := ⟨_, rfl⟩
  have hεδ : n * ε ≤ δ := by
    rw [hδ', hε]
    exact elim_eps_le hu0 hu8 hη0 hG0 hn
  have hε0 : 0 ≤ ε := by
    rw [hε]
    have : (0 : ℚ) ≤ (1 + 1 / 2 ^ 53) ^ 3 - 1 := sub_nonneg.2 (one_le_pow₀ (by linarith))
    positivity
  have hgE : ∀ r, r < n → n * ε < γ r := fun r hr => by
    have := hgγ r hr
    linarith
  have hs5 : s * 5 ≤ s * n := Nat.mul_le_mul_left s hn
  have key : ∀ c, c ≤ n → ∃ e d e' d', forRange 0 c (⟨Mat.ofFn n n a, 1, false⟩ : ElimState IDouble) (fun c s => elimStep dIsZero n c s) = .ok ⟨Mat.ofFn n n e, d, false⟩ ∧
      forRange 0 c (⟨Mat.ofFn n n fun i j => (a i j).flD, 1, false⟩ : ElimState Double) (fun c s => elimStep isz n c s) = .ok ⟨Mat.ofFn n n e', d', false⟩ ∧
      ElimDom Fl.val n ρ γ G ε c e' ∧ (∀ i j, i < n → j < n → (e i j).fl = some (e' i j)) ∧ Sz d d' (s * c) := by
    intro c
    induction c with
    | zero =>
      intro _
      refine ⟨a, 1, _, 1, forRange_self _ _ _, forRange_self _ _ _, ⟨fun i j hi hj => ?_, fun r _ hr => ?_, fun r _ hr => ?_⟩, fun i j hi hj => (hfin ⟨i, hi⟩ ⟨j, hj⟩).fl_eq, Sz.one⟩
      · have h1 := Finset.single_le_sum (f := fun j => |(a i j).val|) (fun j _ => abs_nonneg _) (Finset.mem_range.2 hj)
        have h1' : |(a i j).flD.val| ≤ ρ i := h1
        have h2 := hρG i hi
        have h3 : 0 ≤ ρ i := Finset.sum_nonneg fun _ _ => abs_nonneg _
        linarith
      · rw [← Finset.range_eq_Ico, Nat.cast_zero, zero_mul, add_zero]
        exact le_rfl
      · rw [← Finset.range_eq_Ico, Nat.cast_zero, zero_mul, add_zero]
        have h1 := Finset.sum_erase_add (Finset.range n) (fun j => |(a r j).val|) (Finset.mem_range.2 hr)
        have h2 : ∑ j ∈ (Finset.range n).erase r, |(a r j).val| + γ r ≤ |(a r r).val| := by
          simp only [hγ, hρ]
          linarith
        exact h2
    | succ c ih =>
      intro hc
      obtain ⟨e, d, e', d', h1, h2, h3, h4, h5⟩ := ih (by omega)
      have hc' : c < n := by omega
      have hp := h3.pivot hc' hε0 hgE
      have hpl : G ≤ 2 ^ 47 * |(e' c c).val| := by
        refine (elim_pivot_large hn hG0 hδ ?_).2
        have g1 := h3.dom c le_rfl hc'
        have g2 : (c : ℚ) * ε ≤ n * ε := mul_le_mul_of_nonneg_right (by exact_mod_cast hc'.le) hε0
        have g3 : 0 ≤ ∑ j ∈ (Finset.Ico c n).erase c, |(e' c j).val| := Finset.sum_nonneg fun _ _ => abs_nonneg _
        have := hgγ c hc'
        linarith
      have hsz : ∀ i j, i < n → j < n → Sz (e i j) (e' i j) s := fun i j hi hj => ⟨h4 i j hi hj, (h3.all i j hi hj).trans hGs⟩
      have hnz : dIsZero (e c c) = false := by
        rw [Bool.eq_false_iff]
        exact fun h6 => hp ((dIsZero_iff (h4 c c hc' hc')).1 h6)
      have hdv : Divisor (e' c c) := (divisor_double _).resolve_right fun h7 => by
        obtain ⟨z, h8, -⟩ := R.div 0 (e' c c) hp
        rw [h7] at h8; cases h8
      have hnz' : isz (e' c c) = false := by
        rw [Bool.eq_false_iff]
        exact fun h6 => hp ((hz _).1 h6)
      refine ⟨_, _, _, _, by rw [forRange_succ_last (Nat.zero_le c), h1, Res.ok_bind, elimStep_pivot h.fits hc' e d hnz (divisor_ieee _)],
        by rw [forRange_succ_last (Nat.zero_le c), h2, Res.ok_bind, elimStep_pivot h.fits hc' e' d' hnz' hdv],
        h3.step R hc' (le_of_eq hε.symm) hρG hgr hgE, fun i j hi hj => ?_, ?_⟩
      · by_cases hij : c < i ∧ c ≤ j
        · have e1 : elimT e c (fun r => quo (e r c) (e c c)) i j = e i j - quo (e i c) (e c c) * e c j := if_pos hij
          have e2 : elimT e' c (fun r => quo (e' r c) (e' c c)) i j = e' i j - quo (e' i c) (e' c c) * e' c j := if_pos hij
          rw [e1, e2]
          have h6 : Sz (quo (e i c) (e c c)) (quo (e' i c) (e' c c)) 47 :=
            Sz.quo (h4 i c hi hc') (h4 c c hc' hc') hp (abs_div_le_pow hp (h3.all i c hi hc') hpl) (by norm_num)
          exact (((hsz i j hi hj).mono (by omega)).sub (by omega) (h6.mul (hsz c j hc' hj) (by omega))).1
        · have e1 : elimT e c (fun r => quo (e r c) (e c c)) i j = e i j := if_neg hij
          have e2 : elimT e' c (fun r => quo (e' r c) (e' c c)) i j = e' i j := if_neg hij
          rw [e1, e2]
          exact h4 i j hi hj
      · have h6 : s * c + s ≤ s * n := by rw [← Nat.mul_succ]; exact Nat.mul_le_mul_left s hc'
        exact h5.mul (hsz c c hc' hc') (by omega)
  obtain ⟨e, d, e', d', h1, h2, h3, h4, h5⟩ := key n le_rfl
  have hB : Rep (Mat.ofFn n n fun i j => (a i j).flD).toMB n n fun i j => (a i j).flD := ofFn_rep h.fits _
  have e1 : determinant dIsZero A = .ok d := by
    unfold determinant
    rw [isSquare_eq h.toRepAt, h.cols, beq_self_eq_true, Bool.not_true, if_neg Bool.false_ne_true, if_neg (by omega), if_neg (by omega),
      if_neg (by omega), if_neg (by omega), Mat.ofMB_eq h id, Res.ok_bind]
    show (forRange 0 n (⟨Mat.ofFn n n a, 1, false⟩ : ElimState IDouble) (fun c s => elimStep dIsZero n c s) >>= _) = _
    rw [h1]
    rfl
  have e2 : determinant isz (Mat.ofFn n n fun i j => (a i j).flD).toMB = .ok d' := by
    unfold determinant
    rw [isSquare_eq hB.toRepAt, hB.cols, beq_self_eq_true, Bool.not_true, if_neg Bool.false_ne_true, if_neg (by omega), if_neg (by omega),
      if_neg (by omega), if_neg (by omega), Mat.ofMB_eq hB id, Res.ok_bind]
    show (forRange 0 n (⟨Mat.ofFn n n fun i j => (a i j).flD, 1, false⟩ : ElimState Double) (fun c s => elimStep isz n c s) >>= _) = _
    rw [h2]
    rfl
  refine ⟨d, e1, h5.finite, ?_⟩
  obtain ⟨d'', e3, h6⟩ := C137_double ht hn hB.is (G := G) (g := g) hG hδ (by linarith) hdom
  rw [← hisz, e2] at e3
  injection e3 with e3
  subst e3
  have hv : d.val = d'.val := by
    show d.flD.val = d'.val
    unfold flD; rw [h5.1]; rfl
  rw [hv]
  exact h6

set_option maxRecDepth 100000 in
/-- C139: without the dominance, an infinite entry that the elimination produces passes for zero, and the product of the pivots so far is returned. All entries
of the matrix lie between `2^-600` and `2^600` or are zero, and its determinant is about `-2^600`; the result is `2^-600`. -/
theorem C139_overflow_false : ∃ M : Matrix (Fin 5) (Fin 5) IDouble, (∀ i j, (M i j).Finite ∧ |(M i j).val| ≤ 2 ^ 600) ∧ (M.map val).det < -2 ^ 599 ∧ ∃ A : Mat IDouble, A.WF ∧ A.toMB.Is M ∧
    ∃ d, determinant dIsZero A.toMB = .ok d ∧ d.val = 1 / 2 ^ 600 := by
  have hf : Fits 5 5 := fits_small (by norm_num) (by norm_num)
  refine ⟨toM 5 5 fun r c => if r = 0 ∧ c = 0 then dbl (1 / 2 ^ 600) else if r = 1 ∧ c = 0 then dbl (2 ^ 600) else if r = c ∨ r = 0 ∧ c = 1 then dbl 1 else 0, ?_, ?_, _,
    (ofFn_holds hf _).wf, (ofFn_rep hf _).is, dbl (1 / 2 ^ 600), by decide +kernel, by decide +kernel⟩
  · intro i j
    rw [toM_apply]
    split_ifs <;> decide +kernel
  · decide +kernel

/-- `12` on the diagonal and `1` elsewhere, with `G = 32` and `g = 8`. -/
example {δ : ℚ} (hδ : δ = (5 : ℚ) ^ 2 * (32 / 2 ^ 51 + (2 + 32) / 2 ^ 1075)) :
    ∃ A : Mat IDouble, A.WF ∧ ∃ M : Matrix (Fin 5) (Fin 5) IDouble, A.toMB.Is M ∧ (∀ i, 2 * ∑ j, |(M i j).val| ≤ 32) ∧ 2 * δ ≤ 8 ∧
      (∀ i, ∑ j ∈ Finset.univ.erase i, |(M i j).val| + 8 ≤ |(M i i).val|) ∧
      determinant dIsZero A.toMB = .ok (dbl (234256 - 1 / 2 ^ 34)) := by
  have hf : Fits 5 5 := fits_small (by norm_num) (by norm_num)
  subst hδ
  refine ⟨_, (ofFn_holds hf fun r c => if r = c then dbl 12 else 1).wf, _, (ofFn_rep hf _).is, ?_, ?_, ?_, ?_⟩
  · decide +kernel
  · decide +kernel
  · decide +kernel
  · decide +kernel

end Malg
