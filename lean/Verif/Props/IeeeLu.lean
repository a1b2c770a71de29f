import Verif.Props.Dominant
import Verif.Props.IeeeC2d
/-!
# Property C138: `lu_decomposition` on IEEE doubles
-/
namespace Malg
open Ops Lin Ieee

set_option exponentiation.threshold 3000

theorem rd_of_fl {a : IDouble} {x : Double} (h : a.fl = some x) : Rd fl a x := fun c hc => by rw [h] at hc; exact (Option.some.inj hc).symm

theorem Reads.rd_lsub {a : IDouble} {x : Double} {g : Nat → IDouble} {g' : Nat → Double} {k : Nat} (ha : Rd fl a x) (hg : ∀ i, i < k → Rd fl (g i) (g' i)) :
    Rd fl (lsub a k g) (lsub x k g') := by
  induction k with
  | zero => exact ha
  | succ k ih => exact ireads.rd_sub (ih fun i hi => hg i (by omega)) (hg k (by omega))

theorem lsub_finite {a : IDouble} {g : Nat → IDouble} {k : Nat} (h : (lsub a k g).Finite) : a.Finite ∧ ∀ i, i < k → (g i).Finite := by
  induction k with
  | zero => exact ⟨h, fun i hi => absurd hi (by omega)⟩
  | succ k ih =>
    obtain ⟨h1, h2⟩ := ireads.some_sub h
    obtain ⟨h3, h4⟩ := ih h1
    refine ⟨h3, fun i hi => ?_⟩
    rcases Nat.eq_or_lt_of_le (Nat.lt_succ_iff.1 hi) with rfl | hi
    · exact h2
    · exact h4 i hi

/-- A finite quotient of doubles by a finite number. -/
theorem quo_finite {a b : IDouble} {y : Double} (hb : b.fl = some y) (h : (quo a b).Finite) : y.val ≠ 0 ∧ a.Finite := by
  have hbf : b.Finite := Option.isSome_iff_exists.2 ⟨_, hb⟩
  obtain ⟨c, hc⟩ := Option.isSome_iff_exists.1 h
  refine ⟨fun h0 => ?_, (fl_div_some hbf hc).1⟩
  rw [quo_ieee] at hc
  match a, b, hb with
  | nan, fin .., _ => cases hc
  | inf _, fin .., _ => cases hc
  | fin x _ _ _, fin y' _ _ _, hb =>
    obtain rfl : y' = y := Option.some.inj hb
    have h' : (if y'.val = 0 then (if x.val = 0 then nan else inf _) else mk _ (x.val / y'.val) : IDouble).fl = some c := hc
    rw [if_pos h0] at h'
    split at h' <;> cases h'

theorem quo_double {x y : Double} (h0 : y.val ≠ 0) : quo x y = Fl.of 53 (-1074) (x.val / y.val) := by
  have h1 : cdiv x y = .ok (Fl.of 53 (-1074) (x.val / y.val)) := if_neg h0
  unfold quo; rw [h1]

theorem rd_quo_double {a b : IDouble} {x y : Double} (ha : Rd fl a x) (hb : b.fl = some y) : Rd fl (quo a b) (quo x y) := by
  intro c hc
  obtain ⟨h0, haf⟩ := quo_finite hb (Option.isSome_iff_exists.2 ⟨c, hc⟩)
  have hbf : b.Finite := Option.isSome_iff_exists.2 ⟨_, hb⟩
  have h1 := (fl_div_some hbf hc).2
  have h2 : a.flD = x := ha _ haf.fl_eq
  have h3 : b.flD = y := by unfold flD; rw [hb]; rfl
  rw [h1]
  rw [quo_double h0]
  show Fl.of 53 (-1074) (a.flD.val / b.flD.val) = _
  rw [h2, h3]

/-- Differences of up to `2^q` numbers. -/
theorem Sz.lsub {a : IDouble} {x : Double} {g : Nat → IDouble} {g' : Nat → Double} {e q k : Nat} (hk : k + 1 ≤ 2 ^ q) (hq : q ≤ 53) (ha : Sz a x e)
    (h : ∀ i, i < k → Sz (g i) (g' i) e) (hg : e + q < 1024) : Sz (lsub a k g) (lsub x k g') (e + q) := by
  have hle : ∀ m : Nat, m ≤ 2 ^ q → (m : ℚ) * 2 ^ e ≤ 2 ^ (e + q) := fun m hm => by
    calc (m : ℚ) * 2 ^ e ≤ 2 ^ q * 2 ^ e := by
          refine mul_le_mul_of_nonneg_right ?_ (by positivity)
          exact_mod_cast hm
      _ = 2 ^ (e + q) := by rw [← pow_add, add_comm]
  have key : ∀ m, m ≤ k → (Malg.lsub a m g).fl = some (Malg.lsub x m g') ∧ |(Malg.lsub x m g').val| ≤ (m + 1 : ℕ) * 2 ^ e := by
    intro m
    induction m with
    | zero => exact fun _ => ⟨ha.1, by rw [Nat.zero_add, Nat.cast_one, one_mul]; exact ha.2⟩
    | succ m ih =>
      intro hm
      obtain ⟨h1, h2⟩ := ih (by omega)
      obtain ⟨h3, h4⟩ := h m (by omega)
      have h5 : |(Malg.lsub x m g').val - (g' m).val| ≤ (m + 1 + 1 : ℕ) * 2 ^ e := (abs_sub _ _).trans (by push_cast at h2 ⊢; linarith)
      have h6 : rnd (K := ℚ) 53 (-1074) ((m + 1 + 1 : ℕ) * 2 ^ e) = (m + 1 + 1 : ℕ) * 2 ^ e := rnd_exact (by decide)
        ⟨(m + 1 + 1 : ℕ), e, by omega, by
          rw [abs_of_nonneg (by positivity)]
          exact_mod_cast ((by omega : m + 1 + 1 ≤ k + 1).trans hk).trans (Nat.pow_le_pow_right (by norm_num) hq), by rw [Int.cast_natCast, zpow_natCast]⟩
      have h7 : |(Malg.lsub x (m + 1) g').val| ≤ (m + 1 + 1 : ℕ) * 2 ^ e := by
        obtain ⟨g1, g2⟩ := abs_le.1 h5
        refine abs_le.2 ⟨?_, ?_⟩
        · have := rnd_mono (p := 53) (by decide) (-1074) g1
          rwa [rnd_neg, h6] at this
        · have := rnd_mono (p := 53) (by decide) (-1074) g2
          rwa [h6] at this
      exact ⟨fl_sub h1 h3 (h7.trans_lt ((hle _ ((by omega : m + 1 + 1 ≤ k + 1).trans hk)).trans_lt (pow_lt_max hg))), h7⟩
  obtain ⟨h1, h2⟩ := key k le_rfl
  exact ⟨h1, h2.trans (hle _ hk)⟩

/-- A quotient. -/
theorem Sz.quo {a b : IDouble} {x y : Double} {e : Nat} (ha : a.fl = some x) (hb : b.fl = some y) (h0 : y.val ≠ 0) (h : |x.val / y.val| ≤ 2 ^ e) (he : e < 1024) :
    Sz (quo a b) (quo x y) e := by
  have h2 : |(Fl.of 53 (-1074) (x.val / y.val)).val| ≤ 2 ^ e := rnd_pow h
  rw [quo_double h0]
  exact ⟨fl_div ha hb h0 (h2.trans_lt (pow_lt_max he)), h2⟩

theorem divisor_double (y : Double) : Divisor y ∨ ∀ x, cdiv x y = .ub .divZero := by
  by_cases hy : y.val = 0
  · exact .inr fun x => if_pos hy
  · left
    intro x
    obtain ⟨z, h1, -⟩ := (Fl.rounds ℚ (p := 53) (by norm_num) (-1074)).div x y hy
    rw [h1]; unfold quo; rw [h1]

section
variable {n : Nat} {a l v : Nat → Nat → IDouble} {l' v' : Nat → Nat → Double}

/-- Finite factors are those of the arithmetic without largest number. -/
theorem lu_agree (h : LuExec n a n l v) (hl : ∀ i j, i < n → j < n → (l i j).Finite) (hv : ∀ i j, i < n → j < n → (v i j).Finite) {i i' : Nat} (hi : i ≤ i') (hi' : i' ≤ n)
    (h1 : ∀ r c, r < n → c < i' → c ≤ r → l' r c = lsub ((a r c).flD) c fun k => l' r k * v' k c)
    (h2 : ∀ r c, r < i → c < n → r < c → v' r c = lsub (quo ((a r c).flD) (l' r r)) r fun k => quo (l' r k * v' k c) (l' r r)) :
    (∀ r c, r < n → c < i' → c ≤ r → i' ≤ i + 1 → (l r c).fl = some (l' r c)) ∧ ∀ r c, r < i → c < n → r < c → (v r c).fl = some (v' r c) := by
  have col : ∀ k, k < i' → (∀ r c, r < n → c < k → c ≤ r → (l r c).fl = some (l' r c)) → (∀ r c, r < k → c < n → r < c → (v r c).fl = some (v' r c)) →
      ∀ r, r < n → k ≤ r → (l r k).fl = some (l' r k) := by
    intro k hk hL hV r hr hkr
    have hf := hl r k hr (by omega)
    rw [hf.fl_eq]
    congr 1
    refine hf.eq ?_
    rw [h.l_low r k hr (by omega) hkr, h1 r k hr hk hkr]
    exact Reads.rd_lsub (rd_flD _) fun m hm => ireads.rd_mul (rd_of_fl (hL r m hr hm (by omega))) (rd_of_fl (hV m k hm (by omega) hm))
  have key : ∀ k, k ≤ i → (∀ r c, r < n → c < k → c ≤ r → (l r c).fl = some (l' r c)) ∧ ∀ r c, r < k → c < n → r < c → (v r c).fl = some (v' r c) := by
    intro k
    induction k with
    | zero => exact fun _ => ⟨fun _ _ _ h => absurd h (by omega), fun _ _ h => absurd h (by omega)⟩
    | succ k ih =>
      intro hk
      obtain ⟨hL, hV⟩ := ih (by omega)
      have hcol := col k (by omega) hL hV
      have hL' : ∀ r c, r < n → c < k + 1 → c ≤ r → (l r c).fl = some (l' r c) := fun r c hr hc hcr => by
        rcases Nat.eq_or_lt_of_le (Nat.lt_succ_iff.1 hc) with rfl | hc
        · exact hcol r hr hcr
        · exact hL r c hr hc hcr
      refine ⟨hL', fun r c hr hc hrc => ?_⟩
      rcases Nat.eq_or_lt_of_le (Nat.lt_succ_iff.1 hr) with rfl | hr
      · have hf := hv r c (by omega) hc
        rw [hf.fl_eq]
        congr 1
        refine hf.eq ?_
        have hp := hcol r (by omega) le_rfl
        rw [h.u_up r c (by omega) hc hrc, h2 r c (by omega) hc hrc]
        exact Reads.rd_lsub (rd_quo_double (rd_flD _) hp) fun m hm =>
          rd_quo_double (ireads.rd_mul (rd_of_fl (hL r m (by omega) hm (by omega))) (rd_of_fl (hV m c hm hc (by omega)))) hp
      · exact hV r c hr hc hrc
  obtain ⟨hL, hV⟩ := key i le_rfl
  refine ⟨fun r c hr hc hcr hii => ?_, hV⟩
  by_cases hci : c < i
  · exact hL r c hr hci hcr
  · obtain rfl : c = i := by omega
    exact col c hc hL hV r hr hcr

end

/-- C138: on IEEE doubles the decomposition always returns two matrices. If they are finite, so is the matrix, and they are the triangular factors
of a matrix that differs from it by the rounding errors of C84. -/
theorem C138_finite {A : MB IDouble} {n : Nat} {M : Matrix (Fin n) (Fin n) IDouble} (hA : A.Is M) (hn : n ≤ 2 ^ 52) :
    ∃ L U, lu A = .ok (L, U) ∧ ∃ ML MU : Matrix (Fin n) (Fin n) IDouble, L.WF ∧ U.WF ∧ L.toMB.Is ML ∧ U.toMB.Is MU ∧
      ((∀ i j, (ML i j).Finite ∧ (MU i j).Finite) → (∀ i j, (M i j).Finite) ∧ (∀ i j, i < j → ML i j = 0) ∧ (∀ i j, j < i → MU i j = 0) ∧ (∀ i, MU i i = 1) ∧
        ∀ i j, |(ML.map val * MU.map val) i j - (M i j).val| ≤
          n / 2 ^ 52 * (|(M i j).val| + (ML.map (|val ·|) * MU.map (|val ·|)) i j) + n * (1 + |(ML i i).val|) / 2 ^ 1074) := by
  obtain ⟨a, h, rfl⟩ := hA
  rcases lu_exec h.toRepAt (fun y => .inl (divisor_ieee y)) with ⟨l, v, e, h2⟩ | e
  swap
  · obtain ⟨l, v, e', -⟩ | ⟨-, i, l, v, hs⟩ := lu_exec_stop h.toRepAt (fun y => .inl (divisor_ieee y))
    · rw [e'] at e; cases e
    · exact absurd (divisor_ieee _) hs.stop
  refine ⟨_, _, e, toM n n l, toM n n v, (ofFn_holds h.fits l).wf, (ofFn_holds h.fits v).wf, (ofFn_rep h.fits l).is, (ofFn_rep h.fits v).is, fun hfin => ?_⟩
  have hl : ∀ i j, i < n → j < n → (l i j).Finite := fun i j hi hj => (hfin ⟨i, hi⟩ ⟨j, hj⟩).1
  have hv : ∀ i j, i < n → j < n → (v i j).Finite := fun i j hi hj => (hfin ⟨i, hi⟩ ⟨j, hj⟩).2
  have hB : Rep (Mat.ofFn n n fun i j => (a i j).flD).toMB n n fun i j => (a i j).flD := ofFn_rep h.fits _
  have hMf : ∀ i j, i < n → j < n → (a i j).Finite := by
    intro i j hi hj
    by_cases hij : j ≤ i
    · have := hl i j hi hj
      rw [h2.l_low i j hi hj hij] at this
      exact (lsub_finite this).1
    · have := hv i j hi hj
      rw [h2.u_up i j hi hj (by omega)] at this
      exact (quo_finite (hl i i hi hi).fl_eq (lsub_finite this).1).2
  rcases lu_exec_stop hB.toRepAt divisor_double with ⟨l', v', e', h3⟩ | ⟨-, i, l', v', hs⟩
  swap
  · exfalso
    have hlt := hs.lt
    obtain ⟨g1, g2⟩ := lu_agree h2 hl hv (i := i) (i' := i + 1) (by omega) (by omega) (fun r c hr hc hcr => hs.l_low r c hr (by omega) hcr) hs.u_up
    have hp := g1 i i (by omega) (by omega) le_rfl le_rfl
    have := hv i (i + 1) (by omega) hlt
    rw [h2.u_up i (i + 1) (by omega) hlt (by omega)] at this
    have h0 := (quo_finite hp (lsub_finite this).1).1
    refine hs.stop ((divisor_double _).resolve_right fun h5 => ?_)
    obtain ⟨z, h7, -⟩ := (Fl.rounds ℚ (p := 53) (by norm_num) (-1074)).div 0 (l' i i) h0
    rw [h5] at h7; cases h7
  obtain ⟨g1, g2⟩ := lu_agree h2 hl hv (i := n) (i' := n) le_rfl le_rfl (fun r c hr hc hcr => h3.l_low r c hr hc hcr) h3.u_up
  have hl' : ∀ i j, i < n → j < n → (l i j).flD = l' i j := by
    intro i j hi hj
    by_cases hij : j ≤ i
    · unfold flD; rw [g1 i j hi hj hij (by omega)]; rfl
    · rw [h2.l_up i j hi hj (by omega), h3.l_up i j hi hj (by omega)]
      unfold flD; rw [ireads.zero]; rfl
  have hv' : ∀ i j, i < n → j < n → (v i j).flD = v' i j := by
    intro i j hi hj
    rcases Nat.lt_trichotomy i j with hij | rfl | hij
    · unfold flD; rw [g2 i j hi hj hij]; rfl
    · rw [h2.u_one i hi, h3.u_one i hi]
      unfold flD; rw [ireads.one]; rfl
    · rw [h2.u_low i j hi hj (by omega), h3.u_low i j hi hj (by omega)]
      unfold flD; rw [ireads.zero]; rfl
  refine ⟨fun i j => hMf i j i.2 j.2, fun i j hij => h2.l_up i j i.2 j.2 hij, fun i j hij => h2.u_low i j i.2 j.2 hij, fun i => h2.u_one i i.2, ?_⟩
  rcases C84_double_partial hB.is hn with e'' | ⟨L, U, e'', ML, MU, w1, w2, i1, i2, -, -, -, hb⟩
  · rw [e''] at e'; cases e'
  rw [e'] at e''
  injection e'' with e''
  injection e'' with e1 e2
  subst e1 e2
  have q1 : ML = toM n n l' := Yields.inj (x := .ok _) ⟨_, rfl, w1, i1⟩ ⟨_, rfl, (ofFn_holds h.fits l').wf, (ofFn_rep h.fits l').is⟩
  have q2 : MU = toM n n v' := Yields.inj (x := .ok _) ⟨_, rfl, w2, i2⟩ ⟨_, rfl, (ofFn_holds h.fits v').wf, (ofFn_rep h.fits v').is⟩
  have q3 : (toM n n l).map val = ML.map Fl.val := by
    rw [q1]; funext i j; exact congrArg Fl.val (hl' i j i.2 j.2)
  have q4 : (toM n n v).map val = MU.map Fl.val := by
    rw [q2]; funext i j; exact congrArg Fl.val (hv' i j i.2 j.2)
  have q5 : (toM n n l).map (|val ·|) = ML.map (|Fl.val ·|) := by
    funext i j; exact congrArg (|·|) (congrFun (congrFun q3 i) j)
  have q6 : (toM n n v).map (|val ·|) = MU.map (|Fl.val ·|) := by
    funext i j; exact congrArg (|·|) (congrFun (congrFun q4 i) j)
  intro i j
  have q7 : (toM n n l i i).val = (ML i i).val := congrFun (congrFun q3 i) i
  rw [q3, q4, q5, q6, q7]
  exact hb i j

theorem pivot_quot {x y ρ : ℚ} (hρ : 0 ≤ ρ) (hx : |x| ≤ 4 * ρ + 1 / 2 ^ 1074) (hy : 3 / 2 ^ 52 * ρ + 1 / 2 ^ 1074 < |y|) : y ≠ 0 ∧ |x / y| ≤ 2 ^ 54 := by
  have hy0 : 0 < |y| := lt_of_le_of_lt (by positivity) hy
  refine ⟨abs_pos.1 hy0, ?_⟩
  rw [abs_div, div_le_iff₀ hy0]
  have h1 : (2 : ℚ) ^ 54 * (3 / 2 ^ 52 * ρ + 1 / 2 ^ 1074) = 12 * ρ + 2 ^ 54 * (1 / 2 ^ 1074) := by ring
  have h2 : (0 : ℚ) < 1 / 2 ^ 1074 := by positivity
  have h3 := mul_le_mul_of_nonneg_left hy.le (by positivity : (0 : ℚ) ≤ 2 ^ 54)
  rw [h1] at h3
  generalize (1 : ℚ) / 2 ^ 1074 = δ at *
  linarith

theorem abs_le_row {n : Nat} (f : Fin n → ℚ) (j : Fin n) : |f j| ≤ ∑ j, |f j| :=
  Finset.single_le_sum (f := fun j => |f j|) (fun _ _ => abs_nonneg _) (Finset.mem_univ j)

theorem entry_le {x ρ : ℚ} (hρ : 0 ≤ ρ) (h : |x| ≤ ρ) : |x| ≤ 4 * ρ + 1 / 2 ^ 1074 := by
  have hη : (0 : ℚ) < 1 / 2 ^ 1074 := by positivity
  linarith

theorem fl_prod_le {z p ρ : ℚ} (h5 : |z - p| ≤ 1 / 2 ^ 53 * |p| + 1 / 2 ^ 1074 / 2) (h6 : |p| ≤ 2 * ρ) : |z| ≤ 4 * ρ + 1 / 2 ^ 1074 := by
  have h10 := abs_sub_abs_le_abs_sub z p
  have h11 : (1 : ℚ) / 2 ^ 53 * |p| ≤ 1 * |p| := mul_le_mul_of_nonneg_right (by norm_num) (abs_nonneg _)
  have hη : (0 : ℚ) < 1 / 2 ^ 1074 := by positivity
  generalize (1 : ℚ) / 2 ^ 1074 = δ at *
  linarith

theorem two_mul_pow_le {x : ℚ} {k : Nat} (h : x ≤ 2 ^ k) : 2 * x ≤ 2 ^ (k + 1) := by
  rw [pow_succ]; linarith

theorem pivot_large {n : Nat} (hn : 1 ≤ n) {ρ E l : ℚ} (hρ : 0 ≤ ρ) (hE : E = n * (2 * n + 1) / 2 ^ 52 * ρ + n ^ 2 * (1 + 2 * ρ) / 2 ^ 1074) (hl : E < l) :
    3 / 2 ^ 52 * ρ + 1 / 2 ^ 1074 < l := by
  have hn1 : (1 : ℚ) ≤ n := by exact_mod_cast hn
  have h9 : 3 / 2 ^ 52 * ρ ≤ n * (2 * n + 1) / 2 ^ 52 * ρ := by
    refine mul_le_mul_of_nonneg_right ?_ hρ
    rw [div_le_div_iff_of_pos_right (by positivity)]
    nlinarith
  have h10 : (1 : ℚ) / 2 ^ 1074 ≤ n ^ 2 * (1 + 2 * ρ) / 2 ^ 1074 := by
    rw [div_le_div_iff_of_pos_right (by positivity)]
    nlinarith [mul_nonneg (sq_nonneg (n : ℚ)) hρ]
  rw [hE] at hl
  exact (add_le_add h9 h10).trans_lt hl

/-- C138: a finite matrix whose diagonal dominates its rows, by twice the rounding errors, and whose row sums leave a little room below the
largest number, is decomposed without overflow, with the accuracy of C136. -/
theorem C138_dominant_partial {A : MB IDouble} {n : Nat} {M : Matrix (Fin n) (Fin n) IDouble} (hA : A.Is M) (hn : n < 2 ^ 10) (hfin : ∀ i j, (M i j).Finite)
    (hbig : ∀ i, ∑ j, |(M i j).val| ≤ 2 ^ 1000) {E : Fin n → ℚ}
    (hE : ∀ i, E i = n * (2 * n + 1) / 2 ^ 52 * ∑ j, |(M i j).val| + n ^ 2 * (1 + 2 * ∑ j, |(M i j).val|) / 2 ^ 1074)
    (hdom : ∀ i, ∑ j ∈ Finset.univ.erase i, |(M i j).val| + 2 * E i < |(M i i).val|) :
    ∃ L U, lu A = .ok (L, U) ∧ ∃ ML MU : Matrix (Fin n) (Fin n) IDouble, L.WF ∧ U.WF ∧ L.toMB.Is ML ∧ U.toMB.Is MU ∧ (∀ i j, (ML i j).Finite ∧ (MU i j).Finite) ∧
      (∀ i j, i < j → ML i j = 0) ∧ (∀ i j, j < i → MU i j = 0) ∧ (∀ i, MU i i = 1) ∧ ∀ i,
        ∑ j, |(ML.map val * MU.map val) i j - (M i j).val| ≤ E i ∧ (∀ k, |(ML i k).val| ≤ 2 * ∑ j, |(M i j).val|) ∧
        |(M i i).val| - ∑ j ∈ Finset.univ.erase i, |(M i j).val| - E i ≤ |(ML i i).val| ∧
        ∑ j ∈ Finset.univ.erase i, |(MU i j).val| ≤ 1 := by
  obtain ⟨a, h, rfl⟩ := hA
  rcases lu_exec_stop h.toRepAt (fun y => .inl (divisor_ieee y)) with ⟨l, v, e, h2⟩ | ⟨-, i, l, v, hs⟩
  swap
  · exact absurd (divisor_ieee _) hs.stop
  have hB : Rep (Mat.ofFn n n fun i j => (a i j).flD).toMB n n fun i j => (a i j).flD := ofFn_rep h.fits _
  have hE0 : ∀ i, 0 ≤ E i := fun i => by
    rw [hE i]
    have : 0 ≤ ∑ j, |(toM n n a i j).val| := Finset.sum_nonneg fun _ _ => abs_nonneg _
    positivity
  obtain ⟨L, U, e', ML, MU, w1, w2, i1, i2, -, -, -, hb⟩ := C136_double (E := E) hB.is (by omega) hE (fun i => by
    have h3 := hE0 i
    have h4 := hdom i
    show ∑ j ∈ Finset.univ.erase i, |(toM n n a i j).val| + E i < |(toM n n a i i).val|
    linarith)
  rcases lu_exec hB.toRepAt divisor_double with ⟨l', v', e'', h3⟩ | e''
  swap
  · rw [e''] at e'; cases e'
  rw [e''] at e'
  injection e' with e'
  injection e' with e1 e2
  subst e1 e2
  obtain rfl : ML = toM n n l' := Yields.inj (x := .ok _) ⟨_, rfl, w1, i1⟩ ⟨_, rfl, (ofFn_holds h.fits l').wf, (ofFn_rep h.fits l').is⟩
  obtain rfl : MU = toM n n v' := Yields.inj (x := .ok _) ⟨_, rfl, w2, i2⟩ ⟨_, rfl, (ofFn_holds h.fits v').wf, (ofFn_rep h.fits v').is⟩
  have R := Fl.rounds ℚ (p := 53) (by norm_num) (-1074)
  have hu : (2 : ℚ) ^ (-((53 : ℕ) : ℤ)) = 1 / 2 ^ 53 := by norm_num
  rw [hu, two_zpow_emin] at R
  -- sizes of the exact factors
  have hrow : ∀ r c (hr : r < n), c < n → |(a r c).val| ≤ ∑ j, |(toM n n a ⟨r, hr⟩ j).val| := fun r c hr hc => abs_le_row (fun j => (toM n n a ⟨r, hr⟩ j).val) ⟨c, hc⟩
  have ha : ∀ r c, r < n → c < n → |(a r c).val| ≤ 2 ^ 1000 := fun r c hr hc => by
    have h5 := hrow r c hr hc
    have h6 := hbig ⟨r, hr⟩
    exact le_trans h5 h6
  have haf : ∀ r c, r < n → c < n → (a r c).Finite := fun r c hr hc => hfin ⟨r, hr⟩ ⟨c, hc⟩
  have hls : ∀ r c, r < n → c < n → |(l' r c).val| ≤ 2 ^ 1001 := fun r c hr hc => by
    have h5 := (hb ⟨r, hr⟩).2.1 ⟨c, hc⟩
    have h6 := hbig ⟨r, hr⟩
    exact h5.trans (two_mul_pow_le h6)
  have hvs : ∀ r c, r < n → c < n → r < c → |(v' r c).val| ≤ 2 ^ 0 := fun r c hr hc hrc => by
    have h5 := (hb ⟨r, hr⟩).2.2.2
    rw [pow_zero]
    exact (Finset.single_le_sum (f := fun j => |(toM n n v' ⟨r, hr⟩ j).val|) (fun j _ => abs_nonneg _)
      (Finset.mem_erase.2 ⟨fun h => absurd (congrArg Fin.val h) (by simp only; omega), Finset.mem_univ (⟨c, hc⟩ : Fin n)⟩)).trans h5
  have hpv : ∀ r (hr : r < n), 3 / 2 ^ 52 * ∑ j, |(toM n n a ⟨r, hr⟩ j).val| + 1 / 2 ^ 1074 < |(l' r r).val| := fun r hr => by
    have h5 := (hb ⟨r, hr⟩).2.2.1
    have h6 : |(toM n n a ⟨r, hr⟩ ⟨r, hr⟩).val| - ∑ j ∈ Finset.univ.erase ⟨r, hr⟩, |(toM n n a ⟨r, hr⟩ j).val| - E ⟨r, hr⟩ ≤ |(l' r r).val| := h5
    have h7 := hdom ⟨r, hr⟩
    have h8 := hE ⟨r, hr⟩
    exact pivot_large (by omega) (Finset.sum_nonneg fun _ _ => abs_nonneg _) h8 (by linarith)
  -- entry by entry
  have col : ∀ k, k < n → (∀ r c, r < n → c < k → c ≤ r → (l r c).fl = some (l' r c)) → (∀ r c, r < k → c < n → r < c → (v r c).fl = some (v' r c)) →
      ∀ r, r < n → k ≤ r → (l r k).fl = some (l' r k) := by
    intro k hk hL hV r hr hkr
    rw [h2.l_low r k hr hk hkr, h3.l_low r k hr hk hkr]
    refine (Sz.lsub (e := 1001) (q := 10) (by omega) (by norm_num) ((Sz.of_finite (haf r k hr hk) (ha r k hr hk)).mono (by norm_num)) (fun m hm => ?_) (by norm_num)).1
    exact Sz.mul (e := 1001) (f := 0) ⟨hL r m hr hm (by omega), hls r m hr (by omega)⟩ ⟨hV m k hm hk hm, hvs m k (by omega) hk hm⟩ (by norm_num)
  have key : ∀ k, k ≤ n → (∀ r c, r < n → c < k → c ≤ r → (l r c).fl = some (l' r c)) ∧ ∀ r c, r < k → c < n → r < c → (v r c).fl = some (v' r c) := by
    intro k
    induction k with
    | zero => exact fun _ => ⟨fun _ _ _ h => absurd h (by omega), fun _ _ h => absurd h (by omega)⟩
    | succ k ih =>
      intro hk
      obtain ⟨hL, hV⟩ := ih (by omega)
      have hcol := col k (by omega) hL hV
      refine ⟨fun r c hr hc hcr => ?_, fun r c hr hc hrc => ?_⟩
      · rcases Nat.eq_or_lt_of_le (Nat.lt_succ_iff.1 hc) with rfl | hc
        · exact hcol r hr hcr
        · exact hL r c hr hc hcr
      rcases Nat.eq_or_lt_of_le (Nat.lt_succ_iff.1 hr) with rfl | hr
      swap
      · exact hV r c hr hc hrc
      have hr' : r < n := by omega
      have hp := hcol r hr' le_rfl
      rw [h2.u_up r c hr' hc hrc, h3.u_up r c hr' hc hrc]
      have hρ : 0 ≤ ∑ j, |(toM n n a ⟨r, hr'⟩ j).val| := Finset.sum_nonneg fun _ _ => abs_nonneg _
      refine (Sz.lsub (e := 54) (q := 10) (by omega) (by norm_num) ?_ (fun m hm => ?_) (by norm_num)).1
      · obtain ⟨h6, h7⟩ := pivot_quot hρ (entry_le hρ (hrow r c hr' hc)) (hpv r hr')
        exact Sz.quo (haf r c hr' hc).fl_eq hp h6 h7 (by norm_num)
      · have hs := Sz.mul (e := 1001) (f := 0) ⟨hL r m hr' hm (by omega), hls r m hr' (by omega)⟩ ⟨hV m c hm hc (by omega), hvs m c (by omega) hc (by omega)⟩ (by norm_num)
        have h5 := R.mul (l' r m) (v' m c)
        have h6 : |(l' r m).val * (v' m c).val| ≤ 2 * ∑ j, |(toM n n a ⟨r, hr'⟩ j).val| := by
          rw [abs_mul]
          have h7 := (hb ⟨r, hr'⟩).2.1 ⟨m, by omega⟩
          have h8 := hvs m c (by omega) hc (by omega)
          rw [pow_zero] at h8
          calc _ ≤ |(l' r m).val| * 1 := mul_le_mul_of_nonneg_left h8 (abs_nonneg _)
            _ ≤ _ := by rw [mul_one]; exact h7
        obtain ⟨h6, h7⟩ := pivot_quot hρ (fl_prod_le h5 h6) (hpv r hr')
        exact Sz.quo hs.1 hp h6 h7 (by norm_num)
  obtain ⟨g1, g2⟩ := key n le_rfl
  have hl' : ∀ i j, i < n → j < n → (l i j).fl = some (l' i j) := by
    intro i j hi hj
    by_cases hij : j ≤ i
    · exact g1 i j hi hj hij
    · rw [h2.l_up i j hi hj (by omega), h3.l_up i j hi hj (by omega)]
      exact ireads.zero
  have hv' : ∀ i j, i < n → j < n → (v i j).fl = some (v' i j) := by
    intro i j hi hj
    rcases Nat.lt_trichotomy i j with hij | rfl | hij
    · exact g2 i j hi hj hij
    · rw [h2.u_one i hi, h3.u_one i hi]
      exact ireads.one
    · rw [h2.u_low i j hi hj (by omega), h3.u_low i j hi hj (by omega)]
      exact ireads.zero
  have hval : ∀ {x : IDouble} {y : Double}, x.fl = some y → x.val = y.val := fun {x y} h => by
    show x.flD.val = y.val
    unfold flD; rw [h]; rfl
  refine ⟨_, _, e, toM n n l, toM n n v, (ofFn_holds h.fits l).wf, (ofFn_holds h.fits v).wf, (ofFn_rep h.fits l).is, (ofFn_rep h.fits v).is,
    fun i j => ⟨Option.isSome_iff_exists.2 ⟨_, hl' i j i.2 j.2⟩, Option.isSome_iff_exists.2 ⟨_, hv' i j i.2 j.2⟩⟩,
    fun i j hij => h2.l_up i j i.2 j.2 hij, fun i j hij => h2.u_low i j i.2 j.2 hij, fun i => h2.u_one i i.2, ?_⟩
  have q3 : (toM n n l).map val = (toM n n l').map Fl.val := by
    funext i j; exact hval (hl' i j i.2 j.2)
  have q4 : (toM n n v).map val = (toM n n v').map Fl.val := by
    funext i j; exact hval (hv' i j i.2 j.2)
  intro i
  have q5 : ∀ i j, (toM n n l i j).val = (toM n n l' i j).val := fun i j => congrFun (congrFun q3 i) j
  have q6 : ∀ i j, (toM n n v i j).val = (toM n n v' i j).val := fun i j => congrFun (congrFun q4 i) j
  rw [q3, q4, q5 i i]
  simp only [q5, q6]
  exact hb i

/-- C138: where a pivot vanishes, the decomposition returns infinities without notice, even of an invertible matrix. -/
theorem C138_pivot_false : ∃ M : Matrix (Fin 2) (Fin 2) IDouble, (∀ i j, (M i j).Finite) ∧ (M.map val).det = -1 ∧ ∃ A : Mat IDouble, A.WF ∧ A.toMB.Is M ∧
    ∃ L U : Mat IDouble, lu A.toMB = .ok (L, U) ∧ L.data = [dbl 0, dbl 0, dbl 1, inf true] ∧ U.data = [dbl 1, inf false, dbl 0, dbl 1] := by
  have hf : Fits 2 2 := fits_small (by norm_num) (by norm_num)
  refine ⟨toM 2 2 fun r c => if r = 0 ∧ c = 0 then dbl 0 else dbl 1, fun | 0, 0 | 0, 1 | 1, 0 | 1, 1 => by decide +kernel, ?_, _, (ofFn_holds hf _).wf, (ofFn_rep hf _).is, ⟨2, 2, [dbl 0, dbl 0, dbl 1, inf true]⟩,
    ⟨2, 2, [dbl 1, inf false, dbl 0, dbl 1]⟩, by decide +kernel, rfl, rfl⟩
  rw [Matrix.det_fin_two]
  decide +kernel

/-- C138: a pivot that is merely small makes the factors useless, although they are finite: of `[[2^-60, 1], [1, 1]]` they multiply to `[[2^-60, 1], [1, 0]]`. -/
theorem C138_small_false : ∃ M : Matrix (Fin 2) (Fin 2) IDouble, (∀ i j, (M i j).Finite ∧ |(M i j).val| ≤ 1) ∧ ∃ A : Mat IDouble, A.WF ∧ A.toMB.Is M ∧
    ∃ (L U : Mat IDouble) (ML MU : Matrix (Fin 2) (Fin 2) IDouble), lu A.toMB = .ok (L, U) ∧ L.toMB.Is ML ∧ U.toMB.Is MU ∧
      (∀ i j, (ML i j).Finite ∧ (MU i j).Finite) ∧ (M 1 1).val - (ML.map val * MU.map val) 1 1 = 1 := by
  have hf : Fits 2 2 := fits_small (by norm_num) (by norm_num)
  refine ⟨toM 2 2 fun r c => if r = 0 ∧ c = 0 then dbl (1 / 2 ^ 60) else dbl 1, fun | 0, 0 | 0, 1 | 1, 0 | 1, 1 => by decide +kernel, _, (ofFn_holds hf _).wf, (ofFn_rep hf _).is,
    Mat.ofFn 2 2 fun r c => if c = 0 then (if r = 0 then dbl (1 / 2 ^ 60) else dbl 1) else (if r = 0 then 0 else dbl (-2 ^ 60)),
    Mat.ofFn 2 2 fun r c => if c = r then dbl 1 else if r = 0 then dbl (2 ^ 60) else 0, _, _, by decide +kernel, (ofFn_rep hf _).is, (ofFn_rep hf _).is, fun | 0, 0 | 0, 1 | 1, 0 | 1, 1 => by decide +kernel, ?_⟩
  rw [Matrix.mul_apply, Fin.sum_univ_two]
  decide +kernel

/-- A tridiagonal matrix of large numbers. -/
example : ∃ A : Mat IDouble, A.WF ∧ ∃ M : Matrix (Fin 3) (Fin 3) IDouble, A.toMB.Is M ∧ (∀ i, ∑ j, |(M i j).val| ≤ 2 ^ 1000) ∧
    (∀ i, ∑ j ∈ Finset.univ.erase i, |(M i j).val| + 2 * (3 * (2 * 3 + 1) / 2 ^ 52 * ∑ j, |(M i j).val| + 3 ^ 2 * (1 + 2 * ∑ j, |(M i j).val|) / 2 ^ 1074) < |(M i i).val|) ∧
    lu A.toMB = .ok (⟨3, 3, [4, 0, 0, 1, 15 / 4, 0, 0, 1, 56 / 15].map fun q => dbl (q * 2 ^ 900)⟩, ⟨3, 3, [1, 1 / 4, 0, 0, 1, 4 / 15, 0, 0, 1].map dbl⟩) := by
  have hf : Fits 3 3 := fits_small (by norm_num) (by norm_num)
  refine ⟨_, (ofFn_holds hf fun r c => if r = c then dbl (4 * 2 ^ 900) else if r = c + 1 ∨ c = r + 1 then dbl (2 ^ 900) else 0).wf, _, (ofFn_rep hf _).is, ?_, ?_, ?_⟩
  · decide +kernel
  · decide +kernel
  · decide +kernel

end Malg
