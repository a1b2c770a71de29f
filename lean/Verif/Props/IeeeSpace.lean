import Verif.Props.FloatSeq
import Verif.Props.IeeeChar
/-!
# Property C135: `linspace` on IEEE doubles

C82 bounds the error of the points in an arithmetic without largest number. Here the numbers are IEEE doubles; and the points are in order.
-/
namespace Malg
open Util Ieee

set_option exponentiation.threshold 3000

namespace Ieee
variable {K : Type} [Field K] [LinearOrder K] [IsStrictOrderedRing K] [FloorRing K] {p : ℕ} {emin : ℤ} {emax : ℕ}

/-- The sign bit `s` fits the exact result `r`. -/
def SignOk (s : Bool) (r : K) : Prop := (r < 0 → s = true) ∧ (0 < r → s = false)

/-- Rounding keeps the order, also beyond the largest number. -/
theorem mk_le (hp : 1 ≤ p) {s s' : Bool} {r r' : K} (h : SignOk s r) (h' : SignOk s' r') (hr : r ≤ r') :
    (mk s r : Ieee K p emin emax) ≤ mk s' r' := by
  have hm : (Fl.of p emin r).val ≤ (Fl.of p emin r').val := rnd_mono hp emin hr
  have hM : (0 : K) < 2 ^ emax := pow_pos zero_lt_two _
  have h0 : rnd p emin (0 : K) = 0 := rnd_exact hp (isFl_zero p emin)
  have hneg : ∀ {t : K}, t ≤ 0 → (Fl.of p emin t).val ≤ 0 := fun ht => by
    have := rnd_mono hp emin ht; rwa [h0] at this
  have hpos : ∀ {t : K}, 0 ≤ t → 0 ≤ (Fl.of p emin t).val := fun ht => by
    have := rnd_mono hp emin ht; rwa [h0] at this
  show le _ _ = true
  unfold mk
  split
  · next hf =>
    split
    · exact decide_eq_true hm
    · next hf' =>
      have : s' = false := h'.2 (by
        by_contra hc
        have g := hneg (not_lt.1 hc)
        rw [abs_of_nonpos g] at hf'
        rw [abs_of_nonpos (hm.trans g)] at hf
        linarith)
      rw [this]; rfl
  · next hf =>
    by_cases hr0 : r < 0
    · rw [h.1 hr0]
      split <;> rfl
    · have g := hpos (not_lt.1 hr0)
      rw [abs_of_nonneg g] at hf
      have g' := g.trans hm
      rw [dif_neg (by rw [abs_of_nonneg g']; linarith)]
      have : s' = false := h'.2 (by
        by_contra hc
        have := hneg (not_lt.1 hc)
        linarith)
      rw [this]
      show (s || !false) = true
      simp

theorem sign_eq {x : Fl K p emin} {z : Bool} {hz : z = true → x.val = 0} {hx : |x.val| < 2 ^ emax} (h : x.val ≠ 0) :
    (fin x z hz hx : Ieee K p emin emax).sign = decide (x.val < 0) := by
  show (z || _) = _
  cases z
  · rfl
  · exact absurd (hz rfl) h

theorem mul_signOk {x y : Fl K p emin} {z w : Bool} {hz : z = true → x.val = 0} {hx : |x.val| < 2 ^ emax} {hw : w = true → y.val = 0} {hy : |y.val| < 2 ^ emax} :
    SignOk ((fin x z hz hx : Ieee K p emin emax).sign ^^ (fin y w hw hy : Ieee K p emin emax).sign) (x.val * y.val) := by
  refine ⟨fun h => ?_, fun h => ?_⟩
  · rw [sign_eq (left_ne_zero_of_mul h.ne), sign_eq (right_ne_zero_of_mul h.ne)]
    rcases mul_neg_iff.1 h with ⟨h1, h2⟩ | ⟨h1, h2⟩
    · simp [h2, not_lt.2 h1.le]
    · simp [h1, not_lt.2 h2.le]
  · rw [sign_eq (left_ne_zero_of_mul h.ne'), sign_eq (right_ne_zero_of_mul h.ne')]
    rcases mul_pos_iff.1 h with ⟨h1, h2⟩ | ⟨h1, h2⟩
    · simp [not_lt.2 h1.le, not_lt.2 h2.le]
    · simp [h1, h2]

omit [IsStrictOrderedRing K] [FloorRing K] in
theorem add_signOk (r : K) (b : Bool) : SignOk (if r = 0 then b else decide (r < 0)) r := by
  refine ⟨fun h => ?_, fun h => ?_⟩
  · rw [if_neg h.ne]; exact decide_eq_true h
  · rw [if_neg h.ne']; exact decide_eq_false (not_lt.2 h.le)

theorem mul_le_left (hp : 1 ≤ p) {s a b : Ieee K p emin emax} (hs : s.Finite) (ha : a.Finite) (hb : b.Finite) (h0 : 0 ≤ s.val) (h : a.val ≤ b.val) :
    s * a ≤ s * b := by
  match s, a, b, hs, ha, hb with
  | fin x _ _ _, fin y _ _ _, fin z _ _ _, _, _, _ => exact mk_le hp mul_signOk mul_signOk (mul_le_mul_of_nonneg_left h h0)

theorem add_le_left (hp : 1 ≤ p) {a b c : Ieee K p emin emax} (ha : a.Finite) (h0 : 0 ≤ b) (h : b ≤ c) : a + b ≤ a + c := by
  match a, b, c, ha with
  | fin x _ _ _, fin y _ _ _, fin z _ _ _, _ =>
    exact mk_le hp (add_signOk _ _) (add_signOk _ _) (add_le_add le_rfl (of_decide_eq_true h))
  | fin x _ _ _, fin y _ _ _, inf s, _ =>
    have hs : (!s) = true := h
    show le (mk _ _) (inf s) = true
    unfold mk
    cases s
    · split
      · rfl
      · show (_ || !false) = true
        simp
    · cases hs
  | fin .., inf s, inf t, _ => exact h
  | fin .., inf true, fin .., _ => cases h0
  | fin .., inf false, fin .., _ => cases h
  | fin .., nan, _, _ => cases h0
  | fin .., fin .., nan, _ => cases h
  | fin .., inf _, nan, _ => cases h

theorem neg_le_neg' {a b : Ieee K p emin emax} (h : a ≤ b) : -b ≤ -a := by
  match a, b with
  | fin x _ _ _, fin y _ _ _ =>
    have : x.val ≤ y.val := of_decide_eq_true h
    refine decide_eq_true ?_
    show -y.val ≤ -x.val
    linarith
  | fin .., inf s => exact h
  | inf s, fin .. =>
    show (!!s) = true
    rw [Bool.not_not]; exact h
  | inf s, inf t =>
    have : (s || !t) = true := h
    show (!t || !!s) = true
    rw [Bool.not_not, Bool.or_comm]; exact this
  | nan, _ => cases h
  | fin .., nan => cases h
  | inf _, nan => cases h

theorem add_le_right (hp : 1 ≤ p) {a b c : Ieee K p emin emax} (ha : a.Finite) (h0 : c ≤ 0) (h : b ≤ c) : a + b ≤ a + c := by
  match a, b, c, ha with
  | fin x _ _ _, fin y _ _ _, fin z _ _ _, _ =>
    exact mk_le hp (add_signOk _ _) (add_signOk _ _) (add_le_add le_rfl (of_decide_eq_true h))
  | fin x _ _ _, inf s, fin y _ _ _, _ =>
    have hs : s = true := h
    show le (inf s) (mk _ _) = true
    unfold mk
    rw [hs]
    split <;> rfl
  | fin .., inf s, inf t, _ => exact h
  | fin .., fin .., inf true, _ => cases h
  | fin .., fin .., inf false, _ => cases h0
  | fin .., nan, fin .., _ => cases h
  | fin .., nan, inf _, _ => cases h
  | fin .., fin .., nan, _ => cases h
  | fin .., inf _, nan, _ => cases h
  | fin .., nan, nan, _ => cases h

theorem sub_le_left (hp : 1 ≤ p) {a b c : Ieee K p emin emax} (ha : a.Finite) (h0 : 0 ≤ b) (h : b ≤ c) : a - c ≤ a - b := by
  have h1 := neg_le_neg' h0
  refine add_le_right hp ha ?_ (neg_le_neg' h)
  match b, h1 with
  | fin x _ _ _, h1 =>
    have : (0 : Ieee K p emin emax) ≤ fin x _ _ _ := h0
    have g : (0 : Fl K p emin).val ≤ x.val := of_decide_eq_true this
    have g : (0 : K) ≤ x.val := g
    refine decide_eq_true ?_
    show -x.val ≤ (0 : K)
    linarith
  | inf s, h1 =>
    have : (!s) = true := h0
    show (!s) = true
    exact this
  | nan, h1 => cases h0

end Ieee

/-- Point `i` of `n`. -/
def spacePoint (a b : IDouble) (n i : Nat) : IDouble :=
  if a < b then a + quot (b - a) (n - 1) * (i : IDouble) else a - quot (a - b) (n - 1) * (i : IDouble)

theorem linspace_ieee {same : IDouble → IDouble → Bool} {a b : IDouble} (hs : same a b = false) {n : Nat} (hn : 2 ≤ n) (hb : n < 2 ^ 32) :
    linspace same a b n = .ok (vtab n (spacePoint a b n)) := by
  have ha : n < allocMax := lt_trans hb (by rw [allocMax_eq]; norm_num)
  unfold linspace
  rw [spaced_eq ha (fun _ => rfl) (fun _ => rfl)]
  congr 1
  refine vtab_congr fun i _ => ?_
  rw [if_neg (by simp [hs]; omega)]
  rfl

theorem natCast_finite {i : Nat} (hi : i ≤ 2 ^ 53) : (i : IDouble).Finite ∧ (i : IDouble).val = i := by
  obtain ⟨h1, h2⟩ := natCast_fl hi
  exact ⟨Option.isSome_iff_exists.2 ⟨_, h1⟩, by rw [Ieee.val, Ieee.flD, h1]; exact h2⟩

theorem sub_swap {a b : IDouble} (h : (b - a).Finite) : (a - b).Finite := by
  obtain ⟨h1, h2, h3⟩ := sub_finite.1 h
  refine sub_finite.2 ⟨h2, h1, ?_⟩
  have : (a.flD - b.flD).val = -(b.flD - a.flD).val := by
    show rnd 53 (-1074) (a.flD.val - b.flD.val) = -rnd 53 (-1074) (b.flD.val - a.flD.val)
    rw [← rnd_neg, neg_sub]
  rw [this, abs_neg]
  exact h3

theorem sub_val {a b : IDouble} (h : (b - a).Finite) : (b - a).val = rnd 53 (-1074) (b.val - a.val) := by
  rw [Ieee.val, h.eq (ireads.rd_sub (rd_flD b) (rd_flD a))]
  rfl

/-- The step of finite numbers is finite and not negative. -/
theorem step_nonneg {a b : IDouble} (h : (b - a).Finite) (hab : a.val ≤ b.val) {m : Nat} (h1 : 1 ≤ m) (hm : m ≤ 2 ^ 53) :
    (quot (b - a) m).Finite ∧ 0 ≤ (quot (b - a) m).val ∧ (quot (b - a) m).val = rnd 53 (-1074) ((b - a).val / m) := by
  obtain ⟨h2, h3⟩ := natCast_fl hm
  have hm1 : (1 : ℚ) ≤ m := by exact_mod_cast h1
  have hlt : |(b - a).val| < 2 ^ 1024 := fl_lt h.fl_eq
  have h0 : rnd 53 (-1074) (0 : ℚ) = 0 := rnd_exact (by decide) (isFl_zero 53 (-1074))
  have hd : 0 ≤ (b - a).val := by
    rw [sub_val h]
    have := rnd_mono (p := 53) (by decide) (-1074) (sub_nonneg.2 hab)
    rwa [h0] at this
  have hq : 0 ≤ rnd 53 (-1074) ((b - a).val / m) := by
    have := rnd_mono (p := 53) (by decide) (-1074) (div_nonneg hd (by linarith : (0 : ℚ) ≤ m))
    rwa [h0] at this
  have hle : rnd 53 (-1074) ((b - a).val / m) ≤ (b - a).val := by
    have := rnd_mono (p := 53) (by decide) (-1074) (div_le_self hd hm1)
    have e : rnd 53 (-1074) (b - a).val = (b - a).val := rnd_exact (by decide) (b - a).flD.isFl
    rwa [e] at this
  have h5 : (Ieee.div (b - a) (m : IDouble)).fl = some (Fl.of 53 (-1074) ((b - a).flD.val / (m : Double).val)) := by
    refine fl_div h.fl_eq h2 (by rw [h3]; linarith) ?_
    rw [h3]
    show |rnd 53 (-1074) ((b - a).val / m)| < 2 ^ 1024
    rw [abs_of_nonneg hq]
    exact hle.trans_lt ((le_abs_self _).trans_lt hlt)
  have h6 : (quot (b - a) m).val = rnd 53 (-1074) ((b - a).val / m) := by
    rw [quot_ieee, Ieee.val, Ieee.flD, h5]
    show rnd 53 (-1074) ((b - a).flD.val / (m : Double).val) = _
    rw [h3]
    rfl
  exact ⟨Option.isSome_iff_exists.2 ⟨_, h5⟩, by rw [h6]; exact hq, h6⟩

theorem zero_prod {s : IDouble} (hs : s.Finite) : (s * ((0 : Nat) : IDouble)).fl = some 0 := by
  have h0 : rnd 53 (-1074) (0 : ℚ) = 0 := rnd_exact (by decide) (isFl_zero 53 (-1074))
  have e : s.flD * ((0 : Nat) : Double) = 0 := by
    apply Fl.ext
    show rnd 53 (-1074) (s.flD.val * ((0 : Nat) : Double).val) = 0
    rw [(natCast_fl (by norm_num : 0 ≤ 2 ^ 53)).2, Nat.cast_zero, mul_zero, h0]
  have := fl_mul hs.fl_eq (natCast_fl (by norm_num : 0 ≤ 2 ^ 53)).1 (by rw [e]; show |(0 : ℚ)| < 2 ^ 1024; norm_num)
  rw [this, e]

/-- The points are in order. -/
theorem spacePoint_mono {a b : IDouble} (h : (b - a).Finite) {n : Nat} (hn : 2 ≤ n) (hb : n < 2 ^ 32) :
    (spacePoint a b n 0).Finite ∧ (spacePoint a b n 0).val = a.val ∧ ∀ i j, i ≤ j → j < n →
      (a < b → spacePoint a b n i ≤ spacePoint a b n j) ∧ (¬ a < b → spacePoint a b n j ≤ spacePoint a b n i) := by
  obtain ⟨hbf, haf, -⟩ := sub_finite.1 h
  have hlt : a < b ↔ a.val < b.val := lt_iff haf.fl_eq hbf.fl_eq
  have hm53 : n - 1 ≤ 2 ^ 53 := by omega
  have halt : |a.val| < 2 ^ 1024 := fl_lt haf.fl_eq
  have hprod : ∀ {s : IDouble}, s.Finite → 0 ≤ s.val → ∀ i j : Nat, i ≤ j → j < n → 0 ≤ s * (i : IDouble) ∧ s * (i : IDouble) ≤ s * (j : IDouble) := by
    intro s hs h0 i j hij hj
    obtain ⟨g1, g2⟩ := natCast_finite (show i ≤ 2 ^ 53 by omega)
    obtain ⟨g3, g4⟩ := natCast_finite (show j ≤ 2 ^ 53 by omega)
    obtain ⟨g5, g6⟩ := natCast_finite (show 0 ≤ 2 ^ 53 by omega)
    refine ⟨?_, mul_le_left (by decide) hs g1 g3 h0 (by rw [g2, g4]; exact_mod_cast hij)⟩
    have k := mul_le_left (by decide) hs g5 g1 h0 (by rw [g6, g2]; exact_mod_cast Nat.zero_le i)
    have z := zero_prod hs
    match hq : s * ((0 : Nat) : IDouble), z with
    | .fin x _ _ _, z =>
      rw [hq] at k
      obtain rfl : x = 0 := Option.some_inj.1 z
      match hr : s * (i : IDouble) with
      | .fin .. => rw [hr] at k; exact k
      | .inf _ => rw [hr] at k; exact k
      | .nan => rw [hr] at k; cases k
  have hfirst : ∀ {s : IDouble}, s.Finite → (a + s * ((0 : Nat) : IDouble)).fl = some a.flD ∧ (a - s * ((0 : Nat) : IDouble)).fl = some a.flD := by
    intro s hs
    have z := zero_prod hs
    have e1 : a.flD + 0 = a.flD := by
      apply Fl.ext
      show rnd 53 (-1074) (a.flD.val + 0) = _
      rw [add_zero, rnd_exact (by decide) a.flD.isFl]
    have e2 : a.flD - 0 = a.flD := by
      apply Fl.ext
      show rnd 53 (-1074) (a.flD.val - 0) = _
      rw [sub_zero, rnd_exact (by decide) a.flD.isFl]
    have g1 := fl_add haf.fl_eq z (by rw [e1]; exact halt)
    have g2 := fl_sub haf.fl_eq z (by rw [e2]; exact halt)
    rw [e1] at g1
    rw [e2] at g2
    exact ⟨g1, g2⟩
  have hup := fun hab => step_nonneg h hab (show 1 ≤ n - 1 by omega) hm53
  have hdn := fun hab => step_nonneg (sub_swap h) hab (show 1 ≤ n - 1 by omega) hm53
  unfold spacePoint
  by_cases hab : a < b
  · obtain ⟨s1, s2, -⟩ := hup (hlt.1 hab).le
    simp only [if_pos hab]
    refine ⟨Option.isSome_iff_exists.2 ⟨_, (hfirst s1).1⟩, by rw [Ieee.val, Ieee.flD, (hfirst s1).1]; rfl, fun i j hij hj => ⟨fun _ => ?_, fun hc => absurd hab hc⟩⟩
    obtain ⟨k1, k2⟩ := hprod s1 s2 i j hij hj
    exact add_le_left (by decide) haf k1 k2
  · obtain ⟨s1, s2, -⟩ := hdn (not_lt.1 fun hc => hab (hlt.2 hc))
    simp only [if_neg hab]
    refine ⟨Option.isSome_iff_exists.2 ⟨_, (hfirst s1).2⟩, by rw [Ieee.val, Ieee.flD, (hfirst s1).2]; rfl, fun i j hij hj => ⟨fun hc => absurd hc hab, fun _ => ?_⟩⟩
    obtain ⟨k1, k2⟩ := hprod s1 s2 i j hij hj
    exact sub_le_left (by decide) haf k1 k2

/-- C135, order: the points of `linspace(a, b, n)` begin at `a` and never go back, whether or not the last ones overflow, if the difference of the endpoints is finite. -/
theorem C135_order {same : IDouble → IDouble → Bool} {a b : IDouble} (hs : same a b = false) {n : Nat} (hn : 2 ≤ n) (hb : n < 2 ^ 32) (h : (b - a).Finite) :
    ∃ f : Nat → IDouble, ReturnsVec (linspace same a b n) n f ∧ (f 0).Finite ∧ (f 0).val = a.val ∧
      ∀ i j, i ≤ j → j < n → (a < b → f i ≤ f j) ∧ (¬ a < b → f j ≤ f i) :=
  ⟨_, ReturnsVec.of_eq (linspace_ieee hs hn hb), spacePoint_mono h hn hb⟩

/-- C135, accuracy: a finite point comes from finite endpoints and satisfies the bound of C82; all points are finite if the endpoints are and do not exceed `2^1020`. -/
theorem C135_points_partial {same : IDouble → IDouble → Bool} {a b : IDouble} (hs : same a b = false) {n : Nat} (hn : 2 ≤ n) (hb : n < 2 ^ 32) :
    ∃ f : Nat → IDouble, ReturnsVec (linspace same a b n) n f ∧
      (∀ i, i < n → (f i).Finite → a.Finite ∧ b.Finite ∧ |(f i).val - (a.val + (b.val - a.val) * (i / (n - 1 : Nat)))| ≤
        1 / 2 ^ 53 * |a.val + (b.val - a.val) * (i / (n - 1 : Nat))| + 1 / 2 ^ 51 * |b.val - a.val| + n / 2 ^ 1074) ∧
      (a.Finite → b.Finite → |a.val| ≤ 2 ^ 1020 → |b.val| ≤ 2 ^ 1020 → ∀ i, i < n → (f i).Finite) := by
  have hn53 : n ≤ 2 ^ 53 := by omega
  have hA : n < allocMax := lt_trans hb (by rw [allocMax_eq]; norm_num)
  refine ⟨_, ReturnsVec.of_eq (linspace_ieee hs hn hb), fun i hi hf => ?_, fun haf hbf ha1 hb1 i hi => ?_⟩
  · have hmf := (natCast_finite (show n - 1 ≤ 2 ^ 53 by omega)).1
    have hfin : a.Finite ∧ b.Finite := by
      unfold spacePoint at hf
      split at hf
      · obtain ⟨h1, h2⟩ := ireads.some_add hf
        obtain ⟨c, hc⟩ := Option.isSome_iff_exists.1 (ireads.some_mul h2).1
        exact ⟨h1, (ireads.some_sub (fl_div_some hmf hc).1).1⟩
      · obtain ⟨h1, h2⟩ := ireads.some_sub hf
        obtain ⟨c, hc⟩ := Option.isSome_iff_exists.1 (ireads.some_mul h2).1
        exact ⟨h1, (ireads.some_sub (fl_div_some hmf hc).1).2⟩
    refine ⟨hfin.1, hfin.2, ?_⟩
    obtain ⟨g, hg, -, hgb⟩ := C82_points_partial (K := ℚ) (p := 53) (emin := -1074) (by decide) (by decide) (same := fun _ _ => false) (a := a.flD) (b := b.flD) rfl hn hA hn53
      rfl rfl
    have hgi : (spacePoint a b n i).flD = g i := by
      have e1 := hg.eq
      unfold linspace at e1
      have hdiv : ∀ t : Double, cdiv t ((n - 1 : Nat) : Double) = .ok (quot t (n - 1)) := by
        intro t
        have h0 : (((n - 1 : Nat) : Double)).val ≠ 0 := by
          rw [(natCast_fl (show n - 1 ≤ 2 ^ 53 by omega)).2]; exact Nat.cast_ne_zero.2 (by omega)
        have : cdiv t ((n - 1 : Nat) : Double) = .ok (Fl.of 53 (-1074) (t.val / ((n - 1 : Nat) : Double).val)) := if_neg h0
        unfold quot
        rw [this]
      rw [spaced_eq hA (fun _ => hdiv _) (fun _ => hdiv _)] at e1
      injection e1 with e1
      rw [← vtab_ext_iff.1 e1 i hi, if_neg (by simp; omega)]
      have hlt : a < b ↔ a.flD < b.flD := lt_iff hfin.1.fl_eq hfin.2.fl_eq
      have hq : ∀ {t : IDouble} {x : Double}, Rd fl t x → Rd fl (quot t (n - 1) * (i : IDouble)) (quot x (n - 1) * (i : Double)) := fun h =>
        ireads.rd_mul (rd_quot h (by omega) (by omega)) fun c hc => by
          rw [(natCast_fl (show i ≤ 2 ^ 53 by omega)).1] at hc
          exact (Option.some_inj.1 hc).symm
      refine hf.eq ?_
      unfold spacePoint
      by_cases hab : a < b
      · rw [if_pos hab, if_pos (hlt.1 hab)]
        exact ireads.rd_add (rd_flD _) (hq (ireads.rd_sub (rd_flD _) (rd_flD _)))
      · rw [if_neg hab, if_neg fun hc => hab (hlt.2 hc)]
        exact ireads.rd_sub (rd_flD _) (hq (ireads.rd_sub (rd_flD _) (rd_flD _)))
    have h1 := hgb i hi
    rw [← hgi] at h1
    refine h1.trans (add_le_add (add_le_add ?_ ?_) ?_)
    · refine le_of_eq (congrArg (· * _) ?_)
      norm_num
    · refine mul_le_mul_of_nonneg_right ?_ (abs_nonneg _)
      norm_num
    · have : (n : ℚ) * (1 + 2 ^ (-((53 : ℕ) : ℤ))) ^ 2 * (2 ^ (-1074 : ℤ) / 2) = n * ((1 + 2 ^ (-((53 : ℕ) : ℤ))) ^ 2 * (2 ^ (-1074 : ℤ) / 2)) := by ring
      rw [this, two_zpow_emin]
      have e2 : (n : ℚ) / 2 ^ 1074 = n * (1 / 2 ^ 1074) := by rw [mul_one_div]
      rw [e2]
      refine mul_le_mul_of_nonneg_left ?_ (Nat.cast_nonneg n)
      have h2 : (1 + 2 ^ (-((53 : ℕ) : ℤ)) : ℚ) ^ 2 ≤ 2 := by norm_num
      have h3 : (0 : ℚ) ≤ 1 / 2 ^ 1074 := by positivity
      have h4 := mul_le_mul_of_nonneg_right h2 (div_nonneg h3 zero_le_two)
      linarith
  · have hd : ∀ {a b : IDouble}, a.Finite → b.Finite → |a.val| ≤ 2 ^ 1020 → |b.val| ≤ 2 ^ 1020 → Sz (b - a) (b.flD - a.flD) 1021 := fun ha hb h1 h2 =>
      Sz.sub (by norm_num) (Sz.of_finite hb h2) (Sz.of_finite ha h1)
    have hm1 : (1 : ℚ) ≤ (n - 1 : Nat) := by exact_mod_cast (show 1 ≤ n - 1 by omega)
    have hi53 : i ≤ 2 ^ 53 := by omega
    have him : (i : ℚ) ≤ (n - 1 : Nat) := by exact_mod_cast (show i ≤ n - 1 by omega)
    have hi32 : (i : ℚ) ≤ 2 ^ 32 := by exact_mod_cast (show i ≤ 2 ^ 32 by omega)
    have hp : ∀ {t : IDouble} {x : Double}, Sz t x 1021 → Sz (quot t (n - 1) * (i : IDouble)) (quot x (n - 1) * (i : Double)) 1022 := by
      intro t x ht
      have h1 := ht.quot (by norm_num) (show 1 ≤ n - 1 by omega) (show n - 1 ≤ 2 ^ 53 by omega)
      obtain ⟨h2, h3⟩ := natCast_fl hi53
      have h4 : |(quot x (n - 1)).val * (i : Double).val| ≤ 2 ^ 1022 := by
        rw [quot_double (by omega) (by omega), h3, abs_mul, abs_of_nonneg (Nat.cast_nonneg i : (0 : ℚ) ≤ i)]
        have k1 := rnd_err 53 (-1074) (x.val / (n - 1 : Nat))
        have k2 := abs_sub_abs_le_abs_sub (rnd 53 (-1074) (x.val / (n - 1 : Nat))) (x.val / (n - 1 : Nat))
        have q1 : (2 : ℚ) ^ (-((53 : ℕ) : ℤ)) = 1 / 2 ^ 53 := by norm_num
        have q2 : (2 : ℚ) ^ (-1074 : ℤ) / 2 = 1 / 2 ^ 1075 := by norm_num
        rw [q1, q2] at k1
        have k3 : |x.val / (n - 1 : Nat)| * i ≤ 2 ^ 1021 := by
          rw [abs_div, abs_of_nonneg (by linarith : (0 : ℚ) ≤ (n - 1 : Nat)), div_mul_eq_mul_div, div_le_iff₀ (by linarith)]
          exact mul_le_mul ht.2 him (Nat.cast_nonneg i) (by positivity)
        have k4 : |rnd 53 (-1074) (x.val / (n - 1 : Nat))| ≤ (1 + 1 / 2 ^ 53) * |x.val / (n - 1 : Nat)| + 1 / 2 ^ 1075 := by linarith
        have k5 := mul_le_mul_of_nonneg_right k4 (Nat.cast_nonneg i : (0 : ℚ) ≤ i)
        refine k5.trans ?_
        have k6 : 1 / 2 ^ 1075 * (i : ℚ) ≤ 1 / 2 ^ 1075 * 2 ^ 32 := mul_le_mul_of_nonneg_left hi32 (by positivity)
        have k7 : (1 + 1 / 2 ^ 53) * (|x.val / (n - 1 : Nat)| * i) ≤ (1 + 1 / 2 ^ 53) * 2 ^ 1021 := mul_le_mul_of_nonneg_left k3 (by positivity)
        have k8 : (1 + 1 / 2 ^ 53) * (2 : ℚ) ^ 1021 + 1 / 2 ^ 1075 * 2 ^ 32 ≤ 2 ^ 1022 := by norm_num
        linarith
      have h5 := rnd_pow h4
      exact ⟨fl_mul h1.1 h2 (h5.trans_lt (pow_lt_max (by norm_num))), h5⟩
    unfold spacePoint
    split
    · exact (Sz.add (e := 1022) (by norm_num) ((Sz.of_finite haf ha1).mono (by norm_num)) (hp (hd haf hbf ha1 hb1))).finite
    · exact (Sz.sub (e := 1022) (by norm_num) ((Sz.of_finite haf ha1).mono (by norm_num)) (hp (hd hbf haf hb1 ha1))).finite

/-- The comparison of `linspace` for `double`. -/
def dSame : IDouble → IDouble → Bool := Feq.approxEq Ieee.abs dtol

/-- C135, what fails: from 1 to 26 in 11 steps the last point is beyond 26. From 0 to the largest double in three steps the last point is infinite. If the difference
of the endpoints overflows, no point is right. An infinite end swallows all points, and a NaN makes them NaN. -/
theorem C135_end_false : ∃ M : IDouble, M.Finite ∧ M.val = 2 ^ 1024 - 2 ^ 971 ∧
    (linspace dSame 1 (dbl 26) 12 >>= fun v => .ok (v[11]?)) = .ok (some (dbl (26 + 1 / 2 ^ 48))) ∧ dbl 26 < dbl (26 + 1 / 2 ^ 48) ∧
    (linspace dSame 0 M 4 >>= fun v => .ok (v[3]?)) = .ok (some (.inf false)) ∧ linspace dSame (-M) M 3 = .ok [.nan, .inf false, .inf false] ∧
    linspace dSame 0 (.inf false) 3 = .ok [.inf false, .inf false, .inf false] ∧ linspace dSame 0 .nan 2 = .ok [.nan, .nan] :=
  ⟨Ieee.mk false (2 ^ 1024 - 2 ^ 971), by decide +kernel, by decide +kernel, by decide +kernel, by decide +kernel, by decide +kernel, by decide +kernel,
    by decide +kernel, by decide +kernel⟩

/-- A decreasing range, and one from the negative zero. -/
example : linspace dSame 1 0 5 = .ok [1, dbl (3 / 4), dbl (1 / 2), dbl (1 / 4), 0] ∧ linspace dSame (-0) 1 2 = .ok [0, 1] := by decide +kernel

end Malg
