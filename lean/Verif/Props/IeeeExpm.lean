import Verif.Props.ExpmDouble
import Verif.Props.ExpmEnds
/-!
# Property C127: overflow in `expm`

The bounds of C124 are for an arithmetic without largest number. Here they are carried over to IEEE doubles, where a sum or a product may overflow.
-/
namespace Malg
open Ops Lin Ieee
open scoped Matrix.Norms.Operator

set_option exponentiation.threshold 3000

namespace Reads
variable {X Y : Type} [Zero X] [One X] [Add X] [Sub X] [Mul X] [NatCast X] [CDiv X] [Zero Y] [One Y] [Add Y] [Sub Y] [Mul Y] [NatCast Y] [CDiv Y]
  {v : X → Option Y} (R : Reads v) {n : Nat} {a : Nat → Nat → X} {x : Nat → Nat → Y}
include R

omit [NatCast X] [CDiv X] [NatCast Y] [CDiv Y] in
theorem rd_expPow (h : ∀ r c, Rd v (a r c) (x r c)) (j r c : Nat) : Rd v (expPow n a j r c) (expPow n x j r c) := by
  induction j generalizing r c with
  | zero =>
    rw [expPow, expPow]
    dsimp only
    split
    · exact R.rd_one
    · exact R.rd_zero
  | succ j ih => exact R.rd_lsum fun i _ => R.rd_mul (ih r i) (h i c)

theorem rd_expAcc (h : ∀ r c, Rd v (a r c) (x r c)) {q i : Nat} (hf : ∀ j, j ≤ q + i → Rd v (invFac X j) (invFac Y j)) (r c : Nat) :
    Rd v (expAcc n a q i r c) (expAcc n x q i r c) := by
  induction i with
  | zero => exact R.rd_zero
  | succ i ih => exact R.rd_add (ih fun j hj => hf j (by omega)) (R.rd_mul (R.rd_expPow h _ r c) (hf _ (by omega)))

theorem rd_expRet (h : ∀ r c, Rd v (a r c) (x r c)) {b : Nat} (hf : ∀ j, j ≤ b * (n * n) → Rd v (invFac X j) (invFac Y j)) (r c : Nat) :
    Rd v (expRet n a b r c) (expRet n x b r c) := by
  induction b with
  | zero =>
    rw [expRet, expRet]
    dsimp only
    split
    · exact R.rd_one
    · exact R.rd_zero
  | succ b ih =>
    have e : (b + 1) * (n * n) = b * (n * n) + n * n := Nat.succ_mul b (n * n)
    rw [e] at hf
    exact R.rd_add (ih fun j hj => hf j (by omega)) (R.rd_expAcc h hf r c)

omit [One X] [One Y] [NatCast X] [CDiv X] [NatCast Y] [CDiv Y] [Sub X] [Sub Y] R in
variable [One X] [One Y] [Sub X] [Sub Y] in
theorem rd_expSq (R : Reads v) (h : ∀ r c, Rd v (a r c) (x r c)) (k r c : Nat) : Rd v (expSq n a k r c) (expSq n x k r c) := by
  induction k generalizing r c with
  | zero => exact h r c
  | succ k ih => exact R.rd_lsum fun l _ => R.rd_mul (ih r l) (ih l c)

/-- The result of `expm`, if it is a number. -/
theorem rd_expm (h : ∀ r c, Rd v (a r c) (x r c)) {b i : Nat} (hf : ∀ j, j ≤ b * (n * n) + i → Rd v (invFac X j) (invFac Y j)) (k r c : Nat) :
    Rd v (expSq n (expRetI n a b i) k r c) (expSq n (expRetI n x b i) k r c) :=
  R.rd_expSq (fun r c => R.rd_add (R.rd_expRet h (fun j hj => hf j (by omega)) r c) (R.rd_expAcc h hf r c)) k r c

end Reads

set_option maxRecDepth 100000 in
/-- The inverse factorials in `double` do not overflow. -/
theorem invFac_fl : ∀ j, j ≤ 178 → (invFac IDouble j).fl = some (invFac Double j) ∧ |(invFac Double j).val| ≤ 1 := by
  decide +kernel

theorem dIsZero_iff {a : IDouble} {x : Double} (h : a.fl = some x) : dIsZero a = true ↔ x.val = 0 := by
  rw [approxZero_iff (by decide) dtol_ok]
  have hf : a.Finite := Option.isSome_iff_exists.2 ⟨x, h⟩
  have hv : a.val = x.val := by rw [Ieee.val, Ieee.flD, h]; rfl
  rw [hv]
  constructor
  · rintro (h' | ⟨s, rfl⟩)
    · exact h'.2
    · cases h
  · exact fun h' => .inl ⟨hf, h'⟩

/-! ## No overflow -/

/-- Rounding a number of at most `2^1020`. -/
theorem rnd_lt {v : ℚ} (h : |v| ≤ 2 ^ 1020) : |rnd 53 (-1074) v| < 2 ^ 1024 := by
  have h1 := rnd_err 53 (-1074) v
  have h2 := abs_sub_abs_le_abs_sub (rnd 53 (-1074) v) v
  have q1 : (2 : ℚ) ^ (-((53 : ℕ) : ℤ)) = 1 / 2 ^ 53 := by norm_num
  have q2 : (2 : ℚ) ^ (-1074 : ℤ) / 2 = 1 / 2 ^ 1075 := by norm_num
  rw [q1, q2] at h1
  have h3 : |rnd 53 (-1074) v| ≤ 2 ^ 1020 + (1 / 2 ^ 53 * 2 ^ 1020 + 1 / 2 ^ 1075) := by
    have : 1 / 2 ^ 53 * |v| ≤ 1 / 2 ^ 53 * 2 ^ 1020 := mul_le_mul_of_nonneg_left h (by norm_num)
    linarith
  exact h3.trans_lt (by norm_num)

theorem fl_mul_small {a b : IDouble} {x y : Double} (ha : a.fl = some x) (hb : b.fl = some y) (h : |(x.val : ℝ)| * |(y.val : ℝ)| ≤ 2 ^ 1020) :
    (a * b).fl = some (x * y) := by
  refine fl_mul ha hb (rnd_lt ?_)
  rw [← abs_mul] at h
  exact_mod_cast h

theorem fl_add_small {a b : IDouble} {x y : Double} (ha : a.fl = some x) (hb : b.fl = some y) (h : |(x.val : ℝ)| + |(y.val : ℝ)| ≤ 2 ^ 1020) :
    (a + b).fl = some (x + y) := by
  refine fl_add ha hb (rnd_lt ?_)
  have := (abs_add_le (x.val : ℝ) y.val).trans h
  exact_mod_cast this

/-- Sums of products do not overflow. -/
theorem fl_dot_small {n : Nat} (hn : n ≤ 2 ^ 10) {a b : Nat → IDouble} {x y : Nat → Double} (ha : ∀ i, i < n → (a i).fl = some (x i))
    (hb : ∀ i, i < n → (b i).fl = some (y i)) (h : ∑ i ∈ Finset.range n, |((x i).val : ℝ)| * |((y i).val : ℝ)| ≤ 2 ^ 1020) :
    (lsum n fun i => a i * b i).fl = some (lsum n fun i => x i * y i) := by
  have hav : ∀ i, i < n → (a i).Finite ∧ (a i).flD = x i := fun i hi =>
    ⟨Option.isSome_iff_exists.2 ⟨_, ha i hi⟩, by rw [Ieee.flD, ha i hi]; rfl⟩
  have hbv : ∀ i, i < n → (b i).Finite ∧ (b i).flD = y i := fun i hi =>
    ⟨Option.isSome_iff_exists.2 ⟨_, hb i hi⟩, by rw [Ieee.flD, hb i hi]; rfl⟩
  have hq : ∑ i ∈ Finset.range n, |(a i).val| * |(b i).val| ≤ 2 ^ 1020 := by
    have e : ∑ i ∈ Finset.range n, |(a i).val| * |(b i).val| = ∑ i ∈ Finset.range n, |(x i).val| * |(y i).val| :=
      Finset.sum_congr rfl fun i hi => by
        rw [Ieee.val, Ieee.val, (hav i (Finset.mem_range.1 hi)).2, (hbv i (Finset.mem_range.1 hi)).2]
    rw [e]
    exact_mod_cast h
  have hfin := (dot_finite (K := ℚ) (by decide) (by decide) (by decide) a b n).2 (fun i hi => ⟨(hav i hi).1, (hbv i hi).1⟩) (by
    have hs0 : 0 ≤ ∑ i ∈ Finset.range n, |(a i).val| * |(b i).val| := Finset.sum_nonneg fun _ _ => mul_nonneg (abs_nonneg _) (abs_nonneg _)
    have hnq : (n : ℚ) ≤ 2 ^ 10 := by exact_mod_cast hn
    have hu : (2 : ℚ) ^ (-((53 : ℕ) : ℤ)) = 1 / 2 ^ 53 := by norm_num
    have hf1 := double_factor_le (k := n) (hn.trans (by norm_num))
    have hf2 := double_factor_le (k := n - 1) ((Nat.sub_le n 1).trans (hn.trans (by norm_num)))
    unfold headroom
    rw [hu, two_zpow_emin]
    have a1 : (1 + 1 / 2 ^ 53 : ℚ) ^ n * ∑ i ∈ Finset.range n, |(a i).val| * |(b i).val| ≤ 2 * 2 ^ 1020 :=
      mul_le_mul hf1 hq hs0 zero_le_two
    have a2 : (n : ℚ) * (1 + 1 / 2 ^ 53) ^ (n - 1) * (1 / 2 ^ 1074 / 2) ≤ 2 ^ 10 * 2 * (1 / 2 ^ 1074 / 2) :=
      mul_le_mul_of_nonneg_right (mul_le_mul hnq hf2 (pow_nonneg (by positivity) _) (by positivity)) (by positivity)
    refine lt_of_le_of_lt (add_le_add a1 a2) ?_
    norm_num)
  have R := reads (K := ℚ) (p := 53) (emin := -1074) (emax := 1024) (by decide) (by decide) (by decide)
  rw [hfin.fl_eq, hfin.eq (R.rd_lsum (τ := fun i => x i * y i) fun i hi => R.rd_mul (fun c hc => ?_) fun c hc => ?_)]
  · rw [ha i hi] at hc; exact (Option.some_inj.1 hc).symm
  · rw [hb i hi] at hc; exact (Option.some_inj.1 hc).symm

/-- The values of a matrix of doubles. -/
noncomputable abbrev dmat (n : Nat) (x : Nat → Nat → Double) : Matrix (Fin n) (Fin n) ℝ := (toM n n x).map fun z => ((z.val : ℚ) : ℝ)

theorem entry_le_norm {n : Nat} (x : Nat → Nat → Double) {r c : Nat} (hr : r < n) (hc : c < n) : |((x r c).val : ℝ)| ≤ ‖dmat n x‖ := by
  refine le_trans ?_ (row_sum_le_norm _ ⟨r, hr⟩)
  exact Finset.single_le_sum (f := fun j => |dmat n x ⟨r, hr⟩ j|) (fun _ _ => abs_nonneg _) (Finset.mem_univ (⟨c, hc⟩ : Fin n))

/-- `a` holds the finite numbers `x`. -/
def Lifts (n : Nat) (a : Nat → Nat → IDouble) (x : Nat → Nat → Double) : Prop := ∀ r c, r < n → c < n → (a r c).fl = some (x r c)

theorem Lifts.mul {n : Nat} (hn : n ≤ 2 ^ 10) {a b : Nat → Nat → IDouble} {x y : Nat → Nat → Double} (ha : Lifts n a x) (hb : Lifts n b y) {A B : ℝ}
    (hA : ‖dmat n x‖ ≤ A) (hB : ‖dmat n y‖ ≤ B) (h : A * B ≤ 2 ^ 1020) :
    Lifts n (fun r c => lsum n fun k => a r k * b k c) (fun r c => lsum n fun k => x r k * y k c) := by
  intro r c hr hc
  refine fl_dot_small hn (fun i hi => ha r i hr hi) (fun i hi => hb i c hi hc) (le_trans ?_ h)
  have hB0 : 0 ≤ B := (norm_nonneg _).trans hB
  calc ∑ i ∈ Finset.range n, |((x r i).val : ℝ)| * |((y i c).val : ℝ)| ≤ ∑ i ∈ Finset.range n, |((x r i).val : ℝ)| * B :=
        Finset.sum_le_sum fun i hi => mul_le_mul_of_nonneg_left ((entry_le_norm y (Finset.mem_range.1 hi) hc).trans hB) (abs_nonneg _)
    _ = (∑ i ∈ Finset.range n, |((x r i).val : ℝ)|) * B := by rw [Finset.sum_mul]
    _ ≤ A * B := by
        refine mul_le_mul_of_nonneg_right ?_ hB0
        rw [Finset.sum_range]
        exact (row_sum_le_norm (dmat n x) ⟨r, hr⟩).trans hA

/-! ## The sizes of the intermediate results -/

theorem double_two {m : Nat} (hm : m ≤ 2 ^ 52) : (1 + 1 / 2 ^ 53 : ℝ) ^ m ≤ 2 := by
  have h := double_pow hm
  have : (m : ℝ) / 2 ^ 52 ≤ 1 := by rw [div_le_one (by positivity)]; exact_mod_cast hm
  linarith

theorem exp_le_three {y : ℝ} (hy : y ≤ 1 + 1 / 2 ^ 40) : Real.exp y ≤ 3 := by
  have h1 : Real.exp (1 / 2 ^ 40) ≤ 11 / 10 := by
    refine le_of_not_gt fun h => ?_
    have h2 : (11 / 10 : ℝ) ^ 16 < Real.exp (1 / 2 ^ 40) ^ 16 := pow_lt_pow_left₀ h (by norm_num) (by norm_num)
    rw [← Real.exp_nat_mul] at h2
    have h3 : Real.exp (((16 : ℕ) : ℝ) * (1 / 2 ^ 40)) ≤ Real.exp 1 := Real.exp_le_exp.2 (by norm_num)
    have h4 := Real.exp_one_lt_d9
    norm_num at h2
    linarith
  have h2 : Real.exp y ≤ Real.exp 1 * Real.exp (1 / 2 ^ 40) := by rw [← Real.exp_add]; exact Real.exp_le_exp.2 hy
  have h3 := Real.exp_one_lt_d9
  have h4 : Real.exp 1 * Real.exp (1 / 2 ^ 40) ≤ 2.7182818286 * (11 / 10) := mul_le_mul h3.le h1 (Real.exp_pos _).le (by norm_num)
  refine h2.trans (h4.trans (by norm_num))

section
variable {n : Nat} (hn0 : 0 < n) (hn : n ≤ 2 ^ 10) {y : ℝ} (hy : 0 ≤ y) (hy1 : y ≤ 1 + 1 / 2 ^ 40) {S : Matrix (Fin n) (Fin n) ℝ} {sc : Nat → Nat → Double}
  (hs : MNear (1 / 2 ^ 53) 1 (n * (1 / 2 ^ 1075)) (dmat n sc) S y)

include hn hy1 hs in
theorem scaled_size : ‖dmat n sc‖ ≤ 8 := by
  refine hs.norm_le.trans ?_
  have h1 : (1 + 1 / 2 ^ 53 : ℝ) ^ 1 * y ≤ 2 * (1 + 1 / 2 ^ 40) := by
    refine (mul_le_mul_of_nonneg_left hy1 (by positivity)).trans (mul_le_mul_of_nonneg_right (double_two (by norm_num)) (by positivity))
  have h2 : (n : ℝ) * (1 / 2 ^ 1075) ≤ 2 ^ 10 * (1 / 2 ^ 1075) := mul_le_mul_of_nonneg_right (by exact_mod_cast hn) (by positivity)
  refine (add_le_add h1 h2).trans (by norm_num)

include hn0 hn hy hy1 hs in
theorem expPow_size {p : Nat} (hp : p ≤ 178) : ‖dmat n (expPow n sc p)‖ ≤ 8 := by
  refine (expPow_near double_rounds double_one hn0 hy hs p).norm_le.trans ?_
  have hn' : (n : ℝ) ≤ 2 ^ 10 := by exact_mod_cast hn
  have hp' : (p : ℝ) ≤ 178 := by exact_mod_cast hp
  have h1 : (1 + 1 / 2 ^ 53 : ℝ) ^ ((n + 1) * p) ≤ 2 := double_two ((Nat.mul_le_mul (Nat.succ_le_succ hn) hp).trans (by norm_num))
  have h2 : y ^ p ≤ 2 := by
    refine (pow_le_pow_left₀ hy hy1 p).trans ((pow_le_pow_right₀ (by norm_num) hp).trans (by norm_num))
  have h3 : expmRate n (1 / 2 ^ 53) (1 / 2 ^ 1075) y ≤ 2 := by
    refine le_trans ?_ (expmRate_double hn hy1)
    have h := expmRate_one double_rounds (n := n) (y := y)
    exact le_mul_of_one_le_right (zero_le_one.trans h) (by norm_num)
  have h0 : 0 ≤ expmRate n (1 / 2 ^ 53) (1 / 2 ^ 1075) y := zero_le_one.trans (expmRate_one double_rounds)
  have h4 : expmRate n (1 / 2 ^ 53) (1 / 2 ^ 1075) y ^ p ≤ 2 ^ 178 := (pow_le_pow_left₀ h0 h3 p).trans (pow_le_pow_right₀ (by norm_num) hp)
  have h5 : (p : ℝ) * ((n + n * n) * (1 / 2 ^ 1075)) * expmRate n (1 / 2 ^ 53) (1 / 2 ^ 1075) y ^ p ≤
      178 * ((2 ^ 10 + 2 ^ 10 * 2 ^ 10) * (1 / 2 ^ 1075)) * 2 ^ 178 := by gcongr
  refine (add_le_add (mul_le_mul h1 h2 (by positivity) zero_le_two) h5).trans (by norm_num)

include hn0 hn hy hy1 hs in
theorem expAcc_size {q i : Nat} (hp : q + i ≤ 177) : ‖dmat n (expAcc n sc q i)‖ ≤ 8 := by
  refine (expAcc_near double_rounds double_one (by norm_num) (J := 178) double_nat hn0 hy hs (q := q) (i := i) (by omega)).norm_le.trans ?_
  have h1 : (1 + 1 / 2 ^ 53 : ℝ) ^ ((n + 3) * (q + i) + 1 + i) ≤ 2 := by
    have := Nat.mul_le_mul (Nat.add_le_add_right hn 3) hp
    exact double_two (by omega)
  have h2 : expSum y (q + i) - expSum y q ≤ 3 := by
    have a1 := expSum_le hy (q + i)
    have a2 := expSum_one_le hy q
    have a3 := exp_le_three hy1
    linarith
  have h20 : 0 ≤ expSum y (q + i) - expSum y q := by
    rw [sub_nonneg]
    exact Finset.sum_le_sum_of_subset_of_nonneg (Finset.range_mono (by omega)) fun j _ _ => by positivity
  have hU := expmUnder_double hn hp hy1
  have hr0 : 0 ≤ expmRate n (1 / 2 ^ 53) (1 / 2 ^ 1075) y := zero_le_one.trans (expmRate_one double_rounds)
  have h3 : (i : ℝ) * ((expmRate n (1 / 2 ^ 53) (1 / 2 ^ 1075) y * (1 + 1 / 2 ^ 53) ^ 2) ^ (q + i) *
      ((5 + n + 2 * (q + i : Nat) * (n + n * n)) * (1 / 2 ^ 1075))) ≤ 1 / 2 ^ 800 := by
    refine le_trans ?_ hU
    unfold expmUnder
    refine mul_le_mul_of_nonneg_right (by exact_mod_cast Nat.le_add_left i q) (by positivity)
  have h4 := double_two (m := i + 1) (by omega)
  refine (add_le_add (mul_le_mul h1 h2 h20 zero_le_two) (mul_le_mul h4 h3 (by positivity) zero_le_two)).trans (by norm_num)

include hn0 hn hy hy1 hs in
theorem expRet_size {b : Nat} (hp : b * (n * n) ≤ 177) : ‖dmat n (expRet n sc b)‖ ≤ 8 := by
  refine (expRet_near double_rounds double_one (by norm_num) (J := 178) double_nat hn0 hy hs (b := b) (by omega)).norm_le.trans ?_
  have h1 : (1 + 1 / 2 ^ 53 : ℝ) ^ ((n + 5) * (b * (n * n)) + 1) ≤ 2 := by
    have := Nat.mul_le_mul (Nat.add_le_add_right hn 5) hp
    exact double_two (by omega)
  have h2 : expSum y (b * (n * n)) ≤ 3 := (expSum_le hy _).trans (exp_le_three hy1)
  have h20 : 0 ≤ expSum y (b * (n * n)) := zero_le_one.trans (expSum_one_le hy _)
  have hU := expmUnder_double hn hp hy1
  have hU0 : 0 ≤ expmUnder n (b * (n * n)) (1 / 2 ^ 53) (1 / 2 ^ 1075) y := by unfold expmUnder expmRate; positivity
  have h4 := double_two (m := 2 * (b * (n * n)) + 1) (by omega)
  refine (add_le_add (mul_le_mul h1 h2 h20 zero_le_two) (mul_le_mul h4 hU hU0 zero_le_two)).trans (by norm_num)

include hn0 hn hy hy1 hs in
theorem expSq_size {b i k : Nat} (hp : b * (n * n) + i ≤ 177) (hk : k ≤ 31) :
    ‖dmat n (expSq n (expRetI n sc b i) k)‖ ≤ 2 * Real.exp (y * 2 ^ k) := by
  obtain ⟨h1, h2, h3⟩ := expSq_near double_rounds double_one (by norm_num) (J := 178) double_nat hn0 hy hs (b := b) (i := i) (by omega) k
  set p := b * (n * n) + i
  have hbig : ((n + 5) * p + n + 4) * 2 ^ k ≤ 2 ^ 52 := by
    have u1 : (n + 5) * p ≤ (2 ^ 10 + 5) * 177 := Nat.mul_le_mul (by omega) hp
    have u2 : 2 ^ k ≤ 2 ^ 31 := Nat.pow_le_pow_right (by norm_num) hk
    calc _ ≤ 2 ^ 18 * 2 ^ 31 := Nat.mul_le_mul (by omega) u2
      _ ≤ 2 ^ 52 := by norm_num
  have h4 : expmGrow n p k (1 / 2 ^ 53) (1 / 2 ^ 1075) y - 1 ≤ 1 := by
    refine (expmGrow_double hn hp hy1 hbig).trans ?_
    rw [← mul_div_assoc, div_le_one (by positivity), mul_comm]
    exact_mod_cast hbig
  have hE : expSum y p ^ (2 ^ k) ≤ Real.exp (y * 2 ^ k) := by
    have := pow_le_pow_left₀ (zero_le_one.trans (expSum_one_le hy p)) (expSum_le hy p) (2 ^ k)
    rw [← Real.exp_nat_mul, mul_comm] at this
    exact_mod_cast this
  have hE0 : 0 ≤ expSum y p ^ (2 ^ k) := pow_nonneg (zero_le_one.trans (expSum_one_le hy p)) _
  have h5 : ‖taylor S p ^ (2 ^ k)‖ ≤ expSum y p ^ (2 ^ k) :=
    (norm_pow_le' _ (by positivity)).trans (pow_le_pow_left₀ (norm_nonneg _) h3 _)
  have e : dmat n (expSq n (expRetI n sc b i) k) = (dmat n (expSq n (expRetI n sc b i) k) - taylor S p ^ (2 ^ k)) + taylor S p ^ (2 ^ k) := by abel
  rw [e]
  refine (norm_add_le _ _).trans ((add_le_add (h2.trans (mul_le_mul_of_nonneg_right h4 hE0)) h5).trans ?_)
  rw [one_mul, ← two_mul]
  exact mul_le_mul_of_nonneg_left hE zero_le_two


theorem rnd_size {v : ℚ} (h : |v| ≤ 8) : |rnd 53 (-1074) v| ≤ 16 := by
  have h1 := rnd_err 53 (-1074) v
  have h2 := abs_sub_abs_le_abs_sub (rnd 53 (-1074) v) v
  have q1 : (2 : ℚ) ^ (-((53 : ℕ) : ℤ)) = 1 / 2 ^ 53 := by norm_num
  have q2 : (2 : ℚ) ^ (-1074 : ℤ) / 2 = 1 / 2 ^ 1075 := by norm_num
  rw [q1, q2] at h1
  have h3 : |rnd 53 (-1074) v| ≤ 8 + (1 / 2 ^ 53 * 8 + 1 / 2 ^ 1075) := by
    have : 1 / 2 ^ 53 * |v| ≤ 1 / 2 ^ 53 * 8 := mul_le_mul_of_nonneg_left h (by norm_num)
    linarith
  exact h3.trans (by norm_num)

theorem eye_lifts (n : Nat) : Lifts n (fun r c => if r = c then 1 else 0) fun r c => if r = c then 1 else 0 := by
  intro r c _ _
  have R := reads (K := ℚ) (p := 53) (emin := -1074) (emax := 1024) (by decide) (by decide) (by decide)
  dsimp only
  split
  · exact R.one
  · exact R.zero

variable {a : Nat → Nat → IDouble} (ha : Lifts n a sc)

include hn0 hn hy hy1 hs ha in
theorem expPow_lifts {p : Nat} (hp : p ≤ 178) : Lifts n (expPow n a p) (expPow n sc p) := by
  induction p with
  | zero => exact eye_lifts n
  | succ p ih => exact Lifts.mul hn (ih (by omega)) ha (expPow_size hn0 hn hy hy1 hs (by omega)) (scaled_size hn hy1 hs) (by norm_num)

include hn0 hn hy hy1 hs ha in
theorem expAcc_lifts {q i : Nat} (hp : q + i ≤ 177) : Lifts n (expAcc n a q i) (expAcc n sc q i) := by
  induction i with
  | zero => exact fun r c _ _ => (reads (K := ℚ) (p := 53) (emin := -1074) (emax := 1024) (by decide) (by decide) (by decide)).zero
  | succ i ih =>
    intro r c hr hc
    have h1 := (entry_le_norm (expAcc n sc q i) hr hc).trans (expAcc_size hn0 hn hy hy1 hs (by omega))
    have h2 := (entry_le_norm (expPow n sc (q + i + 1)) hr hc).trans (expPow_size hn0 hn hy hy1 hs (by omega))
    obtain ⟨h3, h4⟩ := invFac_fl (q + i + 1) (by omega)
    have h4' : |((invFac Double (q + i + 1)).val : ℝ)| ≤ 1 := by exact_mod_cast h4
    have h5 := mul_le_mul h2 h4' (abs_nonneg _) (by norm_num)
    refine fl_add_small (ih (by omega) r c hr hc) (fl_mul_small (expPow_lifts hn0 hn hy hy1 hs ha (by omega) r c hr hc) h3 (h5.trans (by norm_num))) ?_
    have h6 : |(expPow n sc (q + i + 1) r c * invFac Double (q + i + 1)).val| ≤ 16 := by
      refine rnd_size ?_
      rw [mul_one, ← abs_mul] at h5
      exact_mod_cast h5
    have h6' : |(((expPow n sc (q + i + 1) r c * invFac Double (q + i + 1)).val : ℚ) : ℝ)| ≤ 16 := by exact_mod_cast h6
    exact (add_le_add h1 h6').trans (by norm_num)

include hn0 hn hy hy1 hs ha in
theorem expRet_lifts {b : Nat} (hp : b * (n * n) ≤ 177) : Lifts n (expRet n a b) (expRet n sc b) := by
  induction b with
  | zero => exact eye_lifts n
  | succ b ih =>
    have e : (b + 1) * (n * n) = b * (n * n) + n * n := Nat.succ_mul b (n * n)
    rw [e] at hp
    intro r c hr hc
    refine fl_add_small (ih (by omega) r c hr hc) (expAcc_lifts hn0 hn hy hy1 hs ha hp r c hr hc) ?_
    refine (add_le_add ((entry_le_norm _ hr hc).trans (expRet_size hn0 hn hy hy1 hs (by omega)))
      ((entry_le_norm _ hr hc).trans (expAcc_size hn0 hn hy hy1 hs hp))).trans (by norm_num)

include hn0 hn hy hy1 hs ha in
theorem expSq_lifts {b i k : Nat} (hp : b * (n * n) + i ≤ 177) (hk : k ≤ 31) (hE : Real.exp (y * 2 ^ k) ≤ 2 ^ 1018) :
    Lifts n (expSq n (expRetI n a b i) k) (expSq n (expRetI n sc b i) k) := by
  have main : ∀ j, j ≤ k → Lifts n (expSq n (expRetI n a b i) j) (expSq n (expRetI n sc b i) j) := by
    intro j hj
    induction j with
    | zero =>
      intro r c hr hc
      refine fl_add_small (expRet_lifts hn0 hn hy hy1 hs ha (by omega) r c hr hc) (expAcc_lifts hn0 hn hy hy1 hs ha hp r c hr hc) ?_
      refine (add_le_add ((entry_le_norm _ hr hc).trans (expRet_size hn0 hn hy hy1 hs (by omega)))
        ((entry_le_norm _ hr hc).trans (expAcc_size hn0 hn hy hy1 hs hp))).trans (by norm_num)
    | succ j ih =>
      have h1 := expSq_size hn0 hn hy hy1 hs hp (k := j) (by omega)
      refine Lifts.mul hn (ih (by omega)) (ih (by omega)) h1 h1 ?_
      have e : 2 * Real.exp (y * 2 ^ j) * (2 * Real.exp (y * 2 ^ j)) = 4 * Real.exp (y * 2 ^ (j + 1)) := by
        rw [pow_succ, ← mul_assoc y, mul_two, Real.exp_add]; ring
      rw [e]
      have h2 : Real.exp (y * 2 ^ (j + 1)) ≤ 2 ^ 1018 :=
        (Real.exp_le_exp.2 (mul_le_mul_of_nonneg_left (pow_le_pow_right₀ one_le_two hj) hy)).trans hE
      exact (mul_le_mul_of_nonneg_left h2 (by norm_num)).trans (by norm_num)
  exact main k le_rfl

end

/-! ## The norm and the number of halvings -/

/-- What `infinity_norm` computes. -/
theorem infNorm_exec {T : Type} [Zero T] [Add T] [Max T] {absf : T → T} {A : Mat T} {n m : Nat} {e : Nat → Nat → T} (h : Rep A.toMB n m e) (hn : 0 < n)
    (hm : 0 < m) : infNorm absf A.toMB = .ok (Nat.rec (motive := fun _ => T) 0 (fun i acc => max acc (lsum m fun j => absf (e i j))) n) := by
  have hem : A.toMB.empty = false := by
    show A.isEmpty = false
    rw [Mat.isEmpty, show A.rows = n from h.rows, show A.cols = m from h.cols]
    simp; omega
  unfold infNorm
  rw [hem, if_neg Bool.false_ne_true, h.rows, h.cols]
  refine forRange_eq (Nat.zero_le n) (fun k => Nat.rec (motive := fun _ => T) 0 (fun i acc => max acc (lsum m fun j => absf (e i j))) k) rfl ?_
  intro i _ hi
  rw [accum_eq (g := fun j => absf (e i j)) (fun j acc hj => by rw [h.get i j hi hj]; rfl)]
  rfl

theorem fl_max {a b : IDouble} {x y : Double} (ha : a.fl = some x) (hb : b.fl = some y) : (max a b).fl = some (max x y) := by
  have e : max a b = if a < b then b else a := rfl
  have hv := Fl.val_max x y
  by_cases h : a < b
  · rw [e, if_pos h, hb, Option.some_inj]
    rw [lt_iff ha hb] at h
    exact Fl.ext (by rw [hv, max_eq_right h.le])
  · rw [e, if_neg h, ha, Option.some_inj]
    rw [lt_iff ha hb] at h
    exact Fl.ext (by rw [hv, max_eq_left (not_lt.1 h)])

/-- Sums do not overflow. -/
theorem fl_sum_small {n : Nat} (hn : n ≤ 2 ^ 10) {a : Nat → IDouble} {x : Nat → Double} (ha : ∀ i, i < n → (a i).fl = some (x i))
    (h : ∑ i ∈ Finset.range n, |((x i).val : ℝ)| ≤ 2 ^ 1020) : (lsum n a).fl = some (lsum n x) := by
  have hav : ∀ i, i < n → (a i).Finite ∧ (a i).flD = x i := fun i hi =>
    ⟨Option.isSome_iff_exists.2 ⟨_, ha i hi⟩, by rw [Ieee.flD, ha i hi]; rfl⟩
  have hq : ∑ i ∈ Finset.range n, |(a i).val| ≤ 2 ^ 1020 := by
    have e : ∑ i ∈ Finset.range n, |(a i).val| = ∑ i ∈ Finset.range n, |(x i).val| :=
      Finset.sum_congr rfl fun i hi => by rw [Ieee.val, (hav i (Finset.mem_range.1 hi)).2]
    rw [e]
    exact_mod_cast h
  have hfin := (sum_finite (K := ℚ) (by decide) (by decide) (by decide) a n).2 (fun i hi => (hav i hi).1) (by
    have hs0 : 0 ≤ ∑ i ∈ Finset.range n, |(a i).val| := Finset.sum_nonneg fun _ _ => abs_nonneg _
    have hu : (2 : ℚ) ^ (-((53 : ℕ) : ℤ)) = 1 / 2 ^ 53 := by norm_num
    have hf2 := double_factor_le (k := n - 1) ((Nat.sub_le n 1).trans (hn.trans (by norm_num)))
    rw [hu]
    refine lt_of_le_of_lt (mul_le_mul hf2 hq hs0 zero_le_two) ?_
    norm_num)
  have R := reads (K := ℚ) (p := 53) (emin := -1074) (emax := 1024) (by decide) (by decide) (by decide)
  rw [hfin.fl_eq, hfin.eq (R.rd_lsum (τ := x) fun i hi c hc => ?_)]
  rw [ha i hi] at hc; exact (Option.some_inj.1 hc).symm

/-- `infinity_norm` of a matrix of finite numbers that are not too large. -/
theorem infNorm_double {A : Mat IDouble} {n : Nat} {a : Nat → Nat → IDouble} {e : Nat → Nat → Double} (h : Rep A.toMB n n a) (hn0 : 0 < n) (hn : n ≤ 2 ^ 10)
    (ha : Lifts n a e) {x : ℝ} (hx : ∀ i : Fin n, ∑ j : Fin n, |((e i j).val : ℝ)| ≤ x) (hx' : ∃ i : Fin n, ∑ j : Fin n, |((e i j).val : ℝ)| = x)
    (hx20 : x ≤ 2 ^ 1000) : ∃ (w : IDouble) (N : Double), infNorm Ieee.abs A.toMB = .ok w ∧ w.fl = some N ∧ |(N.val : ℝ) - x| ≤ 1 / 2 ^ 42 * x := by
  have hf := h.fits
  obtain ⟨i₀, hi₀⟩ := hx'
  have hx0 : 0 ≤ x := by rw [← hi₀]; exact Finset.sum_nonneg fun j _ => abs_nonneg _
  have R := double_rounds
  obtain ⟨N, y, hN, hy, hNy⟩ := C107_infinity_partial R (abs := Fl.abs) (fun z => by rw [Fl.val_abs]; push_cast; rfl)
    (fun a b => by rw [Fl.val_max]; push_cast; rfl) (B := Mat.ofFn n n fun i j => ((e i j).val : ℝ)) (ofFn_holds hf _).wf (ofFn_rep hf e).is (ofFn_rep hf _).is
  obtain ⟨y', hy', hy0, hy1, hy2⟩ := infNorm_is (ofFn_holds hf fun i j => ((e i j).val : ℝ)).wf (ofFn_rep hf _).is
  obtain rfl := Res.ok.inj (hy.symm.trans hy')
  obtain rfl : y = x := le_antisymm (hy2 x hx0 hx) (by rw [← hi₀]; exact hy1 i₀)
  rw [infNorm_exec (ofFn_rep hf e) hn0 hn0] at hN
  have hN := Res.ok.inj hN
  refine ⟨_, N, infNorm_exec h hn0 hn0, ?_, ?_⟩
  · rw [← hN]
    have main : ∀ k, k ≤ n → (Nat.rec (motive := fun _ => IDouble) 0 (fun i acc => max acc (lsum n fun j => Ieee.abs (a i j))) k).fl =
        some (Nat.rec (motive := fun _ => Double) 0 (fun i acc => max acc (lsum n fun j => Fl.abs (e i j))) k) := by
      intro k hk
      induction k with
      | zero => exact (reads (K := ℚ) (p := 53) (emin := -1074) (emax := 1024) (by decide) (by decide) (by decide)).zero
      | succ k ih =>
        refine fl_max (ih (by omega)) (fl_sum_small hn (fun j hj => ?_) ?_)
        · obtain ⟨z, h1, h2⟩ := fl_abs (ha k j (by omega) hj)
          rw [h1, Option.some_inj]
          exact Fl.ext (by rw [h2, Fl.val_abs])
        · have : ∑ j ∈ Finset.range n, |(((Fl.abs (e k j)).val : ℚ) : ℝ)| = ∑ j : Fin n, |((e k j).val : ℝ)| := by
            rw [Finset.sum_range]
            refine Finset.sum_congr rfl fun j _ => ?_
            rw [Fl.val_abs]; push_cast; rw [abs_abs]
          rw [this]
          exact (hx ⟨k, by omega⟩).trans (hx20.trans (by norm_num))
    exact main n le_rfl
  · refine hNy.trans (mul_le_mul_of_nonneg_right ?_ hx0)
    refine (double_pow (k := n - 1) (by omega)).trans ?_
    have : ((n - 1 : Nat) : ℝ) ≤ 2 ^ 10 := by exact_mod_cast (show n - 1 ≤ 2 ^ 10 by omega)
    calc ((n - 1 : Nat) : ℝ) / 2 ^ 52 ≤ 2 ^ 10 / 2 ^ 52 := by gcongr
      _ = 1 / 2 ^ 42 := by norm_num


theorem rnd_one : rnd (K := ℚ) 53 (-1074) 1 = 1 := Fl.one_val (K := ℚ) (p := 53) (emin := -1074) (by decide) (by decide)

theorem rnd_le_dbl {v : ℚ} (h : v ≤ 1) : rnd 53 (-1074) v ≤ 1 := by
  rw [← rnd_one]; exact rnd_mono (by decide) _ h

/-- `log2_ceil` on a matrix of finite numbers whose rows have sums of at most `2^30`. -/
theorem log2_double {A : Mat IDouble} {n : Nat} {a : Nat → Nat → IDouble} {e : Nat → Nat → Double} (h : Rep A.toMB n n a) (hn0 : 0 < n) (hn : n ≤ 2 ^ 10)
    (ha : Lifts n a e) {x : ℝ} (hx : ∀ i : Fin n, ∑ j : Fin n, |((e i j).val : ℝ)| ≤ x) (hx' : ∃ i : Fin n, ∑ j : Fin n, |((e i j).val : ℝ)| = x)
    (hx30 : x ≤ 2 ^ 30) {fuel : Nat} (hf : 1076 ≤ fuel) :
    ∃ (k : Nat) (w : IDouble) (sc : Double), log2Ceil Ieee.abs dhalf A.toMB fuel = .ok (k, w) ∧ w.fl = some sc ∧ sc.val = (1 / 2) ^ k ∧ k ≤ 31 ∧
      x * (1 / 2) ^ k ≤ 1 + 1 / 2 ^ 40 ∧ x ≤ 2 ^ k * (1 + 1 / 2 ^ 40) ∧ (0 < k → 2 ^ k < 2 * x * (1 + 1 / 2 ^ 40)) := by
  obtain ⟨w, N, h1, h2, h3⟩ := infNorm_double h hn0 hn ha hx hx' (hx30.trans (by norm_num))
  obtain ⟨w', k, g1, g2, g3, g4, g5, -⟩ := C96_log2 h
  obtain rfl := Res.ok.inj (h1.symm.trans g1)
  have hx0 : 0 ≤ x := by obtain ⟨i₀, hi₀⟩ := hx'; rw [← hi₀]; exact Finset.sum_nonneg fun j _ => abs_nonneg _
  obtain ⟨hN1, hN2⟩ := abs_le.1 h3
  have hN31 : N.val ≤ 2 ^ 31 := by
    have : (N.val : ℝ) ≤ 2 ^ 31 := by linarith
    exact_mod_cast this
  have hN0 : 0 ≤ N.val := by
    have : (0 : ℝ) ≤ N.val := by linarith
    exact_mod_cast this
  have R := reads (K := ℚ) (p := 53) (emin := -1074) (emax := 1024) (by decide) (by decide) (by decide)
  have o1 : (1 : Double).val = 1 := rnd_one
  have cmp : ∀ j, j ≤ 1074 → (1 < w * (· * dhalf)^[j] 1 ↔ 1 < rnd 53 (-1074) (N.val * (1 / 2) ^ j)) := by
    intro j hj
    obtain ⟨z, z1, z2⟩ := halvings_val j hj
    have z2' : z.val = (1 / 2) ^ j := by rw [z2, one_div_pow]
    have hm : (w * (· * dhalf)^[j] 1).fl = some (N * z) := by
      refine fl_mul h2 z1 (rnd_lt ?_)
      rw [z2', abs_of_nonneg (mul_nonneg hN0 (by positivity))]
      exact (mul_le_of_le_one_right hN0 (pow_le_one₀ (by norm_num) (by norm_num))).trans (hN31.trans (by norm_num))
    rw [lt_iff R.one hm, o1]
    show 1 < rnd 53 (-1074) (N.val * z.val) ↔ _
    rw [z2']
  have hk : k ≤ 31 := by
    by_contra hc
    have := (cmp 31 (by norm_num)).1 (g5 31 (by omega))
    refine absurd (rnd_le_dbl ?_) (not_le.2 this)
    calc N.val * (1 / 2) ^ 31 ≤ 2 ^ 31 * (1 / 2) ^ 31 := by gcongr
      _ = 1 := by norm_num
  obtain ⟨z, z1, z2⟩ := halvings_val k (by omega)
  have s3 : rnd 53 (-1074) (N.val * (1 / 2) ^ k) ≤ 1 := by
    rw [cmp k (by omega)] at g4
    exact not_lt.1 g4
  have s4 : 0 < k → 1 < N.val * (1 / 2) ^ (k - 1) := by
    intro hk0
    have := (cmp (k - 1) (by omega)).1 (g5 (k - 1) (by omega))
    exact not_le.1 fun hc => absurd (rnd_le_dbl hc) (not_le.2 this)
  obtain ⟨t1, t2, t3⟩ := halvings_double hx0 h3 s3 s4
  exact ⟨k, _, z, g3 fuel hf, z1, by rw [z2, one_div_pow], hk, t1, t2, t3⟩

theorem fl_mul_one {a b : IDouble} {x y : Double} (ha : a.fl = some x) (hb : b.fl = some y) (h1 : |x.val| ≤ 1) (h2 : |y.val| ≤ 1) :
    (a * b).fl = some (x * y) ∧ |(x * y).val| ≤ 1 := by
  have h : |x.val * y.val| ≤ 1 := by rw [abs_mul]; exact mul_le_one₀ h1 (abs_nonneg _) h2
  refine ⟨fl_mul ha hb (rnd_lt (h.trans (by norm_num))), ?_⟩
  obtain ⟨h3, h4⟩ := abs_le.1 h
  refine abs_le.2 ⟨?_, rnd_le_dbl h4⟩
  have e : rnd (K := ℚ) 53 (-1074) (-1) = -1 := by decide +kernel
  rw [← e]
  exact rnd_mono (by decide) _ h3

/-- What `expm` computes on a matrix of finite numbers whose rows have sums of at most `2^30`. -/
theorem expm_double {A : Mat IDouble} {n : Nat} {a : Nat → Nat → IDouble} {e : Nat → Nat → Double} (h : Rep A.toMB n n a) (hn : n ≤ 2 ^ 10)
    (ha : Lifts n a e) {sqrt : IDouble → IDouble} {accuracy : IDouble} (hacc : accuracy.Finite) (hacc1 : |accuracy.val| ≤ 1) {fuel : Nat} (hf : 1076 ≤ fuel)
    {X : Mat IDouble} (hr : expm dIsZero Ieee.abs sqrt dhalf A.toMB accuracy fuel = .ok X) {x : ℝ} (hx : ∀ i : Fin n, ∑ j : Fin n, |((e i j).val : ℝ)| ≤ x)
    (hx' : ∃ i : Fin n, ∑ j : Fin n, |((e i j).val : ℝ)| = x) (hx30 : x ≤ 2 ^ 30) :
    ∃ (k b i : Nat) (w : IDouble) (sc : Double), 0 < n ∧ X = Mat.ofFn n n (expSq n (expRetI n (fun r c => a r c * w) b i) k) ∧
      w.fl = some sc ∧ Lifts n (fun r c => a r c * w) (fun r c => e r c * sc) ∧ sc.val = (1 / 2) ^ k ∧ k ≤ 31 ∧
      x * (1 / 2) ^ k ≤ 1 + 1 / 2 ^ 40 ∧ x ≤ 2 ^ k * (1 + 1 / 2 ^ 40) ∧ (0 < k → 2 ^ k < 2 * x * (1 + 1 / 2 ^ 40)) ∧
      b * (n * n) + i ≤ 177 ∧ (n * n ≤ b * (n * n) + i ∨ b * (n * n) + i = 177) := by
  obtain ⟨i₀, hi₀⟩ := id hx'
  obtain ⟨k, w, sc, h1, h2, h3, h4, h5, h6, h7⟩ := log2_double h (i₀.1.zero_le.trans_lt i₀.2) hn ha hx hx' hx30 hf
  have hx0 : 0 ≤ x := by rw [← hi₀]; exact Finset.sum_nonneg fun j _ => abs_nonneg _
  have hsc0 : 0 ≤ sc.val := by rw [h3]; positivity
  have hsc1 : |sc.val| ≤ 1 := by rw [abs_of_nonneg hsc0, h3]; exact pow_le_one₀ (by norm_num) (by norm_num)
  have R := reads (K := ℚ) (p := 53) (emin := -1074) (emax := 1024) (by decide) (by decide) (by decide)
  have hlt : accuracy * accuracy * w * w < accuracy * accuracy * w * w + 1 := by
    have a0 := hacc.fl_eq
    have a1 : |accuracy.flD.val| ≤ 1 := hacc1
    obtain ⟨b1, b2⟩ := fl_mul_one a0 a0 a1 a1
    obtain ⟨c1, c2⟩ := fl_mul_one b1 h2 b2 hsc1
    obtain ⟨d1, d2⟩ := fl_mul_one c1 h2 c2 hsc1
    have d3 : |((accuracy.flD * accuracy.flD * sc * sc).val : ℝ)| ≤ 1 := by exact_mod_cast d2
    have e1 := fl_add_small d1 R.one (by rw [double_one]; exact (add_le_add_left d3 _).trans (by norm_num))
    rw [lt_iff d1 e1]
    have := sqAcc_lt double_rounds double_one (by norm_num) (by norm_num) (a := accuracy.flD) (sc := sc) (by exact_mod_cast a1) (by exact_mod_cast hsc1)
    exact_mod_cast this
  obtain ⟨hn0, b, i, g1, g2, g3, g4⟩ := expm_tab (J := 178) (by decide +kernel) (fun _ _ => rfl) ((dIsZero_iff (invFac_fl 178 le_rfl).1).2 invFac_double.2)
    h h1 hlt hr
  have hp : b * (n * n) + i ≤ 177 := by
    by_contra hc
    have := g3 178 (by omega)
    rw [(dIsZero_iff (invFac_fl 178 le_rfl).1).2 invFac_double.2] at this
    cases this
  refine ⟨k, b, i, w, sc, hn0, g1, h2, ?_, h3, h4, h5, h6, h7, hp, ?_⟩
  · intro r c hr hc
    refine fl_mul_small (ha r c hr hc) h2 ?_
    have b1 : |((e r c).val : ℝ)| ≤ x :=
      (Finset.single_le_sum (f := fun j : Fin n => |((e r j).val : ℝ)|) (fun _ _ => abs_nonneg _) (Finset.mem_univ (⟨c, hc⟩ : Fin n))).trans (hx ⟨r, hr⟩)
    have b2 : |(sc.val : ℝ)| ≤ 1 := by exact_mod_cast hsc1
    exact (mul_le_mul b1 b2 (abs_nonneg _) hx0).trans (by rw [mul_one]; exact hx30.trans (by norm_num))
  · rcases g4 with g4 | g4
    · exact .inl (by omega)
    · refine .inr ?_
      by_contra hc
      rw [dIsZero_iff (invFac_fl _ (by omega)).1] at g4
      have := invFac_zero g4 (177 - (b * (n * n) + i + 1))
      rw [show b * (n * n) + i + 1 + (177 - (b * (n * n) + i + 1)) = 177 by omega] at this
      exact invFac_double.1 this

theorem exp_700 {x : ℝ} (h : x ≤ 700) : Real.exp x ≤ 2 ^ 1018 := by
  have h1 : Real.exp x ≤ Real.exp 1 ^ 700 := by
    rw [← Real.exp_nat_mul]
    exact Real.exp_le_exp.2 (by push_cast; linarith)
  refine h1.trans ((pow_le_pow_left₀ (Real.exp_pos 1).le Real.exp_one_lt_d9.le 700).trans (by norm_num))

/-- C127: `expm` on IEEE doubles does not overflow if no row has a sum of absolute values of more than 700, and then the bound of C124 holds. -/
theorem C127_expm {A : Mat IDouble} {n : Nat} {M : Matrix (Fin n) (Fin n) IDouble} (hA : A.toMB.Is M) (hn : n ≤ 2 ^ 10) (hM : ∀ i j, (M i j).Finite)
    {sqrt : IDouble → IDouble} {accuracy : IDouble} (hacc : accuracy.Finite) (hacc1 : |accuracy.val| ≤ 1) {fuel : Nat} (hf : 1076 ≤ fuel)
    {X : Mat IDouble} (hr : expm dIsZero Ieee.abs sqrt dhalf A.toMB accuracy fuel = .ok X) {x : ℝ} (hx : ∀ i, ∑ j, |((M i j).val : ℝ)| ≤ x)
    (hx' : ∃ i, ∑ j, |((M i j).val : ℝ)| = x) (hx700 : x ≤ 700) :
    ∃ (k p : Nat) (E : Matrix (Fin n) (Fin n) IDouble), X.WF ∧ X.toMB.Is E ∧ (∀ i j, (E i j).Finite) ∧ (n * n ≤ p ∨ p = 177) ∧ p ≤ 177 ∧
      x ≤ 2 ^ k * (1 + 1 / 2 ^ 40) ∧ (0 < k → 2 ^ k < 2 * x * (1 + 1 / 2 ^ 40)) ∧
      ∀ i, ∑ j, |((E i j).val : ℝ) - NormedSpace.exp (M.map fun z => (z.val : ℝ)) i j| ≤
        2 ^ k * Real.exp x * (((n + 5) * p + n + 4 : Nat) / 2 ^ 52 + ((1 + 1 / 2 ^ 40) * min 1 x) ^ (p + 1) / (p + 1).factorial) := by
  have hfit := hA.fits
  obtain ⟨a, h, rfl⟩ := id hA
  have ha : Lifts n a fun r c => (a r c).flD := fun r c hr hc => (hM ⟨r, hr⟩ ⟨c, hc⟩).fl_eq
  obtain ⟨k, b, i, w, sc, hn0, g1, gw, g2, g3, g4, g5, g6, g7, g8, g9⟩ := expm_double h hn ha hacc hacc1 hf hr hx hx' (hx700.trans (by norm_num))
  have hx0 : 0 ≤ x := by obtain ⟨i₀, hi₀⟩ := hx'; rw [← hi₀]; exact Finset.sum_nonneg fun j _ => abs_nonneg _
  have hsc : ((sc.val : ℚ) : ℝ) = (1 / 2) ^ k := by rw [g3]; push_cast; rfl
  have hMx : ‖dmat n fun r c => (a r c).flD‖ ≤ x := norm_le_of_rows hx0 hx
  have hs := scaled_near double_rounds hsc hMx
  have hxk : x * (1 / 2) ^ k * 2 ^ k = x := by
    rw [mul_assoc, ← mul_pow]; norm_num
  have hL := expSq_lifts hn0 hn (mul_nonneg hx0 (by positivity)) g5 hs g2 g8 g4 (by rw [hxk]; exact exp_700 hx700)
  refine ⟨k, b * (n * n) + i, toM n n (expSq n (expRetI n (fun r c => a r c * w) b i) k), ?_, ?_, fun r c => ?_, g9, g8, g6, g7, fun r => ?_⟩
  · rw [g1]; exact (ofFn_holds hfit _).wf
  · rw [g1]; exact (ofFn_rep hfit _).is
  · exact Option.isSome_iff_exists.2 ⟨_, hL r c r.2 c.2⟩
  · have key := (expm_near double_rounds double_one (by norm_num) (J := 178) double_nat hn0 (e := fun r c => (a r c).flD) (k := k) (b := b) (i := i)
      (by omega) hsc hx r).trans
      (expm_bound_double (p := b * (n * n) + i) hx0 hn g8 g4 g5)
    refine le_trans (le_of_eq (Finset.sum_congr rfl fun c _ => ?_)) key
    have : (toM n n (expSq n (expRetI n (fun r c => a r c * w) b i) k) r c).val = (expSq n (expRetI n (fun r c => (a r c).flD * sc) b i) k r c).val := by
      rw [Ieee.val, Ieee.flD, toM_apply, hL r c r.2 c.2]; rfl
    rw [this]
    rfl

/-- C127 (partial): for sums of up to `2^30`, overflow shows: if a row of the result is finite, the bound of C124 holds for it.
Missing: see `C127_norm_false`. -/
theorem C127_visible_partial {A : Mat IDouble} {n : Nat} {M : Matrix (Fin n) (Fin n) IDouble} (hA : A.toMB.Is M) (hn : n ≤ 2 ^ 10)
    (hM : ∀ i j, (M i j).Finite) {sqrt : IDouble → IDouble} {accuracy : IDouble} (hacc : accuracy.Finite) (hacc1 : |accuracy.val| ≤ 1) {fuel : Nat}
    (hf : 1076 ≤ fuel) {X : Mat IDouble} (hr : expm dIsZero Ieee.abs sqrt dhalf A.toMB accuracy fuel = .ok X) {x : ℝ}
    (hx : ∀ i, ∑ j, |((M i j).val : ℝ)| ≤ x) (hx' : ∃ i, ∑ j, |((M i j).val : ℝ)| = x) (hx30 : x ≤ 2 ^ 30) :
    ∃ (k p : Nat) (E : Matrix (Fin n) (Fin n) IDouble), X.WF ∧ X.toMB.Is E ∧ (n * n ≤ p ∨ p = 177) ∧ p ≤ 177 ∧
      x ≤ 2 ^ k * (1 + 1 / 2 ^ 40) ∧ (0 < k → 2 ^ k < 2 * x * (1 + 1 / 2 ^ 40)) ∧
      ∀ i, (∀ j, (E i j).Finite) → ∑ j, |((E i j).val : ℝ) - NormedSpace.exp (M.map fun z => (z.val : ℝ)) i j| ≤
        2 ^ k * Real.exp x * (((n + 5) * p + n + 4 : Nat) / 2 ^ 52 + ((1 + 1 / 2 ^ 40) * min 1 x) ^ (p + 1) / (p + 1).factorial) := by
  have hfit := hA.fits
  obtain ⟨a, h, rfl⟩ := id hA
  have ha : Lifts n a fun r c => (a r c).flD := fun r c hr hc => (hM ⟨r, hr⟩ ⟨c, hc⟩).fl_eq
  obtain ⟨k, b, i, w, sc, hn0, g1, gw, g2, g3, g4, g5, g6, g7, g8, g9⟩ := expm_double h hn ha hacc hacc1 hf hr hx hx' hx30
  have hx0 : 0 ≤ x := by obtain ⟨i₀, hi₀⟩ := hx'; rw [← hi₀]; exact Finset.sum_nonneg fun j _ => abs_nonneg _
  have hsc : ((sc.val : ℚ) : ℝ) = (1 / 2) ^ k := by rw [g3]; push_cast; rfl
  refine ⟨k, b * (n * n) + i, toM n n (expSq n (expRetI n (fun r c => a r c * w) b i) k), ?_, ?_, g9, g8, g6, g7, fun r hfin => ?_⟩
  · rw [g1]; exact (ofFn_holds hfit _).wf
  · rw [g1]; exact (ofFn_rep hfit _).is
  · have key := (expm_near double_rounds double_one (by norm_num) (J := 178) double_nat hn0 (e := fun r c => (a r c).flD) (k := k) (b := b) (i := i)
      (by omega) hsc hx r).trans
      (expm_bound_double (p := b * (n * n) + i) hx0 hn g8 g4 g5)
    refine le_trans (le_of_eq (Finset.sum_congr rfl fun c _ => ?_)) key
    have R := reads (K := ℚ) (p := 53) (emin := -1074) (emax := 1024) (by decide) (by decide) (by decide)
    have hrd : Rd Ieee.fl (expSq n (expRetI n (fun r c => a r c * w) b i) k r c) (expSq n (expRetI n (fun r c => (a r c).flD * sc) b i) k r c) := by
      refine R.rd_expm (fun r c => R.rd_mul (fun z hz => ?_) fun z hz => ?_) (fun j hj z hz => ?_) k r c
      · rw [Ieee.flD, hz]; rfl
      · rw [gw] at hz; exact (Option.some_inj.1 hz).symm
      · rw [(invFac_fl j (by omega)).1] at hz; exact (Option.some_inj.1 hz).symm
    have : (toM n n (expSq n (expRetI n (fun r c => a r c * w) b i) k) r c).val = (expSq n (expRetI n (fun r c => (a r c).flD * sc) b i) k r c).val :=
      congrArg Fl.val ((hfin c).eq hrd)
    rw [this]
    rfl


/-- The exponential of a matrix whose square is zero. -/
theorem exp_of_sq_zero {n : Nat} {N : Matrix (Fin n) (Fin n) ℝ} (h : N * N = 0) : NormedSpace.exp N = 1 + N := by
  rw [NormedSpace.exp_eq_tsum ℝ]
  dsimp only
  rw [tsum_eq_sum (s := Finset.range 2)]
  · rw [Finset.sum_range_succ, Finset.sum_range_one]
    simp
  · intro j hj
    have hj : 2 ≤ j := not_lt.1 fun h' => hj (Finset.mem_range.2 h')
    obtain ⟨i, rfl⟩ := Nat.exists_eq_add_of_le hj
    rw [pow_add, pow_two, h, zero_mul, smul_zero]

/-! ## Where the norm overflows -/

theorem eq_of_fl {a b : IDouble} {x : Double} (ha : a.fl = some x) (hb : b.fl = some x) (hx : x.val ≠ 0) : a = b := by
  match a, b with
  | fin x' z hz h, fin y' z' hz' h' =>
    injection ha with ha; injection hb with hb
    subst ha hb
    have e1 : z = false := by by_contra hc; exact hx (hz (by simpa using hc))
    have e2 : z' = false := by by_contra hc; exact hx (hz' (by simpa using hc))
    subst e1 e2
    rfl
  | nan, _ => cases ha
  | inf _, _ => cases ha
  | fin .., nan => cases hb
  | fin .., inf _ => cases hb
theorem halvings_eq : (· * dhalf)^[1075] (1 : IDouble) = 0 := by
  obtain ⟨x, h1, h2⟩ := halvings_val 1074 le_rfl
  have h3 : (dbl (1 / 2 ^ 1074)).fl.map Fl.val = some (1 / 2 ^ 1074) := by decide +kernel
  obtain ⟨y, h4, h5⟩ := Option.map_eq_some_iff.1 h3
  obtain rfl : y = x := Fl.ext (by rw [h5, h2])
  rw [Function.iterate_succ_apply' _ 1074, eq_of_fl h1 h4 (by rw [h2]; positivity)]
  decide +kernel

theorem lsum_zero_double (m : Nat) {f : Nat → Double} (h : ∀ i, i < m → f i = 0) : lsum m f = 0 := by
  induction m with
  | zero => rfl
  | succ m ih =>
    rw [lsum, ih fun i hi => h i (by omega), h m (by omega)]
    decide +kernel

theorem mul_zero_double (x : Double) : x * 0 = 0 := by
  refine Fl.ext ?_
  show rnd 53 (-1074) (x.val * 0) = 0
  rw [mul_zero]
  decide +kernel

theorem zero_mul_double (x : Double) : 0 * x = 0 := by
  refine Fl.ext ?_
  show rnd 53 (-1074) (0 * x.val) = 0
  rw [zero_mul]
  decide +kernel

theorem lsum_eye_double (m r c : Nat) :
    (lsum m fun l => (if r = l then (1 : Double) else 0) * if l = c then 1 else 0) = if r < m then (if r = c then 1 else 0) else 0 := by
  have e1 : (1 : Double) * 1 = 1 := by decide +kernel
  have e2 : (0 : Double) + 0 = 0 := by decide +kernel
  have e3 : (1 : Double) + 0 = 1 := by decide +kernel
  have e4 : (0 : Double) + 1 = 1 := by decide +kernel
  induction m with
  | zero => rfl
  | succ m ih =>
    rw [lsum, ih]
    by_cases h1 : r = m
    · subst h1
      rw [if_neg (lt_irrefl r), if_pos rfl, if_pos (Nat.lt_succ_self r)]
      by_cases h2 : r = c
      · rw [if_pos h2, e1, e4]
      · rw [if_neg h2, mul_zero_double, e2]
    · rw [if_neg h1, zero_mul_double]
      by_cases h2 : r < m
      · rw [if_pos h2, if_pos (show r < m + 1 by omega)]
        by_cases h3 : r = c
        · rw [if_pos h3, e3]
        · rw [if_neg h3, e2]
      · rw [if_neg h2, if_neg (show ¬ r < m + 1 by omega), e2]

/-- The norm of the identity and of zero. -/
theorem dmat_eye {n : Nat} (hn : 0 < n) : ‖dmat n fun r c => if r = c then 1 else 0‖ ≤ 1 := by
  exact (congrArg norm (eye_val double_rounds double_one)).trans_le (eye_norm hn)

section
variable {n : Nat} (hn0 : 0 < n) (hn : n ≤ 2 ^ 10) {a : Nat → Nat → IDouble} (ha : Lifts n a fun _ _ => 0)
include hn0 hn ha

omit hn0 in
theorem expPow_null (p : Nat) : Lifts n (expPow n a (p + 1)) fun _ _ => 0 := by
  have h0 : ‖dmat n fun _ _ => 0‖ ≤ 0 := by
    have : dmat n (fun _ _ => 0) = 0 := by funext i j; exact double_rounds.zero
    rw [this, norm_zero]
  have step : ∀ {b : Nat → Nat → IDouble} {x : Nat → Nat → Double}, Lifts n b x → Lifts n (fun r c => lsum n fun k => b r k * a k c) fun _ _ => 0 := by
    intro b x hb r c hr hc
    have := Lifts.mul hn hb ha le_rfl h0 (by rw [mul_zero]; positivity) r c hr hc
    exact this.trans (congrArg some (lsum_zero_double n fun i _ => mul_zero_double _))
  induction p with
  | zero => exact step (eye_lifts n)
  | succ p ih => exact step ih

omit hn0 in
theorem expAcc_null {q i : Nat} (hp : q + i ≤ 178) : Lifts n (expAcc n a q i) fun _ _ => 0 := by
  induction i with
  | zero => exact fun r c _ _ => (reads (K := ℚ) (p := 53) (emin := -1074) (emax := 1024) (by decide) (by decide) (by decide)).zero
  | succ i ih =>
    intro r c hr hc
    have h0 : |(((0 : Double).val : ℚ) : ℝ)| = 0 := by rw [double_rounds.zero, abs_zero]
    have h1 := fl_mul_small (expPow_null hn ha (q + i) r c hr hc) (invFac_fl (q + i + 1) (by omega)).1 (by rw [h0, zero_mul]; positivity)
    rw [zero_mul_double] at h1
    have h2 := fl_add_small (ih (by omega) r c hr hc) h1 (by rw [h0, add_zero]; positivity)
    rw [show (0 : Double) + 0 = 0 by decide +kernel] at h2
    exact h2

theorem expRetI_null {b i : Nat} (hp : b * (n * n) + i ≤ 178) : Lifts n (expRetI n a b i) fun r c => if r = c then 1 else 0 := by
  have step : ∀ {f g : Nat → Nat → IDouble}, Lifts n f (fun r c => if r = c then 1 else 0) → Lifts n g (fun _ _ => 0) →
      Lifts n (fun r c => f r c + g r c) fun r c => if r = c then 1 else 0 := by
    intro f g hf hg r c hr hc
    have h0 : |(((0 : Double).val : ℚ) : ℝ)| = 0 := by rw [double_rounds.zero, abs_zero]
    have h1 := fl_add_small (hf r c hr hc) (hg r c hr hc) (by
      rw [h0, add_zero]
      exact ((entry_le_norm (fun r c => if r = c then 1 else 0) hr hc).trans (dmat_eye hn0)).trans (by norm_num))
    rw [h1]
    dsimp only
    split
    · rw [show (1 : Double) + 0 = 1 by decide +kernel]
    · rw [show (0 : Double) + 0 = 0 by decide +kernel]
  have ret : ∀ b, b * (n * n) ≤ 178 → Lifts n (expRet n a b) fun r c => if r = c then 1 else 0 := by
    intro b
    induction b with
    | zero => exact fun _ => eye_lifts n
    | succ b ih =>
      intro hb
      have e : (b + 1) * (n * n) = b * (n * n) + n * n := Nat.succ_mul b (n * n)
      rw [e] at hb
      exact step (ih (by omega)) (expAcc_null hn ha hb)
  exact step (ret b (by omega)) (expAcc_null hn ha hp)

omit ha in
theorem expSq_eye {E : Nat → Nat → IDouble} (hE : Lifts n E fun r c => if r = c then 1 else 0) (k : Nat) :
    Lifts n (expSq n E k) fun r c => if r = c then 1 else 0 := by
  induction k with
  | zero => exact hE
  | succ k ih =>
    intro r c hr hc
    have := Lifts.mul hn ih ih (dmat_eye hn0) (dmat_eye hn0) (by norm_num) r c hr hc
    dsimp only at this
    rw [lsum_eye_double, if_pos hr] at this
    exact this

end

/-- C127: if the norm overflows, that is, if `infinity_norm` returns infinity for a matrix of finite numbers, then `expm` returns the identity. -/
theorem C127_norm_overflow {A : Mat IDouble} {n : Nat} {M : Matrix (Fin n) (Fin n) IDouble} (hA : A.toMB.Is M) (hn : n ≤ 2 ^ 10)
    (hM : ∀ i j, (M i j).Finite) {sqrt : IDouble → IDouble} {accuracy : IDouble} (hacc : accuracy.Finite) (hacc1 : |accuracy.val| ≤ 1) {fuel : Nat}
    (hf : 1076 ≤ fuel) {X : Mat IDouble} (hr : expm dIsZero Ieee.abs sqrt dhalf A.toMB accuracy fuel = .ok X)
    (hinf : infNorm Ieee.abs A.toMB = .ok (.inf false)) :
    ∃ E : Matrix (Fin n) (Fin n) IDouble, X.WF ∧ X.toMB.Is E ∧ ∀ i j, (E i j).Finite ∧ (E i j).val = if i = j then 1 else 0 := by
  have hfit := hA.fits
  obtain ⟨a, h, rfl⟩ := id hA
  obtain ⟨w, k, g1, g2, g3, g4, g5, g6⟩ := C96_log2 h
  obtain rfl := Res.ok.inj (hinf.symm.trans g1)
  have hlog := g3 fuel hf
  rw [g6 rfl, halvings_eq] at hlog
  have R := reads (K := ℚ) (p := 53) (emin := -1074) (emax := 1024) (by decide) (by decide) (by decide)
  have z0 : (0 : IDouble).fl = some 0 := R.zero
  have z1 : |(0 : Double).val| ≤ 1 := by decide +kernel
  have hlt : accuracy * accuracy * 0 * 0 < accuracy * accuracy * 0 * 0 + 1 := by
    have a0 := hacc.fl_eq
    have a1 : |accuracy.flD.val| ≤ 1 := hacc1
    obtain ⟨b1, b2⟩ := fl_mul_one a0 a0 a1 a1
    obtain ⟨c1, c2⟩ := fl_mul_one b1 z0 b2 z1
    obtain ⟨d1, d2⟩ := fl_mul_one c1 z0 c2 z1
    rw [mul_zero_double] at d1
    have e1 := fl_add_small d1 R.one (by rw [double_one, double_rounds.zero]; norm_num)
    rw [lt_iff d1 e1]
    decide +kernel
  obtain ⟨hn0, b, i, q1, q2, q3, q4⟩ := expm_tab (J := 178) (by decide +kernel) (fun _ _ => rfl) ((dIsZero_iff (invFac_fl 178 le_rfl).1).2 invFac_double.2)
    h hlog hlt hr
  have hp : b * (n * n) + i ≤ 178 := by
    by_contra hc
    have := q3 178 (by omega)
    rw [(dIsZero_iff (invFac_fl 178 le_rfl).1).2 invFac_double.2] at this
    cases this
  have hs : Lifts n (fun r c => a r c * 0) fun _ _ => 0 := by
    intro r c hr hc
    have := fl_mul_small (hM ⟨r, hr⟩ ⟨c, hc⟩).fl_eq z0 (by rw [double_rounds.zero, abs_zero, mul_zero]; positivity)
    rw [mul_zero_double] at this
    exact this
  have key := expSq_eye hn0 hn (expRetI_null hn0 hn hs hp) 1075
  refine ⟨_, by rw [q1]; exact (ofFn_holds hfit _).wf, by rw [q1]; exact (ofFn_rep hfit _).is, fun r c => ?_⟩
  have hrc := key r c r.2 c.2
  dsimp only at hrc
  refine ⟨Option.isSome_iff_exists.2 ⟨_, hrc⟩, ?_⟩
  rw [Ieee.val, Ieee.flD, toM_apply, hrc]
  by_cases hh : r = c
  · rw [if_pos (show r.1 = c.1 by rw [hh]), if_pos hh]; exact rnd_one
  · rw [if_neg (fun h' : r.1 = c.1 => hh (Fin.ext h')), if_neg hh]; rfl

/-- `expm` without the squarings, `linalg.hpp:403-442`. -/
def expmSum {T : Type} [Zero T] [One T] [Add T] [Sub T] [Mul T] [Neg T] [NatCast T] [CDiv T] [Max T] [LT T]
    [DecidableRel (α := T) (· < ·)] (isz : T → Bool) (sqrt : T → T) (A : MB T) (accuracy : T) (fuel : Nat) (scale : T) : Res (Mat T) := do
  let scaled ← mulS A scale
  let batch := wmul A.rows A.rows
  let sqAcc := accuracy * accuracy * scale * scale
  let mtk ← Util.eye A.rows A.cols (1 : T)
  let ret ← Util.eye A.rows A.cols (1 : T)
  let s ← whileFuel (fun (s : ExpmState T) =>
    if sqAcc < s.diff ∧ isz s.facInv = false then do
      let acc ← Mat.new A.rows A.cols (0 : T)
      let (mtk, acc, f, _) ← expmBatch isz scaled s.start batch s.mtk acc s.facInv
      let ret ← addAssign MRef.self (fun _ => acc.toMB) s.ret
      let n ← mul acc.toMB acc.toMB
      let d ← mul ret.toMB ret.toMB
      let d ← addS d.toMB accuracy
      let relError ← div isz n.toMB d.toMB
      let diff ← squareNorm sqrt relError.toMB
      return some ⟨s.start + batch, mtk, ret, f, diff⟩
    else return none) fuel ⟨1, mtk, ret, 1, sqAcc + 1⟩
  return s.ret

theorem expm_split {T : Type} [Zero T] [One T] [Add T] [Sub T] [Mul T] [Neg T] [NatCast T] [CDiv T] [Max T] [LT T]
    [DecidableRel (α := T) (· < ·)] (isz : T → Bool) (absf sqrt : T → T) (half : T) (A : MB T) (accuracy : T) (fuel : Nat) {k : Nat} {sc : T}
    (hlog : log2Ceil absf half A fuel = .ok (k, sc)) {r : Mat T} (hs : expmSum isz sqrt A accuracy fuel sc = .ok r) :
    expm isz absf sqrt half A accuracy fuel = forRange 0 k r fun _ ret => mul ret.toMB ret.toMB := by
  unfold expmSum at hs
  unfold expm
  obtain ⟨s1, h1, hs⟩ := Res.bind_eq_ok.1 hs
  obtain ⟨s2, h2, hs⟩ := Res.bind_eq_ok.1 hs
  obtain ⟨s3, h3, hs⟩ := Res.bind_eq_ok.1 hs
  obtain ⟨s4, h4, hs⟩ := Res.bind_eq_ok.1 hs
  obtain rfl := Res.ok.inj hs
  rw [hlog, Res.ok_bind]
  dsimp only
  rw [h1, Res.ok_bind, h2, Res.ok_bind, Res.ok_bind]
  obtain rfl := Res.ok.inj (h2.symm.trans h3)
  rw [h4, Res.ok_bind]

/-- The matrix with two elements `2^1023` in the first row. -/
def overNorm : Mat IDouble := Mat.ofFn 3 3 fun i j => if i = 0 ∧ 0 < j then dbl (2 ^ 1023) else 0

theorem overNorm_rep : Rep overNorm.toMB 3 3 fun i j => if i = 0 ∧ 0 < j then dbl (2 ^ 1023) else 0 :=
  ofFn_rep (fits_small (by decide) (by decide)) _

theorem overNorm_expm : ∃ X, expm dIsZero Ieee.abs id dhalf overNorm.toMB dtol 1076 = .ok X ∧ infNorm Ieee.abs overNorm.toMB = .ok (.inf false) := by
  have h1 : infNorm Ieee.abs overNorm.toMB = .ok (.inf false) := by decide +kernel
  have h2 : expmSum dIsZero id overNorm.toMB dtol 1076 0 = .ok (Mat.ofFn 3 3 fun r c => if r = c then 1 else 0) := by decide +kernel
  obtain ⟨w, k, g1, g2, g3, g4, g5, g6⟩ := C96_log2 overNorm_rep
  obtain rfl := Res.ok.inj (h1.symm.trans g1)
  have hlog := g3 1076 le_rfl
  rw [g6 rfl, halvings_eq] at hlog
  exact ⟨_, (expm_split dIsZero Ieee.abs id dhalf overNorm.toMB dtol 1076 hlog h2).trans (squarings_tab (fits_small (by decide) (by decide)) _ _), h1⟩

/-- C127 is false for larger elements: where the sum of a row overflows, `log2_ceil` halves the scale until it is zero, and `expm` returns the identity.
The exponential is representable here, and the identity is wrong by `2^1023`. -/
theorem C127_norm_false : ∃ (A : Mat IDouble) (M : Matrix (Fin 3) (Fin 3) IDouble), A.toMB.Is M ∧ (∀ i j, (M i j).Finite) ∧
    (∀ i j, ∃ z : IDouble, z.Finite ∧ NormedSpace.exp (M.map fun z => (z.val : ℝ)) i j = z.val) ∧
    ∃ E : Matrix (Fin 3) (Fin 3) IDouble, Yields (expm dIsZero Ieee.abs id dhalf A.toMB dtol 1076) E ∧ (∀ i j, (E i j).Finite) ∧
      NormedSpace.exp (M.map fun z => (z.val : ℝ)) 0 1 - (E 0 1).val = 2 ^ 1023 := by
  have hv : (dbl (2 ^ 1023)).val = 2 ^ 1023 ∧ (dbl (2 ^ 1023)).Finite := by decide +kernel
  have h0 : (0 : IDouble).val = 0 ∧ (0 : IDouble).Finite := by decide +kernel
  have h1 : (1 : IDouble).val = 1 ∧ (1 : IDouble).Finite := by decide +kernel
  set M : Matrix (Fin 3) (Fin 3) IDouble := toM 3 3 fun i j => if i = 0 ∧ 0 < j then dbl (2 ^ 1023) else 0 with hM
  have hMv : (M.map fun z => (z.val : ℝ)) = Matrix.of fun (i j : Fin 3) => if i = 0 ∧ 0 < j then 2 ^ 1023 else 0 := by
    funext i j
    rw [hM, Matrix.map_apply, toM_apply, Matrix.of_apply]
    by_cases h : i = 0 ∧ 0 < j
    · rw [if_pos h, if_pos ⟨by rw [h.1]; rfl, h.2⟩, hv.1]; push_cast; rfl
    · rw [if_neg h, if_neg (fun h' => h ⟨Fin.ext h'.1, h'.2⟩), h0.1]; push_cast; rfl
  have hexp : NormedSpace.exp (M.map fun z => (z.val : ℝ)) = 1 + M.map fun z => (z.val : ℝ) := by
    apply exp_of_sq_zero
    rw [hMv]
    funext i j
    fin_cases i <;> fin_cases j <;> simp [Matrix.mul_apply]
  obtain ⟨X, hX, hinf⟩ := overNorm_expm
  have hfin : ∀ i j, (M i j).Finite := fun i j => by
    rw [hM, toM_apply]
    split
    · exact hv.2
    · exact h0.2
  obtain ⟨E, e1, e2, e3⟩ := C127_norm_overflow overNorm_rep.is (by norm_num) hfin (accuracy := dtol) (by decide +kernel) (by decide +kernel) le_rfl hX hinf
  refine ⟨overNorm, M, overNorm_rep.is, hfin, fun i j => ?_, E, ⟨X, hX, e1, e2⟩, fun i j => (e3 i j).1, ?_⟩
  · rw [hexp, Matrix.add_apply, Matrix.map_apply, Matrix.one_apply]
    by_cases h : i = j
    · refine ⟨1, h1.2, ?_⟩
      have : M i j = 0 := by rw [hM, toM_apply, if_neg (fun h' => by rw [← h] at h'; omega)]
      rw [if_pos h, this, h0.1, h1.1]; push_cast; norm_num
    · exact ⟨M i j, hfin i j, by rw [if_neg h, zero_add]⟩
  · rw [hexp, hMv, (e3 0 1).2]
    simp

/-- A small rotation. -/
def rotHalf : Mat IDouble := Mat.ofFn 2 2 fun i j => if i = j then 0 else if i = 0 then dbl (1 / 2) else dbl (-1 / 2)

/-- The result for the rotation is finite. -/
example : ∃ (X : Mat IDouble) (E : Matrix (Fin 2) (Fin 2) IDouble), expm dIsZero Ieee.abs id dhalf rotHalf.toMB dtol 1076 = .ok X ∧ X.toMB.Is E ∧
    ∀ i j, (E i j).Finite := by
  have hok : (expm dIsZero Ieee.abs id dhalf rotHalf.toMB dtol 1076 >>= fun _ => .ok ()) = .ok () := by decide +kernel
  obtain ⟨X, hX, -⟩ := Res.bind_eq_ok.1 hok
  have hv : (dbl (1 / 2)).val = 1 / 2 ∧ (dbl (-1 / 2)).val = -1 / 2 ∧ (0 : IDouble).val = 0 := by decide +kernel
  have hF : (dbl (1 / 2)).Finite ∧ (dbl (-1 / 2)).Finite ∧ (0 : IDouble).Finite := by decide +kernel
  have hs : ∀ i : Fin 2, ∑ j, |(((toM 2 2 fun i j => if i = j then (0 : IDouble) else if i = 0 then dbl (1 / 2) else dbl (-1 / 2)) i j).val : ℝ)| = 1 / 2 := by
    intro i
    fin_cases i <;> rw [Fin.sum_univ_two, toM_apply, toM_apply]
    · show |(((0 : IDouble).val : ℚ) : ℝ)| + |(((dbl (1 / 2)).val : ℚ) : ℝ)| = 1 / 2
      rw [hv.1, hv.2.2]; norm_num
    · show |(((dbl (-1 / 2)).val : ℚ) : ℝ)| + |(((0 : IDouble).val : ℚ) : ℝ)| = 1 / 2
      rw [hv.2.1, hv.2.2]; norm_num [abs_of_neg]
  obtain ⟨k, p, E, h1, h2, h3, -⟩ := C127_expm (A := rotHalf) (ofFn_rep (fits_small (by decide) (by decide)) _).is (by norm_num) (fun i j => by
      rw [toM_apply]
      split
      · exact hF.2.2
      · split
        · exact hF.1
        · exact hF.2.1) (by decide +kernel) (by decide +kernel) le_rfl hX (fun i => (hs i).le) ⟨0, hs 0⟩ (by norm_num)
  exact ⟨X, E, hX, h2, h3⟩

end Malg
