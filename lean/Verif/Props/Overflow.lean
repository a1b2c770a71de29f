import Verif.Lemmas.Ieee
import Verif.Props.FloatDet
/-!
# Property C95: overflow of floating point numbers shows in the result
-/
namespace Malg
open Ops Lin Ieee

variable {K : Type} [Field K] [LinearOrder K] [IsStrictOrderedRing K] [FloorRing K] {p : ℕ} {emin : ℤ} {emax : ℕ}

/-- The bound below which nothing overflows: `(1 + u)^k s + k (1 + u)^(k-1) η`. -/
def headroom (K : Type) [Field K] (p : ℕ) (emin : ℤ) (k : ℕ) (s : K) : K :=
  (1 + 2 ^ (-(p : ℤ))) ^ k * s + k * (1 + 2 ^ (-(p : ℤ))) ^ (k - 1) * (2 ^ emin / 2)

namespace Ieee

omit [FloorRing K] in
theorem headroom_mono {j k : ℕ} (hjk : j ≤ k) {s t : K} (hs : 0 ≤ s) (hst : s ≤ t) : headroom K p emin j s ≤ headroom K p emin k t := by
  have hu : (1 : K) ≤ 1 + 2 ^ (-(p : ℤ)) := by have := two_zpow_pos (K := K) (-(p : ℤ)); linarith
  have hη : (0 : K) ≤ 2 ^ emin / 2 := div_nonneg (two_zpow_pos _).le zero_le_two
  unfold headroom
  apply add_le_add
  · exact mul_le_mul (pow_le_pow_right₀ hu hjk) hst hs (pow_nonneg (by linarith) _)
  · apply mul_le_mul_of_nonneg_right _ hη
    exact mul_le_mul (by exact_mod_cast hjk) (pow_le_pow_right₀ hu (by omega)) (pow_nonneg (by linarith) _) (Nat.cast_nonneg k)

/-- Sums of products: when the result is finite everything on the way was and the error is bounded; and it is finite if the bound
is below `2^emax`. -/
theorem dot_finite (hp : 1 ≤ p) (he : emin ≤ 0) (hx : 1 ≤ emax) (a b : Nat → Ieee K p emin emax) (k : Nat) :
    ((lsum k fun i => a i * b i).Finite → (∀ i, i < k → (a i).Finite ∧ (b i).Finite) ∧
      |(lsum k fun i => a i * b i).val - ∑ i ∈ Finset.range k, (a i).val * (b i).val| ≤
        ((1 + 2 ^ (-(p : ℤ))) ^ k - 1) * ∑ i ∈ Finset.range k, |(a i).val| * |(b i).val| +
          k * (1 + 2 ^ (-(p : ℤ))) ^ (k - 1) * (2 ^ emin / 2)) ∧
    ((∀ i, i < k → (a i).Finite ∧ (b i).Finite) → headroom K p emin k (∑ i ∈ Finset.range k, |(a i).val| * |(b i).val|) < 2 ^ emax →
      (lsum k fun i => a i * b i).Finite) := by
  have R := reads (K := K) hp he hx
  have F := Fl.rounds K hp emin
  refine ⟨fun h => ⟨fun i hi => R.some_mul (R.some_lsum h i hi), ?_⟩, fun hf hs => ?_⟩
  · have e : (lsum k fun i => a i * b i).val = (lsum k fun i => (a i).flD * (b i).flD).val := by
      unfold Ieee.val
      rw [h.eq (R.rd_lsum fun i _ => R.rd_mul (Reads.rd_get _ (a i)) (Reads.rd_get _ (b i)))]
      rfl
    rw [e]
    exact lsum_mul_err F _ _ k
  · have hpre : ∀ m, m ≤ k → |(lsum m fun i => (a i).flD * (b i).flD).val| < 2 ^ emax := fun m hm => by
      have h1 := lsum_mul_err F (fun i => (a i).flD) (fun i => (b i).flD) m
      set S := ∑ i ∈ Finset.range m, (a i).flD.val * (b i).flD.val with hS
      set Q := ∑ i ∈ Finset.range m, |(a i).flD.val| * |(b i).flD.val| with hQ
      have hSQ : |S| ≤ Q := by
        simp only [hS, hQ, ← abs_mul]
        exact Finset.abs_sum_le_sum_abs _ _
      have hQ0 : 0 ≤ Q := (abs_nonneg _).trans hSQ
      have hQk : Q ≤ ∑ i ∈ Finset.range k, |(a i).val| * |(b i).val| :=
        Finset.sum_le_sum_of_subset_of_nonneg (Finset.range_mono hm) fun _ _ _ => mul_nonneg (abs_nonneg _) (abs_nonneg _)
      refine lt_of_le_of_lt ?_ ((headroom_mono hm hQ0 hQk).trans_lt hs)
      have h2 := abs_sub_abs_le_abs_sub (lsum m fun i => (a i).flD * (b i).flD).val S
      unfold headroom
      linarith
    have hprod : ∀ i, i < k → |((a i).flD * (b i).flD).val| < 2 ^ emax := fun i hi => by
      have h1 := F.mul (a i).flD (b i).flD
      have h2 := abs_sub_abs_le_abs_sub ((a i).flD * (b i).flD).val ((a i).flD.val * (b i).flD.val)
      have h3 : |(a i).flD.val * (b i).flD.val| ≤ ∑ i ∈ Finset.range k, |(a i).val| * |(b i).val| := by
        rw [abs_mul]
        exact Finset.single_le_sum (f := fun i => |(a i).val| * |(b i).val|)
          (fun _ _ => mul_nonneg (abs_nonneg _) (abs_nonneg _)) (Finset.mem_range.2 hi)
      refine lt_of_le_of_lt ?_ ((headroom_mono (show 1 ≤ k by omega) (abs_nonneg _) h3).trans_lt hs)
      unfold headroom
      rw [pow_one, Nat.sub_self, pow_zero, Nat.cast_one, one_mul, one_mul]
      linarith
    have hfin : ∀ i, i < k → (a i * b i).Finite := fun i hi => mul_finite.2 ⟨(hf i hi).1, (hf i hi).2, hprod i hi⟩
    refine lsum_finite.2 ⟨hfin, fun m hm => ?_⟩
    rw [lsum_congr fun i hi => (hfin i (by omega)).eq (R.rd_mul (Reads.rd_get _ (a i)) (Reads.rd_get _ (b i)))]
    exact hpre m hm

/-- Sums. -/
theorem sum_finite (hp : 1 ≤ p) (he : emin ≤ 0) (hx : 1 ≤ emax) (t : Nat → Ieee K p emin emax) (k : Nat) :
    ((lsum k t).Finite → (∀ i, i < k → (t i).Finite) ∧
      |(lsum k t).val - ∑ i ∈ Finset.range k, (t i).val| ≤ ((1 + 2 ^ (-(p : ℤ))) ^ (k - 1) - 1) * ∑ i ∈ Finset.range k, |(t i).val|) ∧
    ((∀ i, i < k → (t i).Finite) → (1 + 2 ^ (-(p : ℤ))) ^ (k - 1) * ∑ i ∈ Finset.range k, |(t i).val| < 2 ^ emax → (lsum k t).Finite) := by
  have R := reads (K := K) hp he hx
  have F := Fl.rounds K hp emin
  have hu : (1 : K) ≤ 1 + 2 ^ (-(p : ℤ)) := by have := two_zpow_pos (K := K) (-(p : ℤ)); linarith
  have herr : ∀ m, |(lsum m fun i => (t i).flD).val - ∑ i ∈ Finset.range m, (t i).val| ≤
      ((1 + 2 ^ (-(p : ℤ))) ^ (m - 1) - 1) * ∑ i ∈ Finset.range m, |(t i).val| := fun m => by
    simpa using lsum_err F (t := fun i => (t i).flD) (τ := fun i => (t i).val) (a := 0) (k := m) le_rfl (fun i _ => by
      simp [Ieee.val])
  refine ⟨fun h => ⟨fun i hi => R.some_lsum h i hi, ?_⟩, fun hf hs => lsum_finite.2 ⟨hf, fun m hm => ?_⟩⟩
  · have e : (lsum k t).val = (lsum k fun i => (t i).flD).val := by
      unfold Ieee.val
      rw [h.eq (R.rd_lsum fun i _ => Reads.rd_get _ (t i))]
      rfl
    rw [e]
    exact herr k
  · have h1 := herr m
    set S := ∑ i ∈ Finset.range m, (t i).val with hS
    set Q := ∑ i ∈ Finset.range m, |(t i).val| with hQ
    have hSQ : |S| ≤ Q := Finset.abs_sum_le_sum_abs _ _
    have hQ0 : 0 ≤ Q := (abs_nonneg _).trans hSQ
    have hQk : Q ≤ ∑ i ∈ Finset.range k, |(t i).val| :=
      Finset.sum_le_sum_of_subset_of_nonneg (Finset.range_mono hm) fun _ _ _ => abs_nonneg _
    have h2 := abs_sub_abs_le_abs_sub (lsum m fun i => (t i).flD).val S
    have h3 : (1 + 2 ^ (-(p : ℤ))) ^ (m - 1) * Q ≤ (1 + 2 ^ (-(p : ℤ))) ^ (k - 1) * ∑ i ∈ Finset.range k, |(t i).val| :=
      mul_le_mul (pow_le_pow_right₀ hu (by omega)) hQk hQ0 (pow_nonneg (by linarith) _)
    linarith

end Ieee

/-- C95, products: a finite entry of a product has come from finite entries without an overflow on the way, and its error is that of
C79; the entry is finite whenever the factors are and the bound for it is below `2^emax`. -/
theorem C95_product (hp : 1 ≤ p) (he : emin ≤ 0) (hx : 1 ≤ emax) {A B : MB (Ieee K p emin emax)} {n k m : Nat}
    {M : Matrix (Fin n) (Fin k) (Ieee K p emin emax)} {N : Matrix (Fin k) (Fin m) (Ieee K p emin emax)} (hA : A.Is M) (hB : B.Is N)
    (hf : Fits n m) :
    ∃ E : Matrix (Fin n) (Fin m) (Ieee K p emin emax), Yields (mul A B) E ∧ ∀ i j,
      ((E i j).Finite → (∀ l, (M i l).Finite ∧ (N l j).Finite) ∧
        |(E i j).val - (M.map val * N.map val) i j| ≤
          ((1 + 2 ^ (-(p : ℤ))) ^ k - 1) * (M.map (|val ·|) * N.map (|val ·|)) i j + k * (1 + 2 ^ (-(p : ℤ))) ^ (k - 1) * (2 ^ emin / 2)) ∧
      ((∀ l, (M i l).Finite ∧ (N l j).Finite) → headroom K p emin k ((M.map (|val ·|) * N.map (|val ·|)) i j) < 2 ^ emax →
        (E i j).Finite) := by
  obtain ⟨e, hA, rfl⟩ := hA
  obtain ⟨f, hB, rfl⟩ := hB
  refine ⟨_, (C35_entries hA.toRepAt hB.toRepAt hf).yields, fun i j => ?_⟩
  obtain ⟨h1, h2⟩ := dot_finite hp he hx (fun l => e i l) (fun l => f l j) k
  rw [Finset.sum_range, Finset.sum_range] at h1
  rw [Finset.sum_range] at h2
  exact ⟨fun h => ⟨fun l => (h1 h).1 l.1 l.2, (h1 h).2⟩, fun h hs => h2 (fun l hl => h ⟨l, hl⟩) hs⟩

/-- C95, matrix times vector. -/
theorem C95_mulVec (hp : 1 ≤ p) (he : emin ≤ 0) (hx : 1 ≤ emax) {A : MB (Ieee K p emin emax)} {b : List (Ieee K p emin emax)} {n m : Nat}
    {e : Nat → Nat → Ieee K p emin emax} {f : Nat → Ieee K p emin emax} (hA : RepAt A n m e) (hb : VRep b m f) (hn : n < allocMax) :
    ∃ g : Nat → Ieee K p emin emax, ReturnsVec (mulVec A b) n g ∧ ReturnsVec (dotMat A b) n g ∧ ∀ i, i < n →
      ((g i).Finite → (∀ j, j < m → (e i j).Finite ∧ (f j).Finite) ∧
        |(g i).val - ∑ j ∈ Finset.range m, (e i j).val * (f j).val| ≤
          ((1 + 2 ^ (-(p : ℤ))) ^ m - 1) * ∑ j ∈ Finset.range m, |(e i j).val| * |(f j).val| +
            m * (1 + 2 ^ (-(p : ℤ))) ^ (m - 1) * (2 ^ emin / 2)) ∧
      ((∀ j, j < m → (e i j).Finite ∧ (f j).Finite) →
        headroom K p emin m (∑ j ∈ Finset.range m, |(e i j).val| * |(f j).val|) < 2 ^ emax → (g i).Finite) :=
  have h := C37_entries_partial hA hb (Nat.le_refl m) hn
  ⟨_, h.1, h.2, fun i _ => dot_finite hp he hx (fun j => e i j) f m⟩

/-- C95, scalar products. -/
theorem C95_dot (hp : 1 ≤ p) (he : emin ≤ 0) (hx : 1 ≤ emax) {a b : List (Ieee K p emin emax)} {n : Nat} {f g : Nat → Ieee K p emin emax}
    (ha : VRep a n f) (hb : VRep b n g) :
    ∃ x, dot a b = .ok x ∧
      (x.Finite → (∀ i, i < n → (f i).Finite ∧ (g i).Finite) ∧
        |x.val - ∑ i ∈ Finset.range n, (f i).val * (g i).val| ≤
          ((1 + 2 ^ (-(p : ℤ))) ^ n - 1) * ∑ i ∈ Finset.range n, |(f i).val| * |(g i).val| +
            n * (1 + 2 ^ (-(p : ℤ))) ^ (n - 1) * (2 ^ emin / 2)) ∧
      ((∀ i, i < n → (f i).Finite ∧ (g i).Finite) →
        headroom K p emin n (∑ i ∈ Finset.range n, |(f i).val| * |(g i).val|) < 2 ^ emax → x.Finite) :=
  ⟨_, C38_dot ha hb, dot_finite hp he hx f g n⟩

/-- C95, sums. -/
theorem C95_sum (hp : 1 ≤ p) (he : emin ≤ 0) (hx : 1 ≤ emax) {v : List (Ieee K p emin emax)} {n : Nat} {f : Nat → Ieee K p emin emax}
    (hv : VRep v n f) :
    ∃ x, Ops.sum v = .ok x ∧
      (x.Finite → (∀ i, i < n → (f i).Finite) ∧
        |x.val - ∑ i ∈ Finset.range n, (f i).val| ≤ ((1 + 2 ^ (-(p : ℤ))) ^ (n - 1) - 1) * ∑ i ∈ Finset.range n, |(f i).val|) ∧
      ((∀ i, i < n → (f i).Finite) → (1 + 2 ^ (-(p : ℤ))) ^ (n - 1) * ∑ i ∈ Finset.range n, |(f i).val| < 2 ^ emax → x.Finite) :=
  ⟨_, C41_sum hv, sum_finite hp he hx f n⟩

/-- C95, traces. -/
theorem C95_trace (hp : 1 ≤ p) (he : emin ≤ 0) (hx : 1 ≤ emax) {A : MB (Ieee K p emin emax)} {n : Nat} {e} (hA : RepAt A n n e) :
    ∃ x, trace A = .ok x ∧
      (x.Finite → (∀ i, i < n → (e i i).Finite) ∧
        |x.val - ∑ i ∈ Finset.range n, (e i i).val| ≤ ((1 + 2 ^ (-(p : ℤ))) ^ (n - 1) - 1) * ∑ i ∈ Finset.range n, |(e i i).val|) ∧
      ((∀ i, i < n → (e i i).Finite) → (1 + 2 ^ (-(p : ℤ))) ^ (n - 1) * ∑ i ∈ Finset.range n, |(e i i).val| < 2 ^ emax → x.Finite) :=
  ⟨_, C41_trace_partial hA le_rfl, sum_finite hp he hx (fun i => e i i) n⟩

/-- C95, element-wise operations. -/
theorem C95_elementwise (hp : 1 ≤ p) (he : emin ≤ 0) (hx : 1 ≤ emax) {A B : MB (Ieee K p emin emax)} {n m : Nat} {e f} (hA : Rep A n m e)
    (hB : Rep B n m f) (s : Ieee K p emin emax) :
    (∃ E, Returns (add A B) n m E ∧ ∀ i j, (E i j).Finite → (e i j).Finite ∧ (f i j).Finite ∧
      |(E i j).val - ((e i j).val + (f i j).val)| ≤ 2 ^ (-(p : ℤ)) * |(e i j).val + (f i j).val|) ∧
    (∃ E, Returns (sub A B) n m E ∧ ∀ i j, (E i j).Finite → (e i j).Finite ∧ (f i j).Finite ∧
      |(E i j).val - ((e i j).val - (f i j).val)| ≤ 2 ^ (-(p : ℤ)) * |(e i j).val - (f i j).val|) ∧
    (∃ E, Returns (mulS A s) n m E ∧ ∀ i j, (E i j).Finite → (e i j).Finite ∧ s.Finite ∧
      |(E i j).val - (e i j).val * s.val| ≤ 2 ^ (-(p : ℤ)) * |(e i j).val * s.val| + 2 ^ emin / 2) := by
  have R := reads (K := K) hp he hx
  have F := Fl.rounds K hp emin
  refine ⟨⟨_, (C33_add_sub hA hB).1, fun i j h => ?_⟩, ⟨_, (C33_add_sub hA hB).2, fun i j h => ?_⟩,
    ⟨_, (C33_scalar hA s).2.2.1, fun i j h => ?_⟩⟩
  · refine ⟨(R.some_add h).1, (R.some_add h).2, ?_⟩
    unfold Ieee.val
    rw [h.eq (R.rd_add (Reads.rd_get _ _) (Reads.rd_get _ _))]
    exact F.add _ _
  · refine ⟨(R.some_sub h).1, (R.some_sub h).2, ?_⟩
    unfold Ieee.val
    rw [h.eq (R.rd_sub (Reads.rd_get _ _) (Reads.rd_get _ _))]
    exact F.sub _ _
  · refine ⟨(R.some_mul h).1, (R.some_mul h).2, ?_⟩
    unfold Ieee.val
    rw [h.eq (R.rd_mul (Reads.rd_get _ _) (Reads.rd_get _ _))]
    exact F.mul _ _

/-- What is not finite is the infinity. -/
theorem mk_overflow {neg : Bool} {r : K} (h : ¬ (mk neg r : Ieee K p emin emax).Finite) : (mk neg r : Ieee K p emin emax) = inf neg := by
  unfold mk at h ⊢
  split_ifs with h1
  · rw [dif_pos h1] at h; exact absurd rfl h
  · rfl

/-- C95: an overflow of finite operands gives the infinity with the sign of the exact result, never a NaN. -/
theorem C95_sign {a b : Ieee K p emin emax} (ha : a.Finite) (hb : b.Finite) :
    (¬ (a + b).Finite → a + b = inf (decide (a.val + b.val < 0))) ∧
    (¬ (a - b).Finite → a - b = inf (decide (a.val - b.val < 0))) ∧
    (¬ (a * b).Finite → a * b = inf (decide (a.val * b.val < 0))) := by
  have hadd : ∀ {a b : Ieee K p emin emax}, a.Finite → b.Finite → ¬ (a + b).Finite → a + b = inf (decide (a.val + b.val < 0)) := by
    intro a b ha hb h
    match a, b, ha, hb with
    | fin x zx hx lx, fin y zy hy ly, _, _ =>
      have e : fin x zx hx lx + fin y zy hy ly = mk (if x.val + y.val = 0 then (fin x zx hx lx).sign && (fin y zy hy ly).sign else
        decide (x.val + y.val < 0)) (x.val + y.val) := rfl
      rw [e] at h ⊢
      rw [mk_overflow h]
      by_cases h0 : x.val + y.val = 0
      · exfalso
        apply h
        rw [h0]
        unfold mk
        rw [dif_pos]
        · rfl
        · show |rnd p emin 0| < 2 ^ emax
          have : rnd p emin (0 : K) = 0 := by simp [rnd, rne]
          rw [this, abs_zero]; exact pow_pos zero_lt_two _
      · rw [if_neg h0]; rfl
  refine ⟨hadd ha hb, fun h => ?_, fun h => ?_⟩
  · have hn : (-b).Finite := by unfold Ieee.Finite at hb ⊢; rw [fl_neg]; simpa using hb
    have hv : (-b).val = -b.val := by
      unfold Ieee.val flD
      rw [fl_neg]
      cases hfl : b.fl with
      | none => exact (neg_zero).symm
      | some x => rfl
    have := hadd ha hn h
    rw [hv, ← sub_eq_add_neg] at this
    exact this
  · match a, b, ha, hb with
    | fin x zx hx lx, fin y zy hy ly, _, _ =>
      have e : fin x zx hx lx * fin y zy hy ly = mk ((fin x zx hx lx).sign ^^ (fin y zy hy ly).sign) (x.val * y.val) := rfl
      rw [e] at h ⊢
      rw [mk_overflow h]
      have h0 : x.val * y.val ≠ 0 := by
        intro h0
        apply h
        rw [h0]
        unfold mk
        rw [dif_pos]
        · rfl
        · show |rnd p emin 0| < 2 ^ emax
          have : rnd p emin (0 : K) = 0 := by simp [rnd, rne]
          rw [this, abs_zero]; exact pow_pos zero_lt_two _
      have hx0 := left_ne_zero_of_mul h0
      have hy0 := right_ne_zero_of_mul h0
      have hzx : zx = false := Bool.eq_false_iff.2 fun h => hx0 (hx h)
      have hzy : zy = false := Bool.eq_false_iff.2 fun h => hy0 (hy h)
      subst hzx hzy
      show inf ((false || decide (x.val < 0)) ^^ (false || decide (y.val < 0))) = inf (decide (x.val * y.val < 0))
      rw [Bool.false_or, Bool.false_or]
      congr 1
      rcases lt_or_gt_of_ne hx0 with h1 | h1 <;> rcases lt_or_gt_of_ne hy0 with h2 | h2
      · rw [decide_eq_true h1, decide_eq_true h2, decide_eq_false (not_lt.2 (mul_pos_of_neg_of_neg h1 h2).le)]; rfl
      · rw [decide_eq_true h1, decide_eq_false (not_lt.2 h2.le), decide_eq_true (mul_neg_of_neg_of_pos h1 h2)]; rfl
      · rw [decide_eq_false (not_lt.2 h1.le), decide_eq_true h2, decide_eq_true (mul_neg_of_pos_of_neg h1 h2)]; rfl
      · rw [decide_eq_false (not_lt.2 h1.le), decide_eq_false (not_lt.2 h2.le), decide_eq_false (not_lt.2 (mul_pos h1 h2).le)]; rfl

/-- C95: element-wise operations on finite matrices never give a NaN, and where they overflow they give the infinity of the right sign. -/
theorem C95_elementwise_overflow {A B : MB (Ieee K p emin emax)} {n m : Nat} {e f} (hA : Rep A n m e) (hB : Rep B n m f)
    {s : Ieee K p emin emax} (he : ∀ i j, (e i j).Finite) (hf : ∀ i j, (f i j).Finite) (hs : s.Finite) :
    (∃ E, Returns (add A B) n m E ∧ ∀ i j, (E i j).Finite ∨ E i j = inf (decide ((e i j).val + (f i j).val < 0))) ∧
    (∃ E, Returns (sub A B) n m E ∧ ∀ i j, (E i j).Finite ∨ E i j = inf (decide ((e i j).val - (f i j).val < 0))) ∧
    (∃ E, Returns (mulS A s) n m E ∧ ∀ i j, (E i j).Finite ∨ E i j = inf (decide ((e i j).val * s.val < 0))) :=
  ⟨⟨_, (C33_add_sub hA hB).1, fun i j => or_iff_not_imp_left.2 (C95_sign (he i j) (hf i j)).1⟩,
    ⟨_, (C33_add_sub hA hB).2, fun i j => or_iff_not_imp_left.2 (C95_sign (he i j) (hf i j)).2.1⟩,
    ⟨_, (C33_scalar hA s).2.2.1, fun i j => or_iff_not_imp_left.2 (C95_sign (he i j) hs).2.2⟩⟩

example : add (⟨1, 2, [mk true (-2 ^ 1023), mk false 1]⟩ : Mat IDouble).toMB (⟨1, 2, [mk true (-2 ^ 1023), mk false 2]⟩ : Mat IDouble).toMB =
    .ok ⟨1, 2, [inf true, mk false 3]⟩ := by decide +kernel

/-- C95, determinants of up to four rows: a finite result has come from finite entries, and is what the arithmetic without a largest
exponent gives (whose errors are those of C80). -/
theorem C95_determinant (hp : 1 ≤ p) (he : emin ≤ 0) (hx : 1 ≤ emax) {A : MB (Ieee K p emin emax)} {B : MB (Fl K p emin)} {N : Nat} {e}
    (hA : Rep A N N e) (hB : Rep B N N fun i j => (e i j).flD) (hN : N ≤ 4) (isz : Ieee K p emin emax → Bool) (isz' : Fl K p emin → Bool) :
    ∃ x y, determinant isz A = .ok x ∧ determinant isz' B = .ok y ∧
      (x.Finite → (∀ i j, i < N → j < N → (e i j).Finite) ∧ x.flD = y) :=
  have R := reads (K := K) hp he hx
  ⟨_, _, determinant_closed isz hA hN, determinant_closed isz' hB hN,
    fun h => ⟨fun i j hi hj => R.some_closedDet hN h hi hj, h.eq (R.rd_closedDet (fun i j => Reads.rd_get _ (e i j)) N)⟩⟩

/-- A double from a rational number. -/
def dbl (x : ℚ) : IDouble := mk (decide (x < 0)) x

/-- Small enough: with entries up to `2^500`, products of matrices with up to a million columns do not overflow. -/
theorem C95_double {A B : MB IDouble} {n k m : Nat} {M : Matrix (Fin n) (Fin k) IDouble} {N : Matrix (Fin k) (Fin m) IDouble}
    (hA : A.Is M) (hB : B.Is N) (hf : Fits n m) (hk : k ≤ 2 ^ 20) (hM : ∀ i j, (M i j).Finite ∧ |(M i j).val| ≤ 2 ^ 500)
    (hN : ∀ i j, (N i j).Finite ∧ |(N i j).val| ≤ 2 ^ 500) :
    ∃ E : Matrix (Fin n) (Fin m) IDouble, Yields (mul A B) E ∧ ∀ i j, (E i j).Finite := by
  obtain ⟨E, h1, h2⟩ := C95_product (by decide) (by decide) (by decide) hA hB hf
  refine ⟨E, h1, fun i j => (h2 i j).2 (fun l => ⟨(hM i l).1, (hN l j).1⟩) ?_⟩
  have hs : (M.map (|val ·|) * N.map (|val ·|)) i j ≤ k * (2 ^ 500 * 2 ^ 500) := by
    rw [Matrix.mul_apply]
    refine (Finset.sum_le_card_nsmul _ _ (2 ^ 500 * 2 ^ 500) fun l _ => ?_).trans (by simp)
    exact mul_le_mul (hM i l).2 (hN l j).2 (abs_nonneg _) (pow_nonneg zero_le_two _)
  have hs0 : 0 ≤ (M.map (|val ·|) * N.map (|val ·|)) i j := by
    rw [Matrix.mul_apply]
    exact Finset.sum_nonneg fun l _ => mul_nonneg (abs_nonneg _) (abs_nonneg _)
  have hkq : (k : ℚ) ≤ 2 ^ 20 := by exact_mod_cast hk
  have hs1 : (M.map (|val ·|) * N.map (|val ·|)) i j ≤ 2 ^ 20 * (2 ^ 500 * 2 ^ 500) :=
    hs.trans (mul_le_mul_of_nonneg_right hkq (by positivity))
  have hu : (2 : ℚ) ^ (-((53 : ℕ) : ℤ)) = 1 / 2 ^ 53 := by norm_num
  have h52 : (2 : ℕ) ^ 20 ≤ 2 ^ 52 := by norm_num
  have hf1 := double_factor_le (hk.trans h52)
  have hf2 := double_factor_le ((Nat.sub_le k 1).trans (hk.trans h52))
  unfold headroom
  rw [hu, two_zpow_emin]
  have a1 : (1 + 1 / 2 ^ 53 : ℚ) ^ k * (M.map (|val ·|) * N.map (|val ·|)) i j ≤ 2 * (2 ^ 20 * (2 ^ 500 * 2 ^ 500)) :=
    mul_le_mul hf1 hs1 hs0 zero_le_two
  have a2 : (k : ℚ) * (1 + 1 / 2 ^ 53) ^ (k - 1) * (1 / 2 ^ 1074 / 2) ≤ 2 ^ 20 * 2 * (1 / 2 ^ 1074 / 2) :=
    mul_le_mul_of_nonneg_right (mul_le_mul hkq hf2 (pow_nonneg (by positivity) _) (by positivity)) (by positivity)
  refine lt_of_le_of_lt (add_le_add a1 a2) ?_
  decide +kernel

/-- What C95 does not promise: results that could be represented, `0` and `1`, are lost by overflow on the way. -/
theorem C95_representable_false :
    dot [dbl (2 ^ 600), dbl (2 ^ 600)] [dbl (2 ^ 600), dbl (-2 ^ 600)] = .ok nan ∧
    (2 ^ 600 * 2 ^ 600 + 2 ^ 600 * -2 ^ 600 : ℚ) = 0 ∧
    (∀ isz, ∃ x, determinant isz (Mat.ofFn 4 4 fun i j => if i = j then (if i < 2 then dbl (2 ^ 600) else dbl (1 / 2 ^ 600)) else dbl 0).toMB =
      .ok x ∧ ¬ x.Finite) ∧
    (2 ^ 600 * 2 ^ 600 * (1 / 2 ^ 600) * (1 / 2 ^ 600) : ℚ) = 1 := by
  refine ⟨by decide +kernel, by ring, fun isz => ⟨_, determinant_closed isz (ofFn_rep (fits_small (by decide) (by decide)) _) (by decide), ?_⟩,
    by decide +kernel⟩
  decide +kernel

example : ¬ (dbl (2 ^ 600) * dbl (2 ^ 600)).Finite ∧ (dbl (2 ^ 511) * dbl (2 ^ 512)).Finite := by decide +kernel
example : mul (⟨1, 2, [dbl (2 ^ 600), dbl 1]⟩ : Mat IDouble).toMB (⟨2, 1, [dbl (2 ^ 600), dbl (-3)]⟩ : Mat IDouble).toMB =
    .ok ⟨1, 1, [inf false]⟩ := by decide +kernel
example : Ops.sum [dbl (2 ^ 1023), dbl (2 ^ 1023), dbl (-2 ^ 1023)] = .ok (inf false) ∧
    Ops.sum [dbl (2 ^ 1023), dbl (-2 ^ 1023), dbl (2 ^ 1023)] = .ok (dbl (2 ^ 1023)) := by decide +kernel
example : trace (⟨2, 2, [dbl 1, dbl (2 ^ 1023), inf true, dbl 2]⟩ : Mat IDouble).toMB = .ok (dbl 3) := by decide +kernel

end Malg
