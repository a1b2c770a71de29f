import Verif.Props.Rounding
import Verif.Props.Linalg
/-!
# Properties C80 and C81: what holds exactly in floating point arithmetic
-/
namespace Malg
open Ops Lin

section exact
variable {K : Type} [Field K] [LinearOrder K] [IsStrictOrderedRing K] [FloorRing K] {p : ℕ} {emin : ℤ}
  (hp : 1 ≤ p) (he : emin ≤ 0)
include hp he

/-- Integers of at most `p` digits are numbers of the format. -/
theorem rnd_intCast {z : ℤ} (h : |z| ≤ 2 ^ p) : rnd p emin (z : K) = z :=
  rnd_exact hp ⟨z, 0, he, h, by simp⟩

/-- A sum of integers, as long as the absolute values add up to at most `2^p`. -/
theorem lsum_exact {t : Nat → Fl K p emin} {z : Nat → ℤ} {k : Nat} (h : ∀ i, i < k → (t i).val = z i)
    (hb : ∑ i ∈ Finset.range k, |z i| ≤ 2 ^ p) : (lsum k t).val = ((∑ i ∈ Finset.range k, z i : ℤ) : K) := by
  induction k with
  | zero => simp [lsum]; rfl
  | succ k ih =>
    have h0 : ∑ i ∈ Finset.range k, |z i| ≤ ∑ i ∈ Finset.range (k + 1), |z i| := by
      rw [Finset.sum_range_succ]; have := abs_nonneg (z k); omega
    rw [lsum]
    show rnd p emin ((lsum k t).val + (t k).val) = _
    rw [ih (fun i hi => h i (by omega)) (h0.trans hb), h k (by omega), ← Int.cast_add, ← Finset.sum_range_succ]
    exact rnd_intCast hp he ((Finset.abs_sum_le_sum_abs _ _).trans hb)

theorem lsum_mul_exact {x y : Nat → Fl K p emin} {a b : Nat → ℤ} {k : Nat} (hx : ∀ i, i < k → (x i).val = a i)
    (hy : ∀ i, i < k → (y i).val = b i) (hb : ∑ i ∈ Finset.range k, |a i| * |b i| ≤ 2 ^ p) :
    (lsum k fun i => x i * y i).val = ((∑ i ∈ Finset.range k, a i * b i : ℤ) : K) := by
  simp only [← abs_mul] at hb
  refine lsum_exact hp he (fun i hi => ?_) hb
  show rnd p emin ((x i).val * (y i).val) = _
  rw [hx i hi, hy i hi, ← Int.cast_mul]
  exact rnd_intCast hp he ((Finset.single_le_sum (fun j _ => abs_nonneg (a j * b j)) (Finset.mem_range.2 hi)).trans hb)

/-- C80: the product of matrices with integer entries is exact if the product of the absolute values stays within `2^p`. -/
theorem C80_product {A B : MB (Fl K p emin)} {n k m : Nat} {M : Matrix (Fin n) (Fin k) (Fl K p emin)}
    {N : Matrix (Fin k) (Fin m) (Fl K p emin)} {P : Matrix (Fin n) (Fin k) ℤ} {Q : Matrix (Fin k) (Fin m) ℤ} (hA : A.Is M)
    (hB : B.Is N) (hf : Fits n m) (hM : ∀ i j, (M i j).val = P i j) (hN : ∀ i j, (N i j).val = Q i j)
    (hb : ∀ i j, (P.map (|·|) * Q.map (|·|)) i j ≤ 2 ^ p) :
    ∃ E : Matrix (Fin n) (Fin m) (Fl K p emin), Yields (mul A B) E ∧ ∀ i j, (E i j).val = ((P * Q) i j : ℤ) := by
  obtain ⟨e, hA, rfl⟩ := hA
  obtain ⟨f, hB, rfl⟩ := hB
  refine ⟨_, (C35_entries hA.toRepAt hB.toRepAt hf).yields, fun i j => ?_⟩
  have := lsum_mul_exact hp he (x := fun l => e i l) (y := fun l => f l j) (a := fun l => tab P i l) (b := fun l => tab Q l j) (k := k)
    (fun l hl => by rw [tab_lt _ i.2 hl]; exact hM i ⟨l, hl⟩) (fun l hl => by rw [tab_lt _ hl j.2]; exact hN ⟨l, hl⟩ j)
    (by
      rw [Finset.sum_range]
      refine le_trans (le_of_eq ?_) (hb i j)
      rw [Matrix.mul_apply]
      exact Finset.sum_congr rfl fun l _ => by rw [tab_lt _ i.2 l.2, tab_lt _ l.2 j.2]; rfl)
  rw [Finset.sum_range] at this
  refine this.trans (congrArg _ ?_)
  rw [Matrix.mul_apply]
  exact Finset.sum_congr rfl fun l _ => by rw [tab_lt _ i.2 l.2, tab_lt _ l.2 j.2]

/-- C80 for sums, scalar products and matrix-vector products. -/
theorem C80_vector {a b : List (Fl K p emin)} {n m : Nat} {f g : Nat → Fl K p emin} {x y : Nat → ℤ} (ha : VRep a m f) (hb : VRep b m g)
    (hx : ∀ i, i < m → (f i).val = x i) (hy : ∀ i, i < m → (g i).val = y i) {A : MB (Fl K p emin)} {e} (hA : RepAt A n m e)
    {z : Nat → Nat → ℤ} (hz : ∀ i j, i < n → j < m → (e i j).val = z i j) (hn : n < allocMax) :
    (∑ i ∈ Finset.range m, |x i| ≤ 2 ^ p → ∃ s, Ops.sum a = .ok s ∧ s.val = ((∑ i ∈ Finset.range m, x i : ℤ) : K)) ∧
    (∑ i ∈ Finset.range m, |x i| * |y i| ≤ 2 ^ p → ∃ s, dot a b = .ok s ∧ s.val = ((∑ i ∈ Finset.range m, x i * y i : ℤ) : K)) ∧
    ((∀ i, i < n → ∑ j ∈ Finset.range m, |z i j| * |x j| ≤ 2 ^ p) →
      ∃ h, ReturnsVec (mulVec A a) n h ∧ ∀ i, i < n → (h i).val = ((∑ j ∈ Finset.range m, z i j * x j : ℤ) : K)) :=
  ⟨fun h => ⟨_, C41_sum ha, lsum_exact hp he hx h⟩, fun h => ⟨_, C38_dot ha hb, lsum_mul_exact hp he hx hy h⟩,
   fun h => ⟨_, (C37_entries_partial hA ha le_rfl hn).1, fun i hi => lsum_mul_exact hp he (fun j hj => hz i j hi hj) hx (h i hi)⟩⟩

end exact

/-- The floating point numbers nearest to `l`, in `double`. -/
def doubles (l : List ℚ) : List Double := l.map (Fl.of 53 (-1074))

example : mul (⟨2, 2, doubles [1, 2, 3, 4]⟩ : Mat Double).toMB (⟨2, 2, doubles [5, 6, 7, 8]⟩ : Mat Double).toMB =
    .ok ⟨2, 2, doubles [19, 22, 43, 50]⟩ := by decide +kernel
/-- The bound is needed: `2^53 + 1` is `2^53` in `double`. -/
example : Ops.sum (doubles [2 ^ 53, 1]) = .ok (Fl.of 53 (-1074) (2 ^ 53)) := by decide +kernel

/-! ## C81 -/

/-- C81: if multiplication commutes (it need not be associative or distributive), transposing a product gives the product of the
transposes in reverse order, entry for entry: both add the same products in the same order. -/
theorem C81_transpose_product {T : Type} [Zero T] [Add T] [Mul T] (hc : ∀ x y : T, x * y = y * x) {A B : MB T} {n k m : Nat} {e f}
    (hA : RepAt A n k e) (hB : RepAt B k m f) (hf : Fits n m) :
    (mul A B >>= fun X => transpose X.toMB) = (transpose B >>= fun X => transpose A >>= fun Y => mul X.toMB Y.toMB) := by
  obtain ⟨X, h1, h2⟩ := C35_entries hA hB hf
  obtain ⟨X', h3, h4⟩ := C48_transpose hB
  obtain ⟨Y', h5, h6⟩ := C48_transpose hA
  rw [h1, Res.ok_bind, h3, Res.ok_bind, h5, Res.ok_bind, (C48_transpose h2.rep.toRepAt).eq,
    (C35_entries h4.rep.toRepAt h6.rep.toRepAt hf.swap).eq]
  exact congrArg _ (ofFn_congr fun i j _ _ => lsum_congr fun l _ => hc _ _)

/-- C81: sums and scalar products do not depend on the order of the operands. -/
theorem C81_commute {T : Type} [Zero T] [Add T] [Mul T] (ha : ∀ x y : T, x + y = y + x) (hc : ∀ x y : T, x * y = y * x) {A B : MB T}
    {n m : Nat} {e f} (hA : Rep A n m e) (hB : Rep B n m f) {a b : List T} {k : Nat} {g h} (hg : VRep a k g) (hh : VRep b k h) :
    add A B = add B A ∧ vadd a b = vadd b a ∧ vmul a b = vmul b a ∧ dot a b = dot b a := by
  refine ⟨?_, ?_, ?_, ?_⟩
  · unfold add
    rw [zipMat_eq hA hB fun _ _ _ _ => rfl, zipMat_eq hB hA fun _ _ _ _ => rfl]
    exact congrArg _ (ofFn_congr fun i j _ _ => ha _ _)
  · unfold vadd
    rw [zipVec_eq hg hh fun _ _ => rfl, zipVec_eq hh hg fun _ _ => rfl]
    exact congrArg _ (vtab_congr fun i _ => ha _ _)
  · unfold vmul
    rw [zipVec_eq hg hh fun _ _ => rfl, zipVec_eq hh hg fun _ _ => rfl]
    exact congrArg _ (vtab_congr fun i _ => hc _ _)
  · rw [C38_dot hg hh, C38_dot hh hg]
    exact congrArg _ (lsum_congr fun l _ => hc _ _)

/-- C81: floating point addition and multiplication commute, so all of this holds for them. -/
theorem C81_float {K : Type} [Field K] [LinearOrder K] [IsStrictOrderedRing K] [FloorRing K] {p : ℕ} {emin : ℤ} (x y : Fl K p emin) :
    x + y = y + x ∧ x * y = y * x :=
  ⟨congrArg (Fl.of p emin) (add_comm _ _), congrArg (Fl.of p emin) (mul_comm _ _)⟩

/-- C81: the laws that need associativity do not survive: in `double`, `(A + B) + C` and `A + (B + C)`, `(A * B) * C` and
`A * (B * C)`, `A * (B + C)` and `A * B + A * C` differ already for matrices with one entry. -/
theorem C81_not_associative : ∃ A B C : Mat Double, A.WF ∧ B.WF ∧ C.WF ∧
    (add A.toMB B.toMB >>= fun X => add X.toMB C.toMB) ≠ (add B.toMB C.toMB >>= fun X => add A.toMB X.toMB) ∧
    (mul A.toMB B.toMB >>= fun X => mul X.toMB C.toMB) ≠ (mul B.toMB C.toMB >>= fun X => mul A.toMB X.toMB) ∧
    (add B.toMB C.toMB >>= fun X => mul A.toMB X.toMB) ≠
      (mul A.toMB B.toMB >>= fun X => mul A.toMB C.toMB >>= fun Y => add X.toMB Y.toMB) := by
  refine ⟨⟨1, 1, doubles [1/10]⟩, ⟨1, 1, doubles [1/10]⟩, ⟨1, 1, doubles [6/10]⟩, ⟨rfl, ?_, ?_, ?_⟩, ⟨rfl, ?_, ?_, ?_⟩, ⟨rfl, ?_, ?_, ?_⟩,
    ?_, ?_, ?_⟩ <;> decide +kernel

end Malg
