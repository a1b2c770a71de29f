import Verif.Lemmas.MathOps
import Verif.Lemmas.Utility
import Verif.Props.Arith
import Mathlib.Algebra.Order.Field.Basic
import Mathlib.Algebra.Order.Archimedean.Basic
import Mathlib.LinearAlgebra.Matrix.Trace
import Mathlib.Algebra.BigOperators.Intervals
import Mathlib.Tactic.Linarith
/-!
# Properties C41, C42, C44 – C47: reductions and functions of elements
-/
namespace Malg
open Ops
variable {T : Type}

/-! ## C41 -/

/-- C41: `sum(v)`. -/
theorem C41_sum [Zero T] [Add T] {v : List T} {n : Nat} {f : Nat → T} (hv : VRep v n f) :
    Ops.sum v = .ok (lsum n f) := by
  unfold Ops.sum
  rw [hv.2.1]
  exact accum_eq fun i acc hi => by rw [hv.get hi]; rfl

/-- C41: over a commutative monoid, the sum of the elements of `v`. -/
theorem C41_sum_list {K : Type} [AddCommMonoid K] (v : List K) : Ops.sum v = .ok v.sum := by
  unfold Ops.sum
  rw [forRange_eq (Nat.zero_le _) (fun k => (v.take k).sum)]
  · simp
  · simp
  · intro i _ hi
    rw [vget_lt hi, List.take_add_one, List.sum_append, List.getElem?_eq_getElem hi]
    simp

/-- C41, the part that holds for `trace`: matrices and views with at least as many columns as rows. Missing: more rows
than columns (`C41_trace_tall_false`). -/
theorem C41_trace_partial [Zero T] [Add T] {A : MB T} {n m : Nat} {e} (hA : RepAt A n m e) (h : n ≤ m) :
    trace A = .ok (lsum n fun i => e i i) := by
  unfold trace
  rw [hA.rows]
  exact accum_eq fun i acc hi => by rw [hA.get i i hi (by omega)]; rfl

/-- C41: for a square matrix, the trace. -/
theorem C41_trace_square_partial {K : Type} [AddCommMonoid K] {A : MB K} {n : Nat} {M : Matrix (Fin n) (Fin n) K}
    (hA : A.Is M) : trace A = .ok (Matrix.trace M) := by
  obtain ⟨e, hA, rfl⟩ := hA
  rw [C41_trace_partial hA.toRepAt (Nat.le_refl n), lsum_eq_sum]; rfl

/-- C41 is false for every matrix with more rows than columns: `trace` reads behind the storage. -/
theorem C41_trace_tall_false [Zero T] [Add T] {A : Mat T} (hA : A.WF) (h : A.cols < A.rows) :
    trace A.toMB = .ub .oob := by
  unfold trace
  have hidx : ∀ i, i < A.rows → A.idx i i = i * A.cols + i ∨ A.data.length ≤ A.idx i i := by
    intro i hi
    left
    have hW := hA.2.1
    have := allocMax_lt_W
    have h3 : i * A.cols + i < W := by
      have h4 := allocMax_eq
      have h5 := W_eq
      have : (i + 1) * A.cols ≤ A.rows * A.cols := Nat.mul_le_mul_right _ hi
      have h6 := hA.2.2.1
      by_cases hc : A.cols = 0
      · rw [hc]; omega
      · have : i * 1 ≤ i * A.cols := Nat.mul_le_mul_left _ (by omega)
        rw [Nat.add_mul] at *
        omega
    have h4 : i * A.cols < W := by omega
    show wadd (wmul i A.cols) i = _
    rw [wmul, Nat.mod_eq_of_lt h4, wadd, Nat.mod_eq_of_lt h3]
  refine forRange_ub (k := .oob) (j := A.rows - 1) (fun i s _ hi => ?_) (Nat.zero_le _)
    (show A.rows - 1 < A.toMB.rows by show _ < A.rows; omega) (fun s => ?_)
  · show (∃ s', (vget A.data (A.idx i i) >>= fun x => Res.ok (s + x)) = .ok s') ∨ _
    by_cases hlt : A.idx i i < A.data.length
    · left; rw [vget_lt hlt]; exact ⟨_, rfl⟩
    · right
      show (vget A.data (A.idx i i) >>= fun x => Res.ok (s + x)) = _
      rw [vget_ge (Nat.le_of_not_lt hlt)]; rfl
  · show (vget A.data (A.idx _ _) >>= fun x => Res.ok (s + x)) = _
    rw [vget_ge]
    · rfl
    · rcases hidx (A.rows - 1) (by omega) with h1 | h1
      · rw [h1, hA.1]
        obtain ⟨k, hk⟩ : ∃ k, A.rows = k + 1 := ⟨A.rows - 1, by omega⟩
        rw [hk, Nat.add_sub_cancel, Nat.add_mul]; omega
      · exact h1

example : trace (⟨3, 2, [1, 2, 3, 4, 5, 6]⟩ : Mat Int).toMB = .ub .oob := by decide +kernel
example : trace ((⟨3, 2, [1, 2, 3, 4, 5, 6]⟩ : Mat Int).toMB.view ⟨1, 3⟩ ⟨0, 2⟩) = .ok 9 := by decide +kernel

/-! ## C42 -/

/-- The search loop of `min` and `max`; `R x y` means that `x` is preferred to `y`. -/
theorem extreme_loop {n : Nat} {f : Nat → T} {R : T → T → Prop} [DecidableRel R] (irr : ∀ a, ¬ R a a)
    (trans : ∀ a b c, R a b → R b c → R a c) (cotrans : ∀ a b c, R a b → R a c ∨ R c b) (h0 : 0 < n)
    {body : Nat → Nat → Res Nat} (hb : ∀ i p, i < n → p < n → body i p = .ok (if R (f i) (f p) then i else p)) :
    ∃ p, forRange 1 n 0 body = .ok p ∧ p < n ∧ (∀ i, i < n → ¬ R (f i) (f p)) ∧ ∀ i, i < p → R (f p) (f i) := by
  obtain ⟨p, h1, h2⟩ := forRange_inv (lo := 1) (hi := n) h0 (fun k p => p < k ∧ (∀ i, i < k → ¬ R (f i) (f p)) ∧
      ∀ i, i < p → R (f p) (f i)) (s := 0) (body := body)
    ⟨by omega, fun i hi => by rw [show i = 0 by omega]; exact irr _, fun i hi => by omega⟩
    (by
      intro k p hk1 hk2 ⟨h1, h2, h3⟩
      rw [hb k p hk2 (by omega)]
      refine ⟨_, rfl, ?_⟩
      by_cases h : R (f k) (f p)
      · simp only [if_pos h]
        refine ⟨by omega, fun i hi h4 => ?_, fun i hi => ?_⟩
        · by_cases hik : i = k
          · exact irr _ (hik ▸ h4)
          · exact h2 i (by omega) (trans _ _ _ h4 h)
        · exact (cotrans _ _ (f i) h).resolve_right (h2 i hi)
      · simp only [if_neg h]
        refine ⟨by omega, fun i hi => ?_, h3⟩
        by_cases hik : i = k
        · exact hik ▸ h
        · exact h2 i (by omega))
  exact ⟨p, h1, h2.1, h2.2.1, h2.2.2⟩

section C42
variable {K : Type} [LinearOrder K]

theorem min_loop {n : Nat} {f : Nat → K} (h0 : 0 < n)
    {body : Nat → Nat → Res Nat} (hb : ∀ i p, i < n → p < n → body i p = .ok (if f i < f p then i else p)) :
    ∃ p, forRange 1 n 0 body = .ok p ∧ p < n ∧ (∀ i, i < n → f p ≤ f i) ∧ ∀ i, i < p → f p < f i := by
  obtain ⟨p, h1, h2, h3, h4⟩ := extreme_loop (R := fun a b : K => a < b) (f := f) (fun _ => lt_irrefl _)
    (fun _ _ _ => lt_trans) (fun a b c h => by
      rcases lt_or_ge a c with h' | h'
      · exact .inl h'
      · exact .inr (lt_of_le_of_lt h' h)) h0 hb
  exact ⟨p, h1, h2, fun i hi => not_lt.1 (h3 i hi), h4⟩

theorem max_loop {n : Nat} {f : Nat → K} (h0 : 0 < n)
    {body : Nat → Nat → Res Nat} (hb : ∀ i p, i < n → p < n → body i p = .ok (if f p < f i then i else p)) :
    ∃ p, forRange 1 n 0 body = .ok p ∧ p < n ∧ (∀ i, i < n → f i ≤ f p) ∧ ∀ i, i < p → f i < f p := by
  obtain ⟨p, h1, h2, h3, h4⟩ := extreme_loop (R := fun a b : K => b < a) (f := f) (fun _ => lt_irrefl _)
    (fun _ _ _ h h' => lt_trans h' h) (fun a b c h => by
      rcases lt_or_ge c a with h' | h'
      · exact .inl h'
      · exact .inr (lt_of_lt_of_le h h')) h0 hb
  exact ⟨p, h1, h2, fun i hi => not_lt.1 (h3 i hi), h4⟩

/-- C42: `min(v)` and `max(v)` of a non-empty vector: the extreme value and the first position where it occurs. -/
theorem C42_vector [Zero K] {v : List K} {n : Nat} {f : Nat → K} (hv : VRep v n f) (h0 : 0 < n) :
    (∃ p, vmin v = .ok (f p, p) ∧ p < n ∧ (∀ i, i < n → f p ≤ f i) ∧ ∀ i, i < p → f p < f i) ∧
    (∃ p, vmax v = .ok (f p, p) ∧ p < n ∧ (∀ i, i < n → f i ≤ f p) ∧ ∀ i, i < p → f i < f p) := by
  constructor
  · obtain ⟨p, h1, h2, h3⟩ := min_loop (f := f) h0 (body := fun i pos => do
      let x ← vget v i
      let y ← vget v pos
      return (if x < y then i else pos)) (fun i p hi hp => by rw [hv.get hi, hv.get hp]; rfl)
    refine ⟨p, ?_, h2, h3⟩
    unfold vmin
    rw [hv.2.1, if_neg (by omega), h1, Res.ok_bind, hv.get h2]; rfl
  · obtain ⟨p, h1, h2, h3⟩ := max_loop (f := f) h0 (body := fun i pos => do
      let x ← vget v i
      let y ← vget v pos
      return (if y < x then i else pos)) (fun i p hi hp => by rw [hv.get hi, hv.get hp]; rfl)
    refine ⟨p, ?_, h2, h3⟩
    unfold vmax
    rw [hv.2.1, if_neg (by omega), h1, Res.ok_bind, hv.get h2]; rfl

omit [LinearOrder K] in
theorem columnwise [Zero K] {m : Nat} {P : Nat → K → Prop} {body : Nat → Res K}
    (h : ∀ c, c < m → ∃ x, body c = .ok x ∧ P c x) (hm : m < allocMax) :
    ∃ g : Nat → K, (do
      let values ← vnew m (0 : K)
      forRange 0 m values fun c values => do
        let x ← body c
        vset values c x) = .ok (vtab m g) ∧ ∀ c, c < m → P c (g c) := by
  classical
  have h' : ∀ c, ∃ x, c < m → body c = .ok x ∧ P c x := fun c => by
    by_cases hc : c < m
    · exact (h c hc).imp fun _ h _ => h
    · exact ⟨0, fun h => absurd h hc⟩
  choose g hg using h'
  refine ⟨g, ?_, fun c hc => (hg c hc).2⟩
  rw [vnew_ok hm, Res.ok_bind]
  refine vfill_eq (by simp) (fun i f hi _ => ?_)
  rw [(hg i hi).1, Res.ok_bind, vset_vtab hi]

/-- C42: `min(A)` and `max(A)` of a matrix: for each column the extreme value. -/
theorem C42_matrix [Zero K] {A : Mat K} {n m : Nat} {e : Nat → Nat → K} (hA : A.Holds n m e) (h0 : 0 < n) (h1 : 0 < m) :
    (∃ g, ReturnsVec (mmin A) m g ∧ ∀ c, c < m → (∃ p, p < n ∧ g c = e p c) ∧ ∀ r, r < n → g c ≤ e r c) ∧
    (∃ g, ReturnsVec (mmax A) m g ∧ ∀ c, c < m → (∃ p, p < n ∧ g c = e p c) ∧ ∀ r, r < n → e r c ≤ g c) := by
  have hr : A.rows = n := hA.rep.rows
  have hc : A.cols = m := hA.rep.cols
  have hg : ∀ r c, r < n → c < m → A.at_ r c = .ok (e r c) := hA.rep.get
  have hm : m < allocMax := lt_of_le_of_lt (Nat.le_mul_of_pos_left m h0) hA.rep.fits.1
  have hemp : A.isEmpty = false := by simp [Mat.isEmpty, hr, hc]; omega
  constructor
  · obtain ⟨g, hg1, hg2⟩ := columnwise (m := m)
      (P := fun c x => (∃ p, p < n ∧ x = e p c) ∧ ∀ r, r < n → x ≤ e r c) (body := fun c => do
        let pos ← forRange 1 A.rows 0 fun r pos => do
          let x ← A.at_ r c
          let y ← A.at_ pos c
          return (if x < y then r else pos)
        A.at_ pos c) (fun c hc' => by
      obtain ⟨p, h1, h2, h3, -⟩ := min_loop (f := fun r => e r c) h0 (body := fun r pos => do
          let x ← A.at_ r c
          let y ← A.at_ pos c
          return (if x < y then r else pos)) (fun i p hi hp => by rw [hg i c hi hc', hg p c hp hc']; rfl)
      refine ⟨e p c, ?_, ⟨p, h2, rfl⟩, h3⟩
      rw [hr, h1, Res.ok_bind, hg p c h2 hc']) hm
    refine ⟨g, ReturnsVec.of_eq ?_, hg2⟩
    unfold mmin
    rw [hemp, hc]
    simpa only [bind_assoc, Bool.false_eq_true, if_false] using hg1
  · obtain ⟨g, hg1, hg2⟩ := columnwise (m := m)
      (P := fun c x => (∃ p, p < n ∧ x = e p c) ∧ ∀ r, r < n → e r c ≤ x) (body := fun c => do
        let pos ← forRange 1 A.rows 0 fun r pos => do
          let x ← A.at_ r c
          let y ← A.at_ pos c
          return (if y < x then r else pos)
        A.at_ pos c) (fun c hc' => by
      obtain ⟨p, h1, h2, h3, -⟩ := max_loop (f := fun r => e r c) h0 (body := fun r pos => do
          let x ← A.at_ r c
          let y ← A.at_ pos c
          return (if y < x then r else pos)) (fun i p hi hp => by rw [hg i c hi hc', hg p c hp hc']; rfl)
      refine ⟨e p c, ?_, ⟨p, h2, rfl⟩, h3⟩
      rw [hr, h1, Res.ok_bind, hg p c h2 hc']) hm
    refine ⟨g, ReturnsVec.of_eq ?_, hg2⟩
    unfold mmax
    rw [hemp, hc]
    simpa only [bind_assoc, Bool.false_eq_true, if_false] using hg1

/-- C42: empty arguments. -/
theorem C42_empty [Zero K] (A : Mat K) (h : A.rows = 0 ∨ A.cols = 0) :
    vmin ([] : List K) = .ok (0, 0) ∧ vmax ([] : List K) = .ok (0, 0) ∧ mmin A = .ok [] ∧ mmax A = .ok [] := by
  have : A.isEmpty = true := by simpa [Mat.isEmpty] using h
  refine ⟨rfl, rfl, ?_, ?_⟩
  · unfold mmin; rw [this]; rfl
  · unfold mmax; rw [this]; rfl

end C42

example : vmin [3, 1, 2, (1 : Int)] = .ok (1, 1) ∧ vmax [3, 1, 3, (1 : Int)] = .ok (3, 0) := by decide +kernel
example : mmax (⟨2, 2, [1, 7, 5, 2]⟩ : Mat Int) = .ok [5, 7] := by decide +kernel

/-! ## C44 -/

theorem accum2_eq {K : Type} [AddCommMonoid K] {n : Nat} {hi : Nat → Nat} {g : Nat → Nat → K} {lo : Nat}
    {body : Nat → Nat → K → Res K} (hlo : lo ≤ n)
    (h : ∀ i j acc, lo ≤ i → i < n → j < hi i → body i j acc = .ok (acc + g i j)) :
    forRange lo n 0 (fun i acc => forRange 0 (hi i) acc (body i)) =
      .ok (∑ i ∈ Finset.Ico lo n, ∑ j ∈ Finset.range (hi i), g i j) := by
  rw [forRange_eq hlo (fun k => ∑ i ∈ Finset.Ico lo k, ∑ j ∈ Finset.range (hi i), g i j)]
  · simp
  · intro i h1 h2
    rw [Finset.sum_Ico_succ_top h1]
    generalize (∑ i ∈ Finset.Ico lo i, ∑ j ∈ Finset.range (hi i), g i j) = S
    rw [forRange_eq (Nat.zero_le _) (fun k => S + ∑ j ∈ Finset.range k, g i j)]
    · simp
    · intro j _ hj
      rw [h i j _ h1 h2 hj, Finset.sum_range_succ, add_assoc]

/-- C44: `square_norm` of vectors, matrices and views takes the square root of the sum of the squares
(`sqrt` is the square root of the element type). -/
theorem C44_square_norm {K : Type} [NonUnitalNonAssocSemiring K] (sqrt : K → K) {v : List K} {p : Nat} {f}
    (hv : VRep v p f) {A : MB K} {n m : Nat} {e} (hA : RepAt A n m e) :
    squareNormVec sqrt v = .ok (sqrt (∑ i : Fin p, f i * f i)) ∧
    squareNorm sqrt A = .ok (sqrt (∑ i : Fin n, ∑ j : Fin m, e i j * e i j)) := by
  constructor
  · unfold squareNormVec
    rw [hv.2.1, accum_eq (g := fun i => f i * f i) (fun i acc hi => by rw [hv.get hi]; rfl), lsum_eq_sum]; rfl
  · unfold squareNorm
    rw [hA.rows, hA.cols, accum2_eq (g := fun i j => e i j * e i j) (hi := fun _ => m) (Nat.zero_le _)
      (fun i j acc _ hi hj => by rw [hA.get i j hi hj]; rfl)]
    rw [Finset.sum_fin_eq_sum_range, ← Finset.range_eq_Ico]
    show Res.ok _ = _
    congr 2
    apply Finset.sum_congr rfl; intro i hi
    rw [dif_pos (Finset.mem_range.1 hi), Finset.sum_fin_eq_sum_range]
    apply Finset.sum_congr rfl; intro j hj
    rw [dif_pos (Finset.mem_range.1 hj)]

/-- C44: `vector_length(A, c, s, t)` is the square root of the sum of the squares of column `c` over the rows from `s` up
to `t`, as far as there are any. -/
theorem C44_vector_length {K : Type} [NonUnitalNonAssocSemiring K] (sqrt : K → K) {A : MB K} {n m : Nat} {e}
    (hA : RepAt A n m e) {c : Nat} (hc : c < m) (s t : Nat) :
    vectorLength sqrt A c s t = .ok (sqrt (∑ r ∈ Finset.range n with s ≤ r ∧ r < t, e r c * e r c)) := by
  have hset : (Finset.range n).filter (fun r => s ≤ r ∧ r < t) = Finset.Ico s (min t n) := by
    ext r; simp only [Finset.mem_filter, Finset.mem_range, Finset.mem_Ico]; omega
  rw [hset]
  unfold vectorLength
  rw [hA.rows]
  by_cases h : s ≤ min t n
  · rw [forRange_eq h (fun k => ∑ r ∈ Finset.Ico s k, e r c * e r c)]
    · rfl
    · simp
    · intro r h1 h2
      rw [hA.get r c (by omega) hc, Res.ok_bind, Finset.sum_Ico_succ_top h1]; rfl
  · rw [forRange_ge (by omega), Finset.Ico_eq_empty (by omega)]; rfl

example : vectorLength id (⟨3, 2, [1, 2, 3, 4, 5, 6]⟩ : Mat ℚ).toMB 1 1 9 = .ok 52 := by decide +kernel

section C44
variable {K : Type} [Field K] [LinearOrder K] [IsStrictOrderedRing K]

omit [IsStrictOrderedRing K] in
/-- C44: `infinity_norm` of a vector is 0 if it is empty and otherwise the largest absolute value. -/
theorem C44_inf_vector {v : List K} {n : Nat} {f} (hv : VRep v n f) :
    (n = 0 → infNormVec (|·|) v = .ok 0) ∧
    (0 < n → ∃ x, infNormVec (|·|) v = .ok x ∧ (∃ i, i < n ∧ x = |f i|) ∧ ∀ i, i < n → |f i| ≤ x) := by
  unfold infNormVec
  rw [hv.2.1]
  refine ⟨fun h => if_pos h, fun h => ?_⟩
  rw [if_neg (by omega), hv.get h, Res.ok_bind]
  obtain ⟨x, h1, h2⟩ := forRange_inv (lo := 1) (hi := n) h
    (fun k (x : K) => (∃ i, i < k ∧ x = |f i|) ∧ ∀ i, i < k → |f i| ≤ x) (s := |f 0|) (body := fun i max => do
      let x ← vget v i
      let tmp := |x|
      return (if max < tmp then tmp else max))
    ⟨⟨0, by omega, rfl⟩, fun i hi => by rw [show i = 0 by omega]⟩
    (by
      rintro k x hk1 hk2 ⟨⟨i, hi, rfl⟩, h2⟩
      rw [hv.get hk2]
      refine ⟨_, rfl, ?_⟩
      by_cases hlt : |f i| < |f k|
      · simp only [if_pos hlt]
        refine ⟨⟨k, by omega, rfl⟩, fun j hj => ?_⟩
        by_cases hjk : j = k
        · rw [hjk]
        · exact (h2 j (by omega)).trans hlt.le
      · simp only [if_neg hlt]
        refine ⟨⟨i, by omega, rfl⟩, fun j hj => ?_⟩
        by_cases hjk : j = k
        · rw [hjk]; exact not_lt.1 hlt
        · exact h2 j (by omega))
  exact ⟨x, h1, h2⟩

/-- The loop of `infinity_norm` on a matrix-like object that does not call itself empty. -/
theorem infNorm_eq {R : Type} {abs : R → K} (habs : ∀ x, 0 ≤ abs x) {A : MB R} {n m : Nat} {e} (hA : RepAt A n m e)
    (h0 : 0 < n) (hne : A.empty = false) :
    ∃ x, infNorm abs A = .ok x ∧ (∃ i, i < n ∧ x = ∑ j : Fin m, abs (e i j)) ∧
      ∀ i, i < n → ∑ j : Fin m, abs (e i j) ≤ x := by
  unfold infNorm
  rw [hne, hA.rows, hA.cols]
  have hpos : ∀ i, 0 ≤ ∑ j : Fin m, abs (e i j) := fun i => Finset.sum_nonneg fun j _ => habs _
  obtain ⟨x, h1, h2⟩ := forRange_inv (lo := 0) (hi := n) (Nat.zero_le n)
    (fun k (x : K) => (if k = 0 then x = 0 else ∃ i, i < k ∧ x = ∑ j : Fin m, abs (e i j)) ∧
      ∀ i, i < k → ∑ j : Fin m, abs (e i j) ≤ x) (s := 0) (body := fun r max' => do
      let accum ← forRange 0 m (0 : K) fun c accum => do
        let x ← A.at_ r c
        return accum + abs x
      return max max' accum)
    ⟨by simp, fun i hi => by omega⟩
    (by
      rintro k x - hk ⟨h1, h2⟩
      rw [accum_eq (g := fun c => abs (e k c)) (fun c acc hc => by rw [hA.get k c hk hc]; rfl), Res.ok_bind, lsum_eq_sum]
      refine ⟨_, rfl, ?_, fun i hi => ?_⟩
      · rw [if_neg (by omega)]
        rcases le_total x (∑ j : Fin m, abs (e k j)) with h | h
        · exact ⟨k, by omega, max_eq_right h⟩
        · rw [max_eq_left h]
          by_cases hk0 : k = 0
          · rw [if_pos hk0] at h1
            subst hk0
            exact ⟨0, by omega, h1.trans (le_antisymm (hpos 0) (h1 ▸ h))⟩
          · rw [if_neg hk0] at h1
            obtain ⟨i, hi, h1⟩ := h1
            exact ⟨i, by omega, h1⟩
      · by_cases hik : i = k
        · rw [hik]; exact le_max_right _ _
        · exact (h2 i (by omega)).trans (le_max_left _ _))
  rw [if_neg (by omega)] at h2
  exact ⟨x, h1, h2⟩

/-- C44, the part that holds for `infinity_norm` of a matrix: for `Matrix` objects, also of complex elements, it is the
largest absolute row sum, and 0 for an empty one. Missing: views (`C44_view_false`). -/
theorem C44_inf_matrix_partial {R : Type} {abs : R → K} (habs : ∀ x, 0 ≤ abs x) {A : Mat R} {n m : Nat} {e}
    (hA : A.Holds n m e) :
    (n = 0 ∨ m = 0 → infNorm abs A.toMB = .ok 0) ∧
    (0 < n → 0 < m → ∃ x, infNorm abs A.toMB = .ok x ∧ (∃ i, i < n ∧ x = ∑ j : Fin m, abs (e i j)) ∧
      ∀ i, i < n → ∑ j : Fin m, abs (e i j) ≤ x) := by
  have hr : A.rows = n := hA.rep.rows
  have hc : A.cols = m := hA.rep.cols
  constructor
  · intro h
    have : A.toMB.empty = true := by simpa [Mat.toMB, Mat.isEmpty, hr, hc] using h
    unfold infNorm; rw [this]; rfl
  · intro h1 h2
    exact infNorm_eq habs hA.rep.toRepAt h1 (by simp [Mat.toMB, Mat.isEmpty, hr, hc]; omega)

/-- C44, the part that holds for `sub_norm`: square `Matrix` objects; non-square ones throw. Missing: views. -/
theorem C44_sub_norm_partial {R : Type} [NonUnitalNonAssocSemiring R] (sqrt : R → R) {A : Mat R} {n m : Nat} {e}
    (hA : A.Holds n m e) :
    (0 < n → n = m → subNorm sqrt A.toMB = .ok (sqrt (∑ i ∈ Finset.range n, ∑ j ∈ Finset.range i, e i j * e i j))) ∧
    (0 < n → 0 < m → n ≠ m → subNorm sqrt A.toMB = .throw .invalidArgument) ∧
    (n = 0 ∨ m = 0 → subNorm sqrt A.toMB = .ok 0) := by
  have hr : A.rows = n := hA.rep.rows
  have hc : A.cols = m := hA.rep.cols
  unfold subNorm
  have hsq : Util.isSquare A.toMB = decide (n = m) := by
    simp [Util.isSquare, Mat.toMB, hr, hc]; rfl
  refine ⟨?_, ?_, ?_⟩
  · rintro h0 rfl
    have : A.toMB.empty = false := by simp [Mat.toMB, Mat.isEmpty, hr, hc]; omega
    rw [this, hsq, hA.rep.rows]
    simp only [decide_true, Bool.not_true, Bool.false_eq_true, if_false]
    rw [accum2_eq (g := fun i j => e i j * e i j) (hi := fun i => i) (by omega)
      (fun i j acc _ hi hj => by rw [hA.rep.get i j hi (by omega)]; rfl)]
    show Res.ok _ = _
    congr 2
    rw [Finset.range_eq_Ico, Finset.sum_eq_sum_Ico_succ_bot h0]
    simp
  · intro h0 h1 hne
    have : A.toMB.empty = false := by simp [Mat.toMB, Mat.isEmpty, hr, hc]; omega
    rw [this, hsq, decide_eq_false hne]; rfl
  · intro h
    have : A.toMB.empty = true := by simpa [Mat.toMB, Mat.isEmpty, hr, hc] using h
    rw [this]; rfl

end C44

/-- C44 is false for views: a view always calls itself empty, so both norms return 0, and `sub_norm` accepts a
non-square view. -/
theorem C44_view_false {R K : Type} [Zero K] [Add K] [Max K] (abs : R → K) (b : MB R) (r c : Range) [Zero R] [Add R]
    [Mul R] (sqrt : R → R) : infNorm abs (b.view r c) = .ok 0 ∧ subNorm sqrt (b.view r c) = .ok 0 := ⟨rfl, rfl⟩

example : infNorm (|·|) (⟨1, 2, [3, -4]⟩ : Mat ℚ).toMB = .ok 7 ∧
    infNorm (|·|) ((⟨1, 2, [3, -4]⟩ : Mat ℚ).toMB.view Range.all Range.all) = .ok 0 := by decide +kernel

/-! ## C45 -/

section C45
variable {K : Type} [Field K] [LinearOrder K] [IsStrictOrderedRing K] [Archimedean K]

/-- C45, what `log2_ceil` computes from the value of `infinity_norm`: it terminates with the least number of
halvings. -/
theorem C45_halvings {R : Type} {abs : R → K} {A : MB R} {x : K} (hx : infNorm abs A = .ok x) :
    ∃ k N, (∀ fuel, N ≤ fuel → log2Ceil abs (1/2) A fuel = .ok (k, (1/2) ^ k)) ∧ x * (1/2) ^ k ≤ 1 ∧
      ∀ j, j < k → 1 < x * (1/2) ^ j := by
  classical
  have hex : ∃ k, x * (1/2 : K) ^ k ≤ 1 := by
    obtain ⟨k, hk⟩ := pow_unbounded_of_one_lt x (one_lt_two (α := K))
    refine ⟨k, ?_⟩
    rw [one_div, inv_pow, ← div_eq_mul_inv, div_le_one (by positivity)]
    exact hk.le
  let k := Nat.find hex
  have hk : x * (1/2) ^ k ≤ 1 := Nat.find_spec hex
  have hmin : ∀ j, j < k → 1 < x * (1/2) ^ j := fun j hj => not_le.1 (Nat.find_min hex hj)
  refine ⟨k, k + 1, fun fuel hf => ?_, hk, hmin⟩
  unfold log2Ceil
  rw [hx, Res.ok_bind]
  have : ∀ d j fuel, j + d = k → d + 1 ≤ fuel → whileFuel (fun (p : Nat × K) =>
      if 1 < x * p.2 then .ok (some (p.1 + 1, p.2 * (1/2))) else .ok none) fuel (j, (1/2) ^ j) =
      .ok (k, (1/2) ^ k) := by
    intro d
    induction d with
    | zero =>
      intro j fuel hj hf
      obtain ⟨f, rfl⟩ : ∃ f, fuel = f + 1 := ⟨fuel - 1, by omega⟩
      obtain rfl : j = k := by omega
      exact whileFuel_none (by dsimp only; rw [if_neg (not_lt.2 hk)]) f
    | succ d ih =>
      intro j fuel hj hf
      obtain ⟨f, rfl⟩ : ∃ f, fuel = f + 1 := ⟨fuel - 1, by omega⟩
      rw [whileFuel_some (s' := (j + 1, (1/2) ^ (j + 1))) _ f]
      · exact ih (j + 1) f (by omega) (by omega)
      · rw [if_pos (hmin j (by omega)), pow_succ]
  have h := this k 0 fuel (by omega) hf
  rwa [pow_zero] at h

/-- C45, the part that holds: for `Matrix` objects, with the true norm (the largest absolute row sum).
Missing: views (`C45_view_false`). -/
theorem C45_matrix_partial {R : Type} {abs : R → K} (habs : ∀ x, 0 ≤ abs x) {A : Mat R} {n m : Nat} {e}
    (hA : A.Holds n m e) (h0 : 0 < n) (h1 : 0 < m) :
    ∃ x : K, ((∃ i, i < n ∧ x = ∑ j : Fin m, abs (e i j)) ∧ ∀ i, i < n → ∑ j : Fin m, abs (e i j) ≤ x) ∧
      ∃ k N, (∀ fuel, N ≤ fuel → log2Ceil abs (1/2) A.toMB fuel = .ok (k, (1/2) ^ k)) ∧ x * (1/2) ^ k ≤ 1 ∧
        ∀ j, j < k → 1 < x * (1/2) ^ j := by
  obtain ⟨x, hx, h2⟩ := (C44_inf_matrix_partial habs hA).2 h0 h1
  exact ⟨x, h2, C45_halvings hx⟩

end C45

/-- C45 is false for views: the view of `[8]` gives no halving, the matrix gives 3. -/
theorem C45_view_false : log2Ceil (|·|) (1/2 : ℚ) (⟨1, 1, [8]⟩ : Mat ℚ).toMB 9 = .ok (3, 1/8) ∧
    ∀ fuel, log2Ceil (|·|) (1/2 : ℚ) ((⟨1, 1, [8]⟩ : Mat ℚ).toMB.view Range.all Range.all) (fuel + 1) = .ok (0, 1) := by
  refine ⟨by decide +kernel, fun fuel => ?_⟩
  show whileFuel _ _ _ = _
  exact whileFuel_none (by dsimp only; rw [if_neg (by norm_num)]) fuel

/-! ## C46 -/

/-- C46, what really happens: on a vector the result is the converted argument, on a matrix it is all zeros; the
function has no influence. Only the shape is as claimed. Missing: the entries (`C46_false`). -/
theorem C46_shape_partial {R T₂ : Type} [Zero R] (conv : T → R) (fn : R → T₂) {a : List T} {p : Nat} {f}
    (ha : VRep a p f) {A : MB T} (hA : Fits A.rows A.cols) :
    ReturnsVec (mapFnVec conv fn a) p (fun i => conv (f i)) ∧
    Returns (mapFnMat fn A) A.rows A.cols (fun _ _ => (0 : R)) := by
  constructor
  · apply ReturnsVec.of_eq
    unfold mapFnVec
    rw [ha.2.1, vnew_ok ha.1, Res.ok_bind, vfill_eq (e := fun i => conv (f i)) (n := p) (by simp) (fun i g hi _ => by
      rw [ha.get hi, Res.ok_bind, vset_vtab hi]), Res.ok_bind]
    rw [forRange_eq (Nat.zero_le _) (fun _ => vtab p fun i => conv (f i)) rfl]
    intro i _ hi
    rw [vget_lt hi]; rfl
  · apply Returns.of_eq hA
    unfold mapFnMat
    rw [Mat.new_eq hA, Res.ok_bind]
    rw [forRange_eq (Nat.zero_le _) (fun _ => Mat.ofFn A.rows A.cols fun _ _ => (0 : R)) rfl]
    intro i _ hi
    rw [vget_lt hi]; rfl

/-- C46 is false: `abs` of a vector returns its argument, `abs` of a matrix returns zeros. -/
theorem C46_false : mapFnVec id (fun x : Int => |x|) [-1, 2] = .ok [-1, 2] ∧
    mapFnMat (fun x : Int => |x|) (⟨1, 2, [-1, 2]⟩ : Mat Int).toMB = .ok ⟨1, 2, [0, 0]⟩ := by decide +kernel

/-! ## C47 -/

/-- C47: `element_wise_binary_function` applies the function entry by entry and throws on a mismatch. -/
theorem C47_binary {T₁ T₂ R : Type} [Zero R] (fn : T₁ → T₂ → R) :
    (∀ {A : MB T₁} {B : MB T₂} {n m e f}, Rep A n m e → Rep B n m f →
      Returns (binFnMat fn A B) n m (fun i j => fn (e i j) (f i j))) ∧
    (∀ {a : List T₁} {b : List T₂} {n f g}, VRep a n f → VRep b n g → ReturnsVec (binFnVec fn a b) n (fun i => fn (f i) (g i))) ∧
    (∀ {A : MB T₁} {B : MB T₂}, A.rows ≠ B.rows ∨ A.cols ≠ B.cols → binFnMat fn A B = .throw .invalidArgument) ∧
    (∀ {a : List T₁} {b : List T₂}, a.length ≠ b.length → binFnVec fn a b = .throw .invalidArgument) :=
  ⟨fun hA hB => Returns.of_eq hA.fits (zipMat_eq hA hB fun _ _ _ _ => rfl),
   fun ha hb => ReturnsVec.of_eq (zipVec_eq ha hb fun _ _ => rfl), fun h => zipMat_throw h, fun h => if_pos h⟩

/-- C47, the part that holds for `element_wise_product` and `linear_combination`: both matrices have the same element
type. Missing: mixed element types (`C47_mixed_false`). -/
theorem C47_product_partial [Zero T] [Add T] [Mul T] {A B : MB T} {n m : Nat} {e f} (hA : Rep A n m e) (hB : Rep B n m f)
    (a b : T) : Returns (ewProduct id id A B) n m (fun i j => e i j * f i j) ∧
      Returns (linComb id id A a B b) n m (fun i j => e i j * a + f i j * b) :=
  ⟨(C47_binary _).1 hA hB, (C47_binary _).1 hA hB⟩

/-- C47 over a field: `linear_combination(A, a, B, b)` is `a A + b B`. -/
theorem C47_linear_partial {K : Type} [CommRing K] {A B : MB K} {n m : Nat} {M N : Matrix (Fin n) (Fin m) K}
    (hA : A.Is M) (hB : B.Is N) (a b : K) : Yields (linComb id id A a B b) (a • M + b • N) := by
  obtain ⟨e, hA, rfl⟩ := hA
  obtain ⟨f, hB, rfl⟩ := hB
  refine (C47_product_partial hA hB a b).2.yields.congr ?_
  funext i j
  show e i j * a + f i j * b = a * e i j + b * f i j
  rw [mul_comm, mul_comm b]

/-- C47 is false for mixed element types: `element_wise_product` of an integer matrix and a real one truncates the real
entries first (`3 * 1.5` gives 3), and so does `linear_combination`. -/
theorem C47_mixed_false :
    ewProduct (T₁ := Int) (T₂ := ℚ) (R := ℚ) (fun q => q.num.tdiv q.den) (fun i => i) (⟨1, 1, [3]⟩ : Mat Int).toMB
      (⟨1, 1, [3/2]⟩ : Mat ℚ).toMB = .ok ⟨1, 1, [3]⟩ ∧
    linComb (T₁ := Int) (T₂ := ℚ) (R := ℚ) (fun q => q.num.tdiv q.den) (fun i => i) (⟨1, 1, [3]⟩ : Mat Int).toMB 1
      (⟨1, 1, [3/2]⟩ : Mat ℚ).toMB 1 = .ok ⟨1, 1, [4]⟩ := by decide +kernel

example : binFnMat (fun (x : Int) (y : Nat) => x - y) (⟨1, 2, [5, 6]⟩ : Mat Int).toMB (⟨1, 2, [1, 2]⟩ : Mat Nat).toMB =
    .ok ⟨1, 2, [4, 4]⟩ := by decide +kernel

end Malg
