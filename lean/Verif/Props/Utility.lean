import Verif.Lemmas.Utility
import Verif.Model.Field
import Verif.Props.View
import Mathlib.Algebra.Order.Field.Basic
import Mathlib.Data.List.Basic
import Mathlib.Algebra.BigOperators.Group.List.Basic
import Mathlib.Data.Nat.Cast.Order.Ring
import Mathlib.Tactic.FieldSimp
import Mathlib.Tactic.Ring
/-!
# Properties C20 – C32: `utility.hpp`
-/
namespace Malg
variable {T : Type}
open Util

/-! ## C20 -/

/-- C20: `eye(r, c, v)`. -/
theorem C20_eye [Zero T] {n m : Nat} (hn : 0 < n) (hm : 0 < m) (hf : Fits n m) (v : T) :
    Returns (eye n m v) n m (fun r c => if r = c then v else 0) := Returns.of_eq hf (eye_eq hn hm hf v)

/-- C20: `identity(n, v)`. -/
theorem C20_identity [Zero T] {n : Nat} (hn : 0 < n) (hf : Fits n n) (v : T) :
    Returns (identity n v) n n (fun r c => if r = c then v else 0) := C20_eye hn hn hf v

/-- C20: `zeros` and `ones`, matrices and vectors. -/
theorem C20_constant [Zero T] [One T] {n m : Nat} (hn : 0 < n) (hm : 0 < m) (hf : Fits n m) (ha : n < allocMax) :
    Returns (zeros n m : Res (Mat T)) n m (fun _ _ => 0) ∧ Returns (ones n m : Res (Mat T)) n m (fun _ _ => 1) ∧
    ReturnsVec (zerosVec n : Res (List T)) n (fun _ => 0) ∧ ReturnsVec (onesVec n : Res (List T)) n (fun _ => 1) := by
  refine ⟨Returns.of_eq hf ?_, Returns.of_eq hf ?_, ReturnsVec.of_eq ?_, ReturnsVec.of_eq ?_⟩
  · unfold zeros; rw [if_neg (by omega), if_neg (by omega), Mat.new_eq hf]
  · unfold ones; rw [if_neg (by omega), if_neg (by omega), Mat.new_eq hf]
  · unfold zerosVec; rw [if_neg (by omega), vnew_ok ha, replicate_eq_vtab]
  · unfold onesVec; rw [if_neg (by omega), vnew_ok ha, replicate_eq_vtab]

/-- C20: a zero dimension throws. -/
theorem C20_zero_dimension [Zero T] [One T] (n : Nat) (v : T) :
    eye 0 n v = .throw .invalidArgument ∧ eye n 0 v = .throw .invalidArgument ∧
    (zeros 0 n : Res (Mat T)) = .throw .invalidArgument ∧ (zeros n 0 : Res (Mat T)) = .throw .invalidArgument ∧
    (ones 0 n : Res (Mat T)) = .throw .invalidArgument ∧ (ones n 0 : Res (Mat T)) = .throw .invalidArgument ∧
    identity 0 v = .throw .invalidArgument ∧
    (zerosVec 0 : Res (List T)) = .throw .invalidArgument ∧ (onesVec 0 : Res (List T)) = .throw .invalidArgument := by
  simp [eye, identity, zeros, ones, zerosVec, onesVec]

example : eye 2 3 (7 : Int) = .ok ⟨2, 3, [7, 0, 0, 0, 7, 0]⟩ := by decide +kernel

/-! ## C21 -/

/-- C21: `diag(A)` is the main diagonal, for any shape. -/
theorem C21_diag [Zero T] {b : MB T} {n m : Nat} {e} (h : RepAt b n m e) (hlt : min n m < allocMax) :
    ReturnsVec (diagOf b) (min n m) (fun i => e i i) := ReturnsVec.of_eq (diagOf_eq h hlt)

/-- C21: `diag(v)` is the diagonal matrix, and `diag(diag(v)) = v`. -/
theorem C21_diag_diag [Zero T] {a : List T} {n : Nat} {f} (h : VRep a n f) (hf : Fits n n) :
    Returns (diagMat a) n n (fun r c => if r = c then f r else 0) ∧
    (diagMat a >>= fun A => diagOf A.toMB) = .ok a := by
  refine ⟨Returns.of_eq hf (diagMat_eq h hf), ?_⟩
  rw [diagMat_eq h hf, Res.ok_bind, diagOf_eq (ofFn_rep hf _).toRepAt (by rw [Nat.min_self]; exact h.1), Nat.min_self, h.eq]
  congr 1; apply vtab_congr; intro i _; simp

/-- C21: `to_vector(to_matrix(v, b)) = v`, and `to_matrix` makes a row or a column. -/
theorem C21_to_matrix_to_vector [Zero T] {a : List T} {n : Nat} {f} (h : VRep a n f) (row : Bool) :
    (toMatrix a row >>= toVector) = .ok a ∧
    Returns (toMatrix a true) 1 n (fun _ c => f c) ∧ Returns (toMatrix a false) n 1 (fun r _ => f r) := by
  have hW : n < W := lt_trans h.1 allocMax_lt_W
  have hf1 : Fits 1 n := ⟨by rw [Nat.one_mul]; exact h.1, one_lt_W, hW⟩
  refine ⟨?_, Returns.of_eq hf1 (by rw [toMatrix_eq h hW]; rfl),
    Returns.of_eq hf1.symm (by rw [toMatrix_eq h hW]; rfl)⟩
  rw [toMatrix_eq h hW, Res.ok_bind]
  cases row with
  | true =>
    simp only [if_true]
    rw [toVector_eq (ofFn_rep hf1 _), Nat.one_mul, h.eq]
    congr 1; apply vtab_congr; intro i hi; rw [Nat.mod_eq_of_lt hi]
  | false =>
    simp only [Bool.false_eq_true, if_false]
    rw [toVector_eq (ofFn_rep hf1.symm _), Nat.mul_one, h.eq]
    congr 1; apply vtab_congr; intro i hi; rw [Nat.div_one]

/-- C21: `ravel` lists the entries row by row (also of views), `to_vector` agrees. -/
theorem C21_ravel [Zero T] {b : MB T} {n m : Nat} {e} (h : Rep b n m e) :
    ReturnsVec (ravel b) (n * m) (fun i => e (i / m) (i % m)) := ReturnsVec.of_eq (ravel_eq h)

theorem C21_ravel_to_vector [Zero T] {A : Mat T} {n m : Nat} {e} (h : A.Holds n m e) :
    toVector A = ravel A.toMB ∧ toVector A = .ok A.data := by
  refine ⟨(toVector_eq h.rep).trans (ravel_eq h.rep).symm, ?_⟩
  rw [toVector_eq h.rep, h.eq]; rfl

example : VRep [(3 : Int), 1, 2] 3 (fun i => [(3 : Int), 1, 2].getD i 0) :=
  ⟨by decide +kernel, rfl, by decide⟩
example : ravel ((⟨2, 3, [1, 2, 3, 4, 5, 6]⟩ : Mat Int).toMB.view ⟨0, 2⟩ ⟨1, 3⟩) = .ok [2, 3, 5, 6] := by
  decide +kernel

/-! ## C22 -/

/-- C22: `vstack(A,B)` is `A` above `B`; different column counts throw. -/
theorem C22_vstack [Zero T] {A B : MB T} {n k m : Nat} {e f} (hA : RepAt A n m e) (hB : RepAt B k m f)
    (hf : Fits (n + k) m) :
    Returns (vstack A B) (n + k) m (fun r c => if r < n then e r c else f (r - n) c) :=
  Returns.of_eq hf (vstack_eq hA hB hf)

/-- C22: `hstack(A,B)` is `A` left of `B`. -/
theorem C22_hstack [Zero T] {A B : MB T} {n m k : Nat} {e f} (hA : RepAt A n m e) (hB : RepAt B n k f)
    (hf : Fits n (m + k)) :
    Returns (hstack A B) n (m + k) (fun r c => if c < m then e r c else f r (c - m)) :=
  Returns.of_eq hf (hstack_eq hA hB hf)

/-- C22: a mismatch throws. -/
theorem C22_mismatch [Zero T] (A B : MB T) :
    (A.cols ≠ B.cols → vstack A B = .throw .invalidArgument) ∧
    (A.rows ≠ B.rows → hstack A B = .throw .invalidArgument) :=
  ⟨fun h => if_pos h, fun h => if_pos h⟩

/-- C22: `concatenate`. -/
theorem C22_concatenate [Zero T] {a b : List T} (h : a.length + b.length < allocMax) :
    concatenate a b = .ok (a ++ b) := concatenate_eq h

example : vstack (⟨1, 2, [1, 2]⟩ : Mat Int).toMB (⟨2, 2, [3, 4, 5, 6]⟩ : Mat Int).toMB =
    .ok ⟨3, 2, [1, 2, 3, 4, 5, 6]⟩ := by decide +kernel
example : hstack (⟨2, 1, [1, 2]⟩ : Mat Int).toMB (⟨2, 2, [3, 4, 5, 6]⟩ : Mat Int).toMB =
    .ok ⟨2, 3, [1, 3, 4, 2, 5, 6]⟩ := by decide +kernel
example : concatenate [(1 : Int)] [2, 3] = .ok [1, 2, 3] := by decide +kernel

/-! ## C23 -/

/-- C23: `extract` returns the selected block, clamped. -/
theorem C23_extract [Zero T] {b : MB T} {n m : Nat} {e} (h : RepAt b n m e) {sr er sc ec : Nat}
    (h1 : sr < er) (h2 : sc < ec) (h3 : sr ≤ n) (h4 : sc ≤ m) :
    Returns (extract b sr er sc ec) (min n er - sr) (min m ec - sc) (fun r c => e (sr + r) (sc + c)) :=
  Returns.of_eq (h.fits.mono (by omega) (by omega)) (extract_eq h h1 h2 h3 h4)

/-- C23: `extract_column` and `extract_row`. -/
theorem C23_extract_column_row [Zero T] {b : MB T} {n m : Nat} {e} (h : RepAt b n m e) (ha : n < allocMax)
    (hb : m < allocMax) {i s t : Nat} (h1 : s < t) :
    (i < m → s ≤ n → ReturnsVec (extractColumn b i s t) (min n t - s) (fun r => e (s + r) i)) ∧
    (i < n → s ≤ m → ReturnsVec (extractRow b i s t) (min m t - s) (fun c => e i (s + c))) :=
  ⟨fun h2 h3 => ReturnsVec.of_eq (extractColumn_eq h h1 h2 h3 ha),
   fun h2 h3 => ReturnsVec.of_eq (extractRow_eq h h1 h2 h3 hb)⟩

/-- C23: empty ranges and fixed indices out of range throw. -/
theorem C23_errors [Zero T] (b : MB T) (sr er sc ec i : Nat) :
    (er ≤ sr ∨ ec ≤ sc → extract b sr er sc ec = .throw .invalidArgument) ∧
    (er ≤ sr ∨ b.cols ≤ i → extractColumn b i sr er = .throw .invalidArgument) ∧
    (ec ≤ sc ∨ b.rows ≤ i → extractRow b i sc ec = .throw .invalidArgument) := by
  refine ⟨fun h => ?_, fun h => ?_, fun h => ?_⟩
  · unfold extract
    by_cases h1 : sr ≥ er
    · rw [if_pos h1]
    · rw [if_neg h1, if_pos (by omega)]
  · unfold extractColumn
    by_cases h1 : sr ≥ er
    · rw [if_pos h1]
    · rw [if_neg h1, if_pos (by omega)]
  · unfold extractRow
    by_cases h1 : i ≥ b.rows
    · rw [if_pos h1]
    · rw [if_neg h1, if_pos (by omega)]

example : extract (⟨2, 3, [1, 2, 3, 4, 5, 6]⟩ : Mat Int).toMB 0 9 1 3 = .ok ⟨2, 2, [2, 3, 5, 6]⟩ := by
  decide +kernel
example : extractColumn (⟨2, 3, [1, 2, 3, 4, 5, 6]⟩ : Mat Int).toMB 2 0 9 = .ok [3, 6] := by decide +kernel

/-! ## C24 -/

/-- C24: `swap_rows` on a matrix or view exchanges two rows within `[lo, hi)` and changes nothing else. -/
theorem C24_swap_rows {v N M n k : Nat} {m : MRef (Store T) T} {ρ κ} (hm : ViewChain v N M m n k ρ κ)
    {s : Store T} {e} (he : (s v).Holds N M e) {i j : Nat} (hi : i < n) (hj : j < n) (lo hi' : Nat) :
    ∃ s', swapRows m s i j lo hi' = .ok s' ∧ Overwritten s s' v N M e n k ρ κ (fun r c =>
      if lo ≤ c ∧ c < hi' then e (ρ (if r = i then j else if r = j then i else r)) (κ c) else e (ρ r) (κ c)) := by
  have h := (hm.on he.fits).1
  refine ⟨_, swapRows_eq h he hi hj lo hi', ?_⟩
  have := putOn_overwritten h he.fits s e (swapR (fun r c => e (ρ r) (κ c)) i j lo (min hi' k))
  obtain ⟨E, h1, h2, h3, h4⟩ := this
  refine ⟨E, h1, fun r c hr hc => ?_, h3, h4⟩
  rw [h2 r c hr hc]
  simp only [swapR]
  apply if_congr _ rfl rfl; omega

/-- C24: `swap_cols` likewise. -/
theorem C24_swap_cols {v N M n k : Nat} {m : MRef (Store T) T} {ρ κ} (hm : ViewChain v N M m n k ρ κ)
    {s : Store T} {e} (he : (s v).Holds N M e) {i j : Nat} (hi : i < k) (hj : j < k) (lo hi' : Nat) :
    ∃ s', swapCols m s i j lo hi' = .ok s' ∧ Overwritten s s' v N M e n k ρ κ (fun r c =>
      if lo ≤ r ∧ r < hi' then e (ρ r) (κ (if c = i then j else if c = j then i else c)) else e (ρ r) (κ c)) := by
  have h := (hm.on he.fits).1
  refine ⟨_, swapCols_eq h he hi hj lo hi', ?_⟩
  have := putOn_overwritten h he.fits s e (swapC (fun r c => e (ρ r) (κ c)) i j lo (min n hi'))
  obtain ⟨E, h1, h2, h3, h4⟩ := this
  refine ⟨E, h1, fun r c hr hc => ?_, h3, h4⟩
  rw [h2 r c hr hc]
  simp only [swapC]
  apply if_congr _ rfl rfl; omega

theorem overwritten_back {s s' s'' : Store T} {v N M n k : Nat} {ρ κ : Nat → Nat} {e F : Nat → Nat → T}
    (he : (s v).Holds N M e)
    (h1 : Overwritten s s' v N M e n k ρ κ F) {e'} (he' : (s' v).Holds N M e')
    {G} (h2 : Overwritten s' s'' v N M e' n k ρ κ G) (hG : ∀ r c, r < n → c < k → G r c = e (ρ r) (κ c)) :
    s'' = s := by
  obtain ⟨E1, a1, a2, a3, a4⟩ := h1
  obtain ⟨E2, b1, b2, b3, b4⟩ := h2
  obtain ⟨-, -, heq⟩ := he'.rep.toRepAt.unique a1.rep.toRepAt
  have : s'' v = s v := by
    rw [b1.eq, he.eq]
    apply ofFn_congr; intro i j hi hj
    by_cases hx : ∃ r c, r < n ∧ c < k ∧ ρ r = i ∧ κ c = j
    · obtain ⟨r, c, hr, hc, rfl, rfl⟩ := hx
      rw [b2 r c hr hc, hG r c hr hc]
    · have hx' : ∀ r c, r < n → c < k → ¬ (ρ r = i ∧ κ c = j) := fun r c p q t => hx ⟨r, c, p, q, t.1, t.2⟩
      rw [b3 i j hi hj hx', heq i j hi hj, a3 i j hi hj hx']
  funext w
  by_cases hw : w = v
  · rw [hw, this]
  · rw [b4 w hw, a4 w hw]

/-- C24: doing it twice restores everything. -/
theorem C24_involution {v N M n k : Nat} {m : MRef (Store T) T} {ρ κ} (hm : ViewChain v N M m n k ρ κ)
    {s : Store T} {e} (he : (s v).Holds N M e) (i j lo hi' : Nat) :
    (i < n → j < n → (swapRows m s i j lo hi' >>= fun s => swapRows m s i j lo hi') = .ok s) ∧
    (i < k → j < k → (swapCols m s i j lo hi' >>= fun s => swapCols m s i j lo hi') = .ok s) := by
  constructor
  · intro hi hj
    obtain ⟨s', h1, E1, a1, a2, a3, a4⟩ := C24_swap_rows hm he hi hj lo hi'
    obtain ⟨s'', h2, b⟩ := C24_swap_rows hm a1 hi hj lo hi'
    rw [h1, Res.ok_bind, h2]
    congr 1
    refine overwritten_back he ⟨E1, a1, a2, a3, a4⟩ a1 b (fun r c hr hc => ?_)
    have key : ∀ x, x < n → E1 (ρ x) (κ c) = _ := fun x hx => a2 x c hx hc
    by_cases hcol : lo ≤ c ∧ c < hi'
    · simp only [if_pos hcol] at key ⊢
      rw [key _ (by split <;> [skip; split] <;> omega)]
      congr 2
      by_cases p : r = i
      · subst p
        by_cases q : j = r
        · simp [q]
        · simp [q]
      · by_cases q : r = j
        · subst q; simp [p]
        · simp [p, q]
    · simp only [if_neg hcol] at key ⊢
      rw [key r hr]
  · intro hi hj
    obtain ⟨s', h1, E1, a1, a2, a3, a4⟩ := C24_swap_cols hm he hi hj lo hi'
    obtain ⟨s'', h2, b⟩ := C24_swap_cols hm a1 hi hj lo hi'
    rw [h1, Res.ok_bind, h2]
    congr 1
    refine overwritten_back he ⟨E1, a1, a2, a3, a4⟩ a1 b (fun r c hr hc => ?_)
    have key : ∀ x, x < k → E1 (ρ r) (κ x) = _ := fun x hx => a2 r x hr hx
    by_cases hcol : lo ≤ r ∧ r < hi'
    · simp only [if_pos hcol] at key ⊢
      rw [key _ (by split <;> [skip; split] <;> omega)]
      congr 2
      by_cases p : c = i
      · subst p
        by_cases q : j = c
        · simp [q]
        · simp [q]
      · by_cases q : c = j
        · subst q; simp [p]
        · simp [p, q]
    · simp only [if_neg hcol] at key ⊢
      rw [key c hc]

example : (swapRows (MRef.var 0) (fun _ => (⟨2, 3, [1, 2, 3, 4, 5, 6]⟩ : Mat Int)) 0 1 1 9 >>= fun s => .ok (s 0)) =
    .ok ⟨2, 3, [1, 5, 6, 4, 2, 3]⟩ := by decide +kernel

/-! ## C25 -/

/-- C25: `remove_row`. -/
theorem C25_remove_row [Zero T] {A : Mat T} {n m p : Nat} {e} (h : A.Holds n m e) (hp : p < n) :
    Returns (removeRow A p) (n - 1) m (fun r c => e (if r < p then r else r + 1) c) := by
  rw [h.eq]
  exact Returns.of_eq (h.fits.mono (by omega) (Nat.le_refl m)) (removeRow_eq h.fits hp)

/-- C25: `remove_column`. -/
theorem C25_remove_column [Zero T] {A : Mat T} {n m p : Nat} {e} (h : A.Holds n m e) (hp : p < m) :
    Returns (removeColumn A p) n (m - 1) (fun r c => e r (if c < p then c else c + 1)) := by
  rw [h.eq]
  exact Returns.of_eq (h.fits.mono (Nat.le_refl n) (by omega)) (removeColumn_eq h.fits hp)

/-- C25: an index out of range throws before anything is written. -/
theorem C25_out_of_range [Zero T] (A : Mat T) (p : Nat) :
    (A.rows ≤ p → removeRow A p = .throw .invalidArgument) ∧
    (A.cols ≤ p → removeColumn A p = .throw .invalidArgument) :=
  ⟨fun h => if_pos h, fun h => if_pos h⟩

example : removeColumn (⟨2, 3, [1, 2, 3, 4, 5, 6]⟩ : Mat Int) 1 = .ok ⟨2, 2, [1, 3, 4, 6]⟩ := by decide +kernel
example : removeRow (⟨3, 2, [1, 2, 3, 4, 5, 6]⟩ : Mat Int) 0 = .ok ⟨2, 2, [3, 4, 5, 6]⟩ := by decide +kernel

/-! ## C26 -/

/-- C26: the shape predicates. -/
theorem C26_shape {b : MB T} {n m : Nat} {e} (h : RepAt b n m e) :
    (isSquare b = true ↔ n = m) ∧ (isColumnVector b = true ↔ m = 1) ∧ (isRowVector b = true ↔ n = 1) := by
  simp [isSquare, isColumnVector, isRowVector, h.rows, h.cols]

/-- C26: on non-square matrices all structure predicates are false. -/
theorem C26_non_square [DecidableEq T] [Zero T] [Neg T] {b : MB T} {n m : Nat} {e} (h : RepAt b n m e)
    (hne : n ≠ m) : isSymmetric b = .ok false ∧ isSkewSymmetric b = .ok false ∧ isDiagonal b = .ok false ∧
      isLowerTriangular b = .ok false ∧ isUpperTriangular b = .ok false := by
  have : isSquare b = false := by simp [isSquare, h.rows, h.cols, hne]
  simp [isSymmetric, isSkewSymmetric, isDiagonal, isLowerTriangular, isUpperTriangular, this]

/-- C26: symmetric, diagonal, lower and upper triangular matrices are recognised exactly. -/
theorem C26_square [DecidableEq T] [Zero T] {b : MB T} {n : Nat} {e} (h : RepAt b n n e) :
    (∃ x, isSymmetric b = .ok x ∧ (x = true ↔ ∀ i j, i < n → j < n → e i j = e j i)) ∧
    (∃ x, isDiagonal b = .ok x ∧ (x = true ↔ ∀ i j, i < n → j < n → i ≠ j → e i j = 0)) ∧
    (∃ x, isLowerTriangular b = .ok x ∧ (x = true ↔ ∀ i j, i < n → j < n → i < j → e i j = 0)) ∧
    (∃ x, isUpperTriangular b = .ok x ∧ (x = true ↔ ∀ i j, i < n → j < n → j < i → e i j = 0)) := by
  have hsq : (!isSquare b) = false := by simp [isSquare, h.rows, h.cols]
  have hW := h.fits.2.1
  refine ⟨?_, ?_, ?_, ?_⟩
  · unfold isSymmetric
    rw [hsq, h.rows, h.cols]
    obtain ⟨x, h1, h2⟩ := scan_spec (lo := fun _ => 0) (hi := fun _ => n) (rows := n) (P := fun i j => e i j ≠ e j i)
      (bad := fun i j => do
        let x ← b.at_ i j
        let y ← b.at_ j i
        return decide (x ≠ y)) (fun i j hi _ hj => by rw [h.get i j hi hj, h.get j i hj hi]; rfl)
    refine ⟨x, h1, h2.trans ⟨fun hh i j hi hj => ?_, fun hh i j hi _ hj => by simpa using hh i j hi hj⟩⟩
    simpa using hh i j hi (Nat.zero_le j) hj
  · unfold isDiagonal
    rw [hsq, h.rows, h.cols]
    obtain ⟨x, h1, h2⟩ := scan_spec (lo := fun _ => 0) (hi := fun _ => n) (rows := n)
      (P := fun i j => i ≠ j ∧ e i j ≠ 0)
      (bad := fun i j => if i ≠ j then do
          let x ← b.at_ i j
          return decide (x ≠ 0)
        else .ok false) (fun i j hi _ hj => by
          by_cases hij : i = j
          · simp [hij]
          · rw [if_pos hij, h.get i j hi hj]; simp [hij])
    refine ⟨x, h1, h2.trans ⟨fun hh i j hi hj hij => ?_, fun hh i j hi _ hj => ?_⟩⟩
    · have := hh i j hi (Nat.zero_le j) hj
      by_contra hc; exact this ⟨hij, hc⟩
    · rintro ⟨p, q⟩; exact q (hh i j hi hj p)
  · unfold isLowerTriangular
    rw [hsq, h.rows, h.cols]
    obtain ⟨x, h1, h2⟩ := scan_spec (lo := fun r => wadd r 1) (hi := fun _ => n) (rows := n)
      (P := fun i j => e i j ≠ 0)
      (bad := fun r c => do
        let x ← b.at_ r c
        return decide (x ≠ 0)) (fun i j hi _ hj => by rw [h.get i j hi hj]; rfl)
    refine ⟨x, h1, h2.trans ⟨fun hh i j hi hj hij => ?_, fun hh i j hi hij hj => ?_⟩⟩
    · have := hh i j hi (by rw [wadd_eq (by omega)]; omega) hj
      simpa using this
    · rw [wadd_eq (by omega)] at hij
      simpa using hh i j hi hj (by omega)
  · unfold isUpperTriangular
    rw [hsq, h.rows]
    obtain ⟨x, h1, h2⟩ := scan_spec (lo := fun _ => 0) (hi := fun r => r) (rows := n)
      (P := fun i j => e i j ≠ 0)
      (bad := fun r c => do
        let x ← b.at_ r c
        return decide (x ≠ 0)) (fun i j hi _ hj => by rw [h.get i j hi (by omega)]; rfl)
    refine ⟨x, h1, h2.trans ⟨fun hh i j hi hj hij => ?_, fun hh i j hi _ hj => ?_⟩⟩
    · simpa using hh i j hi (Nat.zero_le j) hij
    · simpa using hh i j hi (by omega) hj

/-- C26, what `is_skew_symmetric` decides: the condition above the diagonal only. Missing: the diagonal must be
its own negation too (`C26_skew_false`). -/
theorem C26_skew_partial [DecidableEq T] [Neg T] {b : MB T} {n : Nat} {e} (h : RepAt b n n e) :
    ∃ x, isSkewSymmetric b = .ok x ∧ (x = true ↔ ∀ i j, i < n → j < n → i < j → e i j = - e j i) := by
  have hsq : (!isSquare b) = false := by simp [isSquare, h.rows, h.cols]
  have hW := h.fits.2.1
  unfold isSkewSymmetric
  rw [hsq, h.rows, h.cols]
  obtain ⟨x, h1, h2⟩ := scan_spec (lo := fun r => wadd r 1) (hi := fun _ => n) (rows := n)
    (P := fun i j => e i j ≠ - e j i)
    (bad := fun i j => do
        let x ← b.at_ i j
        let y ← b.at_ j i
        return decide (x ≠ -y)) (fun i j hi _ hj => by rw [h.get i j hi hj, h.get j i hj hi]; rfl)
  refine ⟨x, h1, h2.trans ⟨fun hh i j hi hj hij => ?_, fun hh i j hi hij hj => ?_⟩⟩
  · have := hh i j hi (by rw [wadd_eq (by omega)]; omega) hj
    simpa using this
  · rw [wadd_eq (by omega)] at hij
    simpa using hh i j hi hj (by omega)

/-- C26 is false for `is_skew_symmetric`: the `1 × 1` matrix `(5)` is accepted although `5 ≠ -5`. -/
theorem C26_skew_false : ∃ A : Mat Int, A.Holds 1 1 (fun _ _ => 5) ∧ isSkewSymmetric A.toMB = .ok true ∧
    ¬ ∀ i j, i < 1 → j < 1 → (fun _ _ => (5 : Int)) i j = - (fun _ _ => (5 : Int)) j i := by
  refine ⟨⟨1, 1, [5]⟩, ?_, by decide +kernel, ?_⟩
  · exact ofFn_holds (fits_small (by norm_num) (by norm_num)) (fun _ _ => (5 : Int))
  · intro h; have := h 0 0 (by norm_num) (by norm_num); norm_num at this

example : isUpperTriangular (⟨2, 2, [1, 2, 0, 3]⟩ : Mat Int).toMB = .ok true ∧
    isLowerTriangular (⟨2, 2, [1, 2, 0, 3]⟩ : Mat Int).toMB = .ok false := by decide +kernel

/-! ## C27 -/

/-- C27: `all_close` on matrices and views. -/
theorem C27_all_close [Sub T] {R : Type} [LinearOrder R] (absf : T → R) {A B : MB T} {n m : Nat} {e f}
    (hA : Rep A n m e) (hB : Rep B n m f) (tol : R) :
    ∃ x, allClose absf A B tol = .ok x ∧ (x = true ↔ ∀ i j, i < n → j < m → absf (e i j - f i j) ≤ tol) := by
  unfold allClose
  rw [if_neg (by rw [hA.rows, hB.rows]; simp), if_neg (by rw [hA.cols, hB.cols]; simp), hA.size]
  obtain ⟨x, h1, h2⟩ := search_spec (n := n * m) (P := fun i => tol < absf (e (i / m) (i % m) - f (i / m) (i % m)))
    (body := fun i => do
      let x ← A.lin i
      let y ← B.lin i
      return (if tol < absf (x - y) then some false else none))
    (fun i hi => by rw [hA.lin' hi, hB.lin' hi]; rfl)
  refine ⟨x, h1, h2.trans ⟨fun h i j hi hj => ?_, fun h i hi => ?_⟩⟩
  · have := h (i * m + j) (lin_lt hi hj)
    rw [lin_div hj, lin_mod hj] at this
    exact not_lt.1 this
  · have h3 := lin_of_lt hi
    exact not_lt.2 (h _ _ h3.1 h3.2.1)

/-- C27: on vectors. -/
theorem C27_all_close_vec [Sub T] {R : Type} [LinearOrder R] (absf : T → R) {a b : List T} {n : Nat} {f g}
    (ha : VRep a n f) (hb : VRep b n g) (tol : R) :
    ∃ x, allCloseVec absf a b tol = .ok x ∧ (x = true ↔ ∀ i, i < n → absf (f i - g i) ≤ tol) := by
  unfold allCloseVec
  rw [if_neg (by rw [ha.2.1, hb.2.1]; simp), ha.2.1]
  obtain ⟨x, h1, h2⟩ := search_spec (n := n) (P := fun i => tol < absf (f i - g i))
    (body := fun i => do
      let x ← vget a i
      let y ← vget b i
      return (if tol < absf (x - y) then some false else none))
    (fun i hi => by rw [ha.get hi, hb.get hi]; rfl)
  exact ⟨x, h1, h2.trans ⟨fun h i hi => not_lt.1 (h i hi), fun h i hi => not_lt.2 (h i hi)⟩⟩

/-- C27: different shapes throw. -/
theorem C27_mismatch [Sub T] {R : Type} [LinearOrder R] (absf : T → R) (A B : MB T) (a b : List T) (tol : R) :
    (A.rows ≠ B.rows ∨ A.cols ≠ B.cols → allClose absf A B tol = .throw .invalidArgument) ∧
    (a.length ≠ b.length → allCloseVec absf a b tol = .throw .invalidArgument) := by
  refine ⟨fun h => ?_, fun h => if_pos h⟩
  unfold allClose
  by_cases h1 : A.rows ≠ B.rows
  · rw [if_pos h1]
  · rw [if_neg h1, if_pos (by tauto)]

example : allClose (fun x : Int => x.natAbs) (⟨1, 2, [1, 2]⟩ : Mat Int).toMB (⟨1, 2, [3, 1]⟩ : Mat Int).toMB 2 = .ok true ∧
    allClose (fun x : Int => x.natAbs) (⟨1, 2, [1, 2]⟩ : Mat Int).toMB (⟨1, 2, [3, 1]⟩ : Mat Int).toMB 1 = .ok false := by
  decide +kernel

/-! ## C28 -/

/-- C28: `flatnonzero` lists exactly the non-zero positions, in increasing order. -/
theorem C28_flatnonzero {isZero : T → Bool} {A : Mat T} {n m : Nat} {e} (h : A.Holds n m e) :
    ∃ l, flatnonzero isZero A = .ok l ∧ l.Pairwise (· < ·) ∧
      ∀ i, i ∈ l ↔ i < n * m ∧ isZero (e (i / m) (i % m)) = false := by
  refine ⟨_, flatnonzero_eq h.rep, ?_, fun i => ?_⟩
  · exact List.Pairwise.filter _ List.pairwise_lt_range
  · simp [List.mem_filter]

/-- The last lines of `find`. -/
theorem find_shape {A : Mat T} {n m : Nat} {e} (h : A.Holds n m e) {l : List Nat} (hl : l.length < allocMax) :
    (if isRowVector A.toMB then Mat.ofFlat 1 l.length l else Mat.ofFlat l.length 1 l) =
      .ok (if n = 1 then ⟨1, l.length, l⟩ else ⟨l.length, 1, l⟩) := by
  have hW := allocMax_lt_W
  have hf : Fits 1 l.length := ⟨by omega, one_lt_W, by omega⟩
  have hrow : isRowVector A.toMB = decide (n = 1) := by
    rw [isRowVector, show A.toMB.rows = n from h.rep.rows]; by_cases hh : n = 1 <;> simp [hh]
  rw [hrow]
  have hrowok := Mat.ofFlat_eq hf (l := l) (e := fun _ c => l.getD c 0) (fun r c hr hc => by
    have : r = 0 := by omega
    subst this; simp [List.getD, hc])
  have hcolok := Mat.ofFlat_eq hf.symm (l := l) (e := fun r _ => l.getD r 0) (fun r c hr hc => by
    have : c = 0 := by omega
    subst this; simp [List.getD, hr])
  have hdata := list_eq_vtab_getD l 0
  by_cases hn : n = 1
  · simp only [hn, decide_true, if_true, hrowok, Mat.ofFn, Nat.one_mul]
    congr 2
    conv_rhs => rw [hdata]
    apply List.map_congr_left; intro i hi
    rw [Nat.mod_eq_of_lt (by simpa using hi)]
  · simp only [hn, decide_false, if_false, hcolok, Mat.ofFn, Nat.mul_one, Bool.false_eq_true]
    congr 2
    conv_rhs => rw [hdata]
    apply List.map_congr_left; intro i hi
    rw [Nat.div_one]

/-- C28, what holds of `find`: with `n` at least the number of non-zero entries it returns all positions, as a row
for row vectors and as a column otherwise; with `n = 0` nothing. Missing: `0 < n <` count
(`C28_find_first_n_false`, `C28_find_fewer_false`). -/
theorem C28_find_partial {isZero : T → Bool} {A : Mat T} {n m : Nat} {e} (h : A.Holds n m e) {l : List Nat}
    (hl : flatnonzero isZero A = .ok l) (k : Nat) (b : Bool) :
    (l.length ≤ k → 0 < k → find isZero A k b =
      .ok (if n = 1 then ⟨1, l.length, l⟩ else ⟨l.length, 1, l⟩)) ∧
    find isZero A 0 b = .ok ⟨0, 0, []⟩ := by
  have hlen : l.length ≤ n * m := by
    rw [flatnonzero_eq h.rep] at hl
    injection hl with hl; subst hl
    exact le_trans (List.length_filter_le _ _) (by simp)
  have hA := h.fits.1
  constructor
  · intro h1 h2
    unfold find
    rw [hl, Res.ok_bind, if_neg (by omega), if_neg (by omega), Res.ok_bind, find_shape h (by omega)]
  · unfold find
    rw [hl, Res.ok_bind, if_pos rfl, Mat.new_eq (Fits.zero W_pos)]
    rfl

/-- C28, what `find` returns for fewer: with `s` the first position, `s` times the number `s + n` instead of the first `n` positions, and
`s + count - n` times the number `s + count` instead of the last `n`. -/
theorem C28_find_fewer_false {isZero : T → Bool} {A : Mat T} {n m : Nat} {e} (h : A.Holds n m e) {s : Nat} {l : List Nat}
    (hl : flatnonzero isZero A = .ok (s :: l)) {k : Nat} (h0 : 0 < k) (hk : k < l.length + 1) :
    find isZero A k true = .ok (if n = 1 then ⟨1, s, List.replicate s (s + k)⟩ else ⟨s, 1, List.replicate s (s + k)⟩) ∧
    find isZero A k false = .ok (if n = 1 then ⟨1, s + (l.length + 1) - k, List.replicate (s + (l.length + 1) - k) (s + (l.length + 1))⟩
      else ⟨s + (l.length + 1) - k, 1, List.replicate (s + (l.length + 1) - k) (s + (l.length + 1))⟩) := by
  have hlen : s + (l.length + 1) ≤ n * m := by
    obtain ⟨l', h1, h2, h3⟩ := C28_flatnonzero (isZero := isZero) h
    rw [hl] at h1
    injection h1 with h1; subst h1
    have h4 : ∀ (L : List Nat) (s : Nat), (s :: L).Pairwise (· < ·) → (∀ i ∈ s :: L, i < n * m) → s + (L.length + 1) ≤ n * m := by
      intro L
      induction L with
      | nil => intro s _ h; have := h s (by simp); simp; omega
      | cons t L ih =>
        intro s hp h
        have h5 := ih t (List.pairwise_cons.1 hp).2 (fun i hi => h i (List.mem_cons_of_mem _ hi))
        have h6 := (List.pairwise_cons.1 hp).1 t (by simp)
        simp only [List.length_cons]
        omega
    exact h4 l s h2 (fun i hi => ((h3 i).1 hi).1)
  have hA := h.fits.1
  have hW := allocMax_lt_W
  have hadd : ∀ j, j ≤ l.length + 1 → wadd s j = s + j := fun j hj => wadd_eq (by omega)
  constructor
  · have := find_shape h (l := List.replicate s (s + k)) (by simp; omega)
    rw [List.length_replicate] at this
    unfold find
    rw [hl, Res.ok_bind, if_neg (by omega), if_pos ⟨h0, by simpa using hk⟩]
    simp only [vget, List.getElem?_cons_zero, Res.ok_bind, if_true]
    rw [hadd 0 (by omega), hadd k (by omega), Nat.add_zero, List.length_replicate, this]
  · have := find_shape h (l := List.replicate (s + (l.length + 1) - k) (s + (l.length + 1))) (by simp; omega)
    rw [List.length_replicate] at this
    unfold find
    rw [hl, Res.ok_bind, if_neg (by omega), if_pos ⟨h0, by simpa using hk⟩]
    simp only [vget, List.getElem?_cons_zero, Res.ok_bind, Bool.false_eq_true, if_false, List.length_cons]
    rw [hadd _ le_rfl, wsub_eq (by omega) (by omega), List.length_replicate, this]

example : find (fun x : Int => decide (x = 0)) ⟨1, 5, [0, 5, 0, 7, 8]⟩ 2 true = .ok ⟨1, 1, [3]⟩ ∧
    find (fun x : Int => decide (x = 0)) ⟨1, 5, [0, 5, 0, 7, 8]⟩ 2 false = .ok ⟨1, 2, [4, 4]⟩ := by decide +kernel

/-- C28 is false for `find(A, n)`: asking the row `1 1 1` for two positions gives none, because the iterator
range is written as a count and a value. -/
theorem C28_find_first_n_false : ∃ A : Mat Int, A.WF ∧
    flatnonzero (fun x => decide (x = 0)) A = .ok [0, 1, 2] ∧
    find (fun x => decide (x = 0)) A 2 true = .ok ⟨1, 0, []⟩ ∧
    find (fun x => decide (x = 0)) A 2 false = .ok ⟨1, 1, [3]⟩ := by
  refine ⟨⟨1, 3, [1, 1, 1]⟩, ⟨rfl, ?_, ?_, ?_⟩, ?_, ?_, ?_⟩ <;> decide +kernel

example : find (fun x : Int => decide (x = 0)) ⟨2, 2, [0, 5, 0, 7]⟩ 9 true = .ok ⟨2, 1, [1, 3]⟩ := by decide +kernel

/-! ## C29 -/

/-- C29, the part that holds: `compare` gives `0` on equal contents, and otherwise `-k` or `k` for the first
differing position `k`. Missing: for `k = 0` both are `0` (`C29_index_zero_false`). -/
theorem C29_compare_partial {K : Type} [LinearOrder K] {A B : MB K} {n m : Nat} {e f} (hA : Rep A n m e)
    (hB : Rep B n m f) :
    ((∀ i j, i < n → j < m → e i j = f i j) → Util.compare A B = .ok 0) ∧
    (∀ k, 0 < k → k < n * m → (∀ i, i < k → e (i / m) (i % m) = f (i / m) (i % m)) →
      (e (k / m) (k % m) < f (k / m) (k % m) → ∃ x : Int, Util.compare A B = .ok x ∧ x < 0 ∧ x = -(k : Int)) ∧
      (f (k / m) (k % m) < e (k / m) (k % m) → ∃ x : Int, Util.compare A B = .ok x ∧ 0 < x ∧ x = (k : Int))) := by
  unfold Util.compare
  rw [if_neg (by rw [hA.size, hB.size]; simp), hA.size]
  have key := compare_loop (n := n * m) (x := fun i => e (i / m) (i % m)) (y := fun i => f (i / m) (i % m))
    (body := fun i => do
      let x ← A.lin i
      let y ← B.lin i
      return (if x < y then some (-(i : Int)) else if y < x then some (i : Int) else none))
    (fun i hi => by rw [hA.lin' hi, hB.lin' hi]; rfl)
  refine ⟨fun h => key.1 (fun i hi => h _ _ (lin_of_lt hi).1 (lin_of_lt hi).2.1), fun k hk hkn heq => ⟨fun h => ?_, fun h => ?_⟩⟩
  · have := key.2 k hkn heq (ne_of_lt h)
    rw [if_pos h] at this
    exact ⟨_, this, by omega, rfl⟩
  · have := key.2 k hkn heq (ne_of_gt h)
    rw [if_neg (not_lt_of_gt h)] at this
    exact ⟨_, this, by omega, rfl⟩

/-- C29: the same for vectors. -/
theorem C29_compare_vec_partial {K : Type} [LinearOrder K] {a b : List K} {n : Nat} {f g} (ha : VRep a n f)
    (hb : VRep b n g) :
    ((∀ i, i < n → f i = g i) → compareVec a b = .ok 0) ∧
    (∀ k, 0 < k → k < n → (∀ i, i < k → f i = g i) →
      (f k < g k → ∃ x : Int, compareVec a b = .ok x ∧ x < 0 ∧ x = -(k : Int)) ∧
      (g k < f k → ∃ x : Int, compareVec a b = .ok x ∧ 0 < x ∧ x = (k : Int))) := by
  unfold compareVec
  rw [if_neg (by rw [ha.2.1, hb.2.1]; simp), ha.2.1]
  have key := compare_loop (n := n) (x := f) (y := g)
    (body := fun i => do
      let x ← vget a i
      let y ← vget b i
      return (if x < y then some (-(i : Int)) else if y < x then some (i : Int) else none))
    (fun i hi => by rw [ha.get hi, hb.get hi]; rfl)
  refine ⟨key.1, fun k hk hkn heq => ⟨fun h => ?_, fun h => ?_⟩⟩
  · have := key.2 k hkn heq (ne_of_lt h)
    rw [if_pos h] at this
    exact ⟨_, this, by omega, rfl⟩
  · have := key.2 k hkn heq (ne_of_gt h)
    rw [if_neg (not_lt_of_gt h)] at this
    exact ⟨_, this, by omega, rfl⟩

/-- C29: different sizes throw. -/
theorem C29_mismatch {K : Type} [LinearOrder K] (A B : MB K) (a b : List K) :
    (A.size ≠ B.size → Util.compare A B = .throw .invalidArgument) ∧
    (a.length ≠ b.length → compareVec a b = .throw .invalidArgument) := ⟨fun h => if_pos h, fun h => if_pos h⟩

/-- C29 is false: matrices (and vectors) that differ in their first element compare as equal. -/
theorem C29_index_zero_false : ∃ A B : Mat Int, A.WF ∧ B.WF ∧ A.at_ 0 0 ≠ B.at_ 0 0 ∧
    Util.compare A.toMB B.toMB = .ok 0 ∧ Util.compare B.toMB A.toMB = .ok 0 ∧ compareVec A.data B.data = .ok 0 := by
  refine ⟨⟨1, 1, [1]⟩, ⟨1, 1, [2]⟩, ⟨rfl, ?_, ?_, ?_⟩, ⟨rfl, ?_, ?_, ?_⟩, ?_, ?_, ?_, ?_⟩ <;> decide +kernel

example : Util.compare (⟨1, 3, [1, 5, 3]⟩ : Mat Int).toMB (⟨1, 3, [1, 5, 7]⟩ : Mat Int).toMB = .ok (-2) := by decide +kernel

/-! ## C30 -/

theorem natCast_pred_ne_zero {K : Type} [Field K] [CharZero K] {n : Nat} (hn : 2 ≤ n) :
    ((n - 1 : Nat) : K) ≠ 0 := Nat.cast_ne_zero.2 (by omega)

/-- C30: over an ordered field, `linspace(a, b, n)` with `n ≥ 2` starts at `a`, ends at `b` and has constant
difference, whichever endpoint is larger (`same` is the equality test). Missing: `n = 1`, integer element types,
and endpoints that are only approximately equal (`C30_single_false`, `C30_int_false`, `C30_close_false`). -/
theorem C30_linspace_partial {K : Type} [Field K] [LinearOrder K] [IsStrictOrderedRing K] {same : K → K → Bool}
    {a b : K} (hsame : same a b = true ↔ a = b) {n : Nat} (hn : 2 ≤ n) (ha : n < allocMax) :
    ∃ f : Nat → K, ReturnsVec (linspace same a b n) n f ∧ f 0 = a ∧ f (n - 1) = b ∧
      ∀ i, i + 1 < n → f (i + 1) - f i = (b - a) / ((n - 1 : Nat) : K) := by
  have h0 : ((n - 1 : Nat) : K) ≠ 0 := natCast_pred_ne_zero hn
  refine ⟨_, ReturnsVec.of_eq (spaced_eq ha (fun _ => cdiv_ok _ h0) (fun _ => cdiv_ok _ h0)), ?_, ?_, ?_⟩
  · simp only [id]
    by_cases h1 : same a b = true
    · rw [if_pos (Or.inr h1)]; exact (hsame.1 h1).symm
    · rw [if_neg (by simp [h1]; omega)]; split <;> simp
  · simp only [id]
    by_cases h1 : same a b = true
    · rw [if_pos (Or.inr h1)]
    · rw [if_neg (by simp [h1]; omega)]; split <;> field_simp <;> ring
  · intro i hi
    simp only [id]
    by_cases h1 : same a b = true
    · rw [if_pos (Or.inr h1), if_pos (Or.inr h1), hsame.1 h1]; simp
    · have hc : ¬ (n = 1 ∨ same a b = true) := by simp [h1]; omega
      simp only [if_neg hc]
      split <;> push_cast <;> field_simp <;> ring

/-- C30: `logspace` applies `base^·` to the points of `linspace`, for fewer than `2^32` points. -/
theorem C30_logspace_partial {K : Type} [Field K] [LinearOrder K] [IsStrictOrderedRing K] {same : K → K → Bool}
    (pow : K → K → K) (base : K) {a b : K} {n : Nat} (hn : 2 ≤ n) (ha : n < 2 ^ 32) {f : Nat → K}
    (hf : ReturnsVec (linspace same a b n) n f) :
    ReturnsVec (logspace same pow a b n base) n (fun i => pow base (f i)) := by
  have h0 : ((n - 1 : Nat) : K) ≠ 0 := natCast_pred_ne_zero hn
  have hA : n < allocMax := lt_trans ha (by rw [allocMax_eq]; norm_num)
  have e1 := hf.eq
  unfold linspace at e1
  rw [spaced_eq hA (fun _ => cdiv_ok _ h0) (fun _ => cdiv_ok _ h0)] at e1
  injection e1 with e1
  apply ReturnsVec.of_eq
  unfold logspace
  rw [if_pos ha, spaced_eq hA (fun _ => cdiv_ok _ h0) (fun _ => cdiv_ok _ h0)]
  congr 1; apply vtab_congr; intro i hi
  rw [← vtab_ext_iff.1 e1 i hi]
  simp only [id]
  split
  · rfl
  · split <;> rfl

/-- C30: with `2^32` or more points the `unsigned` counter of `logspace` never reaches the end, unless the
allocation of the result has failed before. -/
theorem C30_logspace_never_ends {K : Type} [Field K] [LinearOrder K] (same : K → K → Bool) (pow : K → K → K)
    (base a b : K) (n : Nat) (h : 2 ^ 32 ≤ n) :
    logspace same pow a b n base = .ub (if n < allocMax then .noReturn else .allocFail) := by
  unfold logspace
  rw [if_neg (by omega)]
  unfold vnew
  split <;> rfl

/-- C30: no points. -/
theorem C30_none {K : Type} [Field K] [LinearOrder K] (same : K → K → Bool) (pow : K → K → K) (base a b : K) :
    linspace same a b 0 = .ok [] ∧ logspace same pow a b 0 base = .ok [] := by
  have : (0 : Nat) < allocMax := by rw [allocMax_eq]; norm_num
  simp [linspace, logspace, spaced, vnew, this]

/-- C30 is false for one point: the start is dropped. -/
theorem C30_single_false {K : Type} [Field K] [LinearOrder K] (same : K → K → Bool) (a b : K) :
    linspace same a b 1 = .ok [b] := by
  have : (1 : Nat) < allocMax := by rw [allocMax_eq]; norm_num
  simp [linspace, spaced, vnew, this, vset]

/-- C30 is false for integer element types: `linspace<int>(0, 5, 4)` is `0 1 2 3`. -/
theorem C30_int_false : linspace (fun a b : Int => decide (a = b)) 0 5 4 = .ok [0, 1, 2, 3] := by decide +kernel

/-- C30 is false when the endpoints differ but count as the same: all points are the stop value. -/
theorem C30_close_false {K : Type} [Field K] [LinearOrder K] {same : K → K → Bool} {a b : K}
    (h : same a b = true) {n : Nat} (hn : 2 ≤ n) (ha : n < allocMax) :
    ReturnsVec (linspace same a b n) n (fun _ => b) := by
  apply ReturnsVec.of_eq
  unfold linspace spaced
  rw [vnew_ok ha, Res.ok_bind, if_neg (by omega), if_neg (by omega), if_pos h, vfill_const (by simp)]
  rfl

example : linspace (fun a b : ℚ => decide (a = b)) 0 1 3 = .ok [0, 1/2, 1] := by decide +kernel
example : linspace (fun a b : ℚ => decide (a = b)) 1 0 3 = .ok [1, 1/2, 0] := by decide +kernel

/-! ## C31 -/

/-- C31: `accumulate` folds the whole range in order. -/
theorem C31_accumulate [AddMonoid T] (l : List T) (init : T) :
    accumulate l init = .ok (l.foldl (· + ·) init) ∧ accumulate l init = .ok (init + l.sum) := by
  have h := accumulate_eq l init
  refine ⟨h, h.trans ?_⟩
  congr 1
  induction l generalizing init with
  | nil => simp
  | cons x l ih => rw [List.foldl_cons, ih _ (accumulate_eq l _), List.sum_cons, add_assoc]

/-- C31: `inner_product`. -/
theorem C31_inner_product [AddMonoid T] [Mul T] (l1 l2 : List T) (init : T) (h : l1.length ≤ l2.length) :
    innerProduct l1 l2 init = .ok (init + (List.zipWith (· * ·) l1 l2).sum) := by
  rw [innerProduct_eq l1 l2 init h, ← accumulate_eq, (C31_accumulate _ _).2]

/-- C31: a second range that is too short is read past its end. -/
theorem C31_inner_product_short [Add T] [Mul T] (l1 l2 : List T) (init : T) (h : l2.length < l1.length) :
    innerProduct l1 l2 init = .ub .oob := by
  unfold innerProduct
  rw [forRange_append (Nat.zero_le l2.length) (Nat.le_of_lt h)]
  obtain ⟨s, h1, -⟩ := forRange_inv (Nat.zero_le l2.length) (fun _ (_ : T) => True) (s := init)
    (body := fun i init => do
      let x ← vget l1 i
      let y ← vget l2 i
      return init + x * y) trivial
    (fun i s _ hi _ => ⟨_, by rw [vget_lt (by omega), vget_lt hi]; rfl, trivial⟩)
  rw [h1, Res.ok_bind, forRange_lt h, vget_lt h, Res.ok_bind, vget_ge (Nat.le_refl _)]
  rfl

example : innerProduct [(1 : Int), 2, 3] [4, 5, 6] 10 = .ok 42 := by decide +kernel

/-! ## C32 -/

/-- C32: shape and range of random matrices and vectors, real and complex; the draws are any sequence within the
bounds. -/
theorem C32_rand {R : Type} [Zero R] [Zero T] [LE R] {lo hi : R} (rng : Nat → R) (hr : ∀ k, lo ≤ rng k ∧ rng k ≤ hi)
    (mk : R → R → T) (re im : T → R) (h1 : ∀ a b, re (mk a b) = a) (h2 : ∀ a b, im (mk a b) = b)
    (flip : Nat → Bool) {n m : Nat} (hf : Fits n m) (hn : n < allocMax) :
    (∃ e, Returns (randMatrix rng n m) n m e ∧ ∀ i j, lo ≤ e i j ∧ e i j ≤ hi) ∧
    (∃ f, ReturnsVec (randVector rng n) n f ∧ ∀ i, lo ≤ f i ∧ f i ≤ hi) ∧
    (∃ e, Returns (randMatrixC mk rng flip n m) n m e ∧
      ∀ i j, lo ≤ re (e i j) ∧ re (e i j) ≤ hi ∧ lo ≤ im (e i j) ∧ im (e i j) ≤ hi) ∧
    (∃ f, ReturnsVec (randVectorC mk rng flip n) n f ∧
      ∀ i, lo ≤ re (f i) ∧ re (f i) ≤ hi ∧ lo ≤ im (f i) ∧ im (f i) ≤ hi) := by
  refine ⟨⟨_, Returns.of_eq hf (randMatrix_eq hf rng), fun i j => hr _⟩,
    ⟨_, ReturnsVec.of_eq (randVector_eq hn rng), fun i => hr _⟩,
    ⟨_, Returns.of_eq hf (randMatrixC_eq hf mk rng flip), fun i j => ?_⟩,
    ⟨_, ReturnsVec.of_eq (randVectorC_eq hn mk rng flip), fun i => ?_⟩⟩
  · split
    · rw [h1, h2]; exact ⟨(hr _).1, (hr _).2, (hr _).1, (hr _).2⟩
    · rw [h1, h2]; exact ⟨(hr _).1, (hr _).2, (hr _).1, (hr _).2⟩
  · split
    · rw [h1, h2]; exact ⟨(hr _).1, (hr _).2, (hr _).1, (hr _).2⟩
    · rw [h1, h2]; exact ⟨(hr _).1, (hr _).2, (hr _).1, (hr _).2⟩

/-- C32: distinct elements get distinct draws (no draw is used twice). -/
theorem C32_draws_distinct [Zero T] (rng : Nat → T) {n m : Nat} (hf : Fits n m) :
    ∃ k : Nat → Nat → Nat, Returns (randMatrix rng n m) n m (fun r c => rng (k r c)) ∧
      ∀ r c r' c', c < m → c' < m → k r c = k r' c' → r = r' ∧ c = c' :=
  ⟨fun r c => r * m + c, Returns.of_eq hf (randMatrix_eq hf rng), fun _ _ _ _ h1 h2 h3 => lin_inj h1 h2 h3⟩

example : randMatrix (fun k => ((k : Int) * 7) % 5) 2 2 = .ok ⟨2, 2, [0, 2, 4, 1]⟩ := by decide +kernel

end Malg
