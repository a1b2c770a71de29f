import Verif.Model.Repaired
import Verif.Props.VecOps
import Verif.Props.Arith
import Verif.Props.Linalg
import Verif.Props.Reduce
import Verif.Props.Utility
/-!
# C98 – C100: further functions that compile after a small edit

`Model/Repaired.lean` lists the edits.
-/
namespace Malg
open Ops Lin Fix
variable {T : Type}

/-! ## C98 -/

/-- C98: `vstack(A, b)` is `A` with the row `b` below. -/
theorem C98_vstack [Zero T] {A : MB T} {b : List T} {n m : Nat} {e f} (hA : Rep A n m e) (hb : VRep b m f)
    (hf : Fits (n + 1) m) :
    Returns (vstackVec A b) (n + 1) m (fun r c => if r < n then e r c else f c) := by
  apply Returns.of_eq hf
  unfold vstackVec
  rw [if_neg (by rw [hA.cols, hb.2.1]; simp), Mat.ofMB_eq hA, Res.ok_bind, hA.rows, hA.cols, wadd_eq hf.2.1,
    Mat.resize_eq hA.fits hf, Res.ok_bind, hb.2.1]
  rw [forRange_eq (Nat.zero_le m) (fun k => Mat.ofFn (n + 1) m fun r c =>
    if r < n then e r c else if c < k then f c else 0)]
  · congr 1; apply ofFn_congr; intro r c _ hc; rw [if_pos hc]
  · apply ofFn_congr; intro r c hr hc; simp [hc]
  · intro k _ hk
    rw [hb.get hk, Res.ok_bind, ofFn_setAt hf (by omega) hk]
    congr 1; apply ofFn_congr; intro r c hr hc
    unfold upd; dsimp only
    by_cases h1 : r < n
    · rw [if_neg (by omega), if_pos h1, if_pos h1]
    · rw [if_neg h1, if_neg h1]
      by_cases h2 : c = k
      · subst h2; rw [if_pos (by omega), if_pos (by omega)]
      · rw [if_neg (by omega)]
        by_cases h3 : c < k
        · rw [if_pos h3, if_pos (by omega)]
        · rw [if_neg h3, if_neg (by omega)]

/-- C98: `hstack(A, b)` is `A` with the column `b` on the right. -/
theorem C98_hstack [Zero T] {A : MB T} {b : List T} {n m : Nat} {e f} (hA : Rep A n m e) (hb : VRep b n f)
    (hf : Fits n (m + 1)) :
    Returns (hstackVec A b) n (m + 1) (fun r c => if c < m then e r c else f r) := by
  apply Returns.of_eq hf
  unfold hstackVec
  rw [if_neg (by rw [hA.rows, hb.2.1]; simp), Mat.ofMB_eq hA, Res.ok_bind, hA.rows, hA.cols, wadd_eq hf.2.2,
    Mat.resize_eq hA.fits hf, Res.ok_bind, hb.2.1]
  rw [forRange_eq (Nat.zero_le n) (fun k => Mat.ofFn n (m + 1) fun r c =>
    if c < m then e r c else if r < k then f r else 0)]
  · congr 1; apply ofFn_congr; intro r c hr _; rw [if_pos hr]
  · apply ofFn_congr; intro r c hr hc; simp [hr]
  · intro k _ hk
    rw [hb.get hk, Res.ok_bind, ofFn_setAt hf hk (by omega)]
    congr 1; apply ofFn_congr; intro r c hr hc
    unfold upd; dsimp only
    by_cases h1 : c < m
    · rw [if_neg (by omega), if_pos h1, if_pos h1]
    · rw [if_neg h1, if_neg h1]
      by_cases h2 : r = k
      · subst h2; rw [if_pos (by omega), if_pos (by omega)]
      · rw [if_neg (by omega)]
        by_cases h3 : r < k
        · rw [if_pos h3, if_pos (by omega)]
        · rw [if_neg h3, if_neg (by omega)]

/-- C98: stacking a vector is stacking the matrix made of it. -/
theorem C98_agree [Zero T] {A : MB T} {n m : Nat} {e} (hA : Rep A n m e) {a b : List T} {f g} (ha : VRep a m f)
    (hb : VRep b n g) (hf : Fits (n + 1) m) (hf' : Fits n (m + 1)) :
    vstackVec A a = (Util.toMatrix a true >>= fun B => Util.vstack A B.toMB) ∧
    hstackVec A b = (Util.toMatrix b false >>= fun B => Util.hstack A B.toMB) := by
  constructor
  · obtain ⟨B, h1, h2⟩ := (C21_to_matrix_to_vector ha true).2.1
    obtain ⟨C, h3, h4⟩ := C98_vstack hA ha hf
    obtain ⟨D, h5, h6⟩ := C22_vstack hA.toRepAt h2.rep.toRepAt hf
    rw [h1, Res.ok_bind, h3, h5, h4.eq, h6.eq]
  · obtain ⟨B, h1, h2⟩ := (C21_to_matrix_to_vector hb true).2.2
    obtain ⟨C, h3, h4⟩ := C98_hstack hA hb hf'
    obtain ⟨D, h5, h6⟩ := C22_hstack hA.toRepAt h2.rep.toRepAt hf'
    rw [h1, Res.ok_bind, h3, h5, h4.eq, h6.eq]

/-- C98: a vector of the wrong size throws. -/
theorem C98_mismatch [Zero T] (A : MB T) (b : List T) :
    (A.cols ≠ b.length → vstackVec A b = .throw .invalidArgument) ∧
    (A.rows ≠ b.length → hstackVec A b = .throw .invalidArgument) :=
  ⟨fun h => if_pos h, fun h => if_pos h⟩

example : vstackVec (⟨2, 2, [1, 2, 3, 4]⟩ : Mat Int).toMB [5, 6] = .ok ⟨3, 2, [1, 2, 3, 4, 5, 6]⟩ := by decide +kernel
example : hstackVec (⟨2, 2, [1, 2, 3, 4]⟩ : Mat Int).toMB [5, 6] = .ok ⟨2, 3, [1, 2, 5, 3, 4, 6]⟩ := by decide +kernel

/-! ## C99 -/

/-- C99: `A += b` and `A -= b` with a number that is not an element of `A`. -/
theorem C99_matrix_partial [Add T] [Sub T] {v N M n k : Nat} {m : MRef (Store T) T} {ρ κ : Nat → Nat}
    (hm : ViewChain v N M m n k ρ κ) {s : Store T} {e : Nat → Nat → T} (he : (s v).Holds N M e) (b : T) :
    (∃ s', addSAssign m (fun _ => .ok b) s = .ok s' ∧
      Overwritten s s' v N M e n k ρ κ (fun r c => e (ρ r) (κ c) + b)) ∧
    (∃ s', subSAssign m (fun _ => .ok b) s = .ok s' ∧
      Overwritten s s' v N M e n k ρ κ (fun r c => e (ρ r) (κ c) - b)) := by
  have h := (hm.on he.fits).1
  have hv := h.reads s e he
  refine ⟨⟨_, ?_, putOn_overwritten h he.fits _ _ _⟩, ⟨_, ?_, putOn_overwritten h he.fits _ _ _⟩⟩
  · unfold addSAssign
    rw [hv.size]
    have := lin_loop h he (x := fun r c => e (ρ r) (κ c) + b) (g := fun i s => do
      let x ← (m.view s).lin i
      return x + b) (fun r c F hr hc _ hF => by
        rw [(h.put_read he.fits).lin r c hr hc, hF r c hr hc (by omega)]; rfl)
    simpa only [bind_assoc, pure_bind, Res.ok_bind] using this
  · unfold subSAssign
    rw [hv.size]
    have := lin_loop h he (x := fun r c => e (ρ r) (κ c) - b) (g := fun i s => do
      let x ← (m.view s).lin i
      return x - b) (fun r c F hr hc _ hF => by
        rw [(h.put_read he.fits).lin r c hr hc, hF r c hr hc (by omega)]; rfl)
    simpa only [bind_assoc, pure_bind, Res.ok_bind] using this

/-- C99, what happens in `A -= A(i,j)`: the entries after `(i,j)` (row by row) are unchanged, since the number subtracted
has become `0`. Missing: the entries after `(i,j)` (`C99_alias_false`). -/
theorem C99_alias_partial [AddGroup T] {v N M n k : Nat} {m : MRef (Store T) T} {ρ κ : Nat → Nat}
    (hm : ViewChain v N M m n k ρ κ) {s : Store T} {e : Nat → Nat → T} (he : (s v).Holds N M e) {i j : Nat}
    (hi : i < n) (hj : j < k) :
    (∃ s', subSAssign m (fun s => (m.view s).at_ i j) s = .ok s' ∧
      Overwritten s s' v N M e n k ρ κ (fun r c =>
        if r < i ∨ (r = i ∧ c ≤ j) then e (ρ r) (κ c) - e (ρ i) (κ j) else e (ρ r) (κ c))) ∧
    (∃ s', addSAssign m (fun s => (m.view s).at_ i j) s = .ok s' ∧
      Overwritten s s' v N M e n k ρ κ (fun r c =>
        if r < i ∨ (r = i ∧ c ≤ j) then e (ρ r) (κ c) + e (ρ i) (κ j)
        else e (ρ r) (κ c) + (e (ρ i) (κ j) + e (ρ i) (κ j)))) := by
  have h := (hm.on he.fits).1
  have hv := h.reads s e he
  refine ⟨⟨_, ?_, putOn_overwritten h he.fits _ _ _⟩, ⟨_, ?_, putOn_overwritten h he.fits _ _ _⟩⟩
  · unfold subSAssign
    rw [hv.size]
    have := lin_loop h he (x := fun r c =>
        if r < i ∨ (r = i ∧ c ≤ j) then e (ρ r) (κ c) - e (ρ i) (κ j) else e (ρ r) (κ c)) (g := fun q s => do
      let x ← (m.view s).lin q
      let y ← (m.view s).at_ i j
      return x - y) (fun r c F hr hc hF1 hF => by
        rw [(h.put_read he.fits).lin r c hr hc, hF r c hr hc (by omega), (h.put_read he.fits).get i j hi hj]
        by_cases hlt : i < r ∨ (i = r ∧ j < c)
        · rw [hF1 i j hi hj hlt, if_pos (by omega), if_neg (by omega)]
          show Res.ok _ = _
          rw [sub_self, sub_zero]
        · rw [hF i j hi hj hlt, if_pos (by omega)]; rfl)
    simpa only [bind_assoc, pure_bind] using this
  · unfold addSAssign
    rw [hv.size]
    have := lin_loop h he (x := fun r c =>
        if r < i ∨ (r = i ∧ c ≤ j) then e (ρ r) (κ c) + e (ρ i) (κ j)
        else e (ρ r) (κ c) + (e (ρ i) (κ j) + e (ρ i) (κ j))) (g := fun q s => do
      let x ← (m.view s).lin q
      let y ← (m.view s).at_ i j
      return x + y) (fun r c F hr hc hF1 hF => by
        rw [(h.put_read he.fits).lin r c hr hc, hF r c hr hc (by omega), (h.put_read he.fits).get i j hi hj]
        by_cases hlt : i < r ∨ (i = r ∧ j < c)
        · rw [hF1 i j hi hj hlt, if_pos (by omega), if_neg (by omega)]; rfl
        · rw [hF i j hi hj hlt, if_pos (by omega)]; rfl)
    simpa only [bind_assoc, pure_bind] using this

/-- The loop of the vector operators with a number that may change while the loop runs: `y k` is its value in iteration
`k`, when the elements before `k` have been replaced. -/
theorem vscalar_loop {op : T → T → Res T} {a n : Nat} {b : VStore T → Res T} {s : VStore T} {f g y : Nat → T}
    (ha : VRep (s a) n f)
    (hb : ∀ k, k < n → b (VStore.put s a (vtab n fun i => if i < k then g i else f i)) = .ok (y k))
    (hop : ∀ k, k < n → op (f k) (y k) = .ok (g k)) :
    ∃ s', vscalarAssign op a b s = .ok s' ∧ VRep (s' a) n g ∧ ∀ w, w ≠ a → s' w = s w := by
  unfold vscalarAssign
  rw [ha.2.1]
  rw [forRange_eq (Nat.zero_le n) (fun k => VStore.put s a (vtab n fun i => if i < k then g i else f i))]
  · refine ⟨_, rfl, ?_, fun w hw => if_neg hw⟩
    show VRep (if a = a then _ else _) _ _
    rw [if_pos rfl, vtab_congr (g := g) (fun i hi => if_pos hi)]
    exact vtab_vrep ha.1 _
  · funext w
    by_cases h : w = a
    · simp [VStore.put, h, ha.eq]
    · simp [VStore.put, h]
  · intro i _ hi
    have h1 : ∀ x, VStore.put s a x a = x := fun x => if_pos rfl
    rw [h1, vget_vtab hi, Res.ok_bind, hb i hi, Res.ok_bind, if_neg (by omega), hop i hi, Res.ok_bind, vset_vtab hi,
      Res.ok_bind]
    show Res.ok _ = _
    congr 1
    funext w
    by_cases h : w = a
    · subst h
      simp only [VStore.put, if_true]
      apply vtab_congr; intro j hj
      by_cases h3 : j = i
      · subst h3; simp
      · rw [Function.update_of_ne h3]
        by_cases h4 : j < i
        · rw [if_pos h4, if_pos (by omega)]
        · rw [if_neg h4, if_neg (by omega)]
    · simp [VStore.put, h]

/-- C99: the in-place operations of a vector variable and a number that is not one of its elements; other variables keep
their values. -/
theorem C99_vector_partial [Add T] [Sub T] [Mul T] [CDiv T] {a n : Nat} {s : VStore T} {f : Nat → T}
    (ha : VRep (s a) n f) (b : T) :
    (∃ s', vaddSAssign a (fun _ => .ok b) s = .ok s' ∧ VRep (s' a) n (fun i => f i + b) ∧ ∀ w, w ≠ a → s' w = s w) ∧
    (∃ s', vsubSAssign a (fun _ => .ok b) s = .ok s' ∧ VRep (s' a) n (fun i => f i - b) ∧ ∀ w, w ≠ a → s' w = s w) ∧
    (∃ s', vmulSAssign a (fun _ => .ok b) s = .ok s' ∧ VRep (s' a) n (fun i => f i * b) ∧ ∀ w, w ≠ a → s' w = s w) ∧
    ∀ g : Nat → T, (∀ i, i < n → cdiv (f i) b = .ok (g i)) →
      ∃ s', vdivSAssign a (fun _ => .ok b) s = .ok s' ∧ VRep (s' a) n g ∧ ∀ w, w ≠ a → s' w = s w :=
  ⟨vscalar_loop ha (fun _ _ => rfl) fun _ _ => rfl, vscalar_loop ha (fun _ _ => rfl) fun _ _ => rfl,
   vscalar_loop ha (fun _ _ => rfl) fun _ _ => rfl, fun _ hg => vscalar_loop ha (fun _ _ => rfl) hg⟩

/-- C99, what happens in `a *= a[j]` and `a /= a[j]` over a field: after position `j` the number has become `a[j]²` and
`1`, respectively. -/
theorem C99_vector_alias {K : Type} [Field K] [DecidableEq K] {a n j : Nat} {s : VStore K} {f : Nat → K}
    (ha : VRep (s a) n f) (hj : j < n) :
    (∃ s', vmulSAssign a (fun s => vget (s a) j) s = .ok s' ∧
      VRep (s' a) n (fun i => if i ≤ j then f i * f j else f i * (f j * f j)) ∧ ∀ w, w ≠ a → s' w = s w) ∧
    (f j ≠ 0 → ∃ s', vdivSAssign a (fun s => vget (s a) j) s = .ok s' ∧
      VRep (s' a) n (fun i => if i ≤ j then f i / f j else f i) ∧ ∀ w, w ≠ a → s' w = s w) := by
  constructor
  · refine vscalar_loop (y := fun k => if k ≤ j then f j else f j * f j) ha (fun k hk => ?_) fun k hk => ?_
    · rw [show ∀ x, VStore.put s a x a = x from fun x => if_pos rfl, vget_vtab hj]
      by_cases h : j < k
      · rw [if_pos h, if_pos (le_refl j), if_neg (by omega)]
      · rw [if_neg h, if_pos (by omega)]
    · by_cases h : k ≤ j
      · simp [h]
      · simp [h]
  · intro h0
    refine vscalar_loop (y := fun k => if k ≤ j then f j else 1) ha (fun k hk => ?_) fun k hk => ?_
    · rw [show ∀ x, VStore.put s a x a = x from fun x => if_pos rfl, vget_vtab hj]
      by_cases h : j < k
      · rw [if_pos h, if_pos (le_refl j), if_neg (by omega), div_self h0]
      · rw [if_neg h, if_pos (by omega)]
    · by_cases h : k ≤ j
      · simp only [if_pos h]; exact cdiv_ok _ h0
      · simp only [if_neg h]; rw [cdiv_ok _ one_ne_zero, div_one]

/-- C99 is false when the number is an element of the target: `[2 3] -= A(0,0)` gives `[0 3]` instead of `[0 1]`, and
`[2 3] *= a[0]` gives `[4 12]` instead of `[4 6]`. -/
theorem C99_alias_false : (∃ A : Mat Int, A.WF ∧ subS A.toMB 2 = .ok ⟨1, 2, [0, 1]⟩ ∧ A.at_ 0 0 = .ok 2 ∧
    (subSAssign (MRef.var 0) (fun s => (s 0).at_ 0 0) (fun _ => A) >>= fun s => .ok (s 0)) = .ok ⟨1, 2, [0, 3]⟩) ∧
    vmulS [2, 3] (2 : Int) = .ok [4, 6] ∧ vget [(2 : Int), 3] 0 = .ok 2 ∧
    (vmulSAssign 0 (fun s => vget (s 0) 0) (fun _ => [(2 : Int), 3]) >>= fun s => .ok (s 0)) = .ok [4, 12] := by
  refine ⟨⟨⟨1, 2, [2, 3]⟩, ⟨rfl, ?_, ?_, ?_⟩, ?_, ?_, ?_⟩, ?_, ?_, ?_⟩ <;> decide +kernel

/-- C99: scalar times vector, entry by entry; over a commutative ring the same as vector times scalar. -/
theorem C99_scalar_vector [Zero T] [Mul T] {b : List T} {n : Nat} {f} (hb : VRep b n f) (a : T) :
    ReturnsVec (svmul a b) n (fun i => a * f i) := ReturnsVec.of_eq (mapVec_eq hb fun _ _ => rfl)

/-- C99: a number before a vector and after it are the same, if the multiplication commutes. -/
theorem C99_scalar_commutes {K : Type} [CommRing K] (a : K) (b : List K) : svmul a b = vmulS b a := by
  unfold svmul vmulS; simp only [mul_comm a]

example : svmul (2 : Int) [1, 2, 3] = .ok [2, 4, 6] := by decide +kernel
example : (vaddSAssign 0 (fun _ => .ok 5) (fun _ => [(2 : Int), 3]) >>= fun s => .ok (s 0)) = .ok [7, 8] := by
  decide +kernel

/-! ## C100 -/

/-- C100: `hermitian_transpose` is the conjugate transpose, and equals `conjugate_transpose`. -/
theorem C100_hermitian_partial {K : Type} [Zero K] [Star K] {A : MB K} {n m : Nat} {M : Matrix (Fin n) (Fin m) K}
    (h : A.Is M) : Yields (hermitianTranspose star A) M.conjTranspose ∧
      hermitianTranspose star A = conjTranspose star A := by
  have : hermitianTranspose star A = conjTranspose star A := rfl
  exact ⟨this ▸ C48_conjugate h, this⟩

/-- C100: what the function handed to `element_wise_function` by `sign` computes: the sign of positive and negative
numbers. Missing: the sign of zero, and that `sign` returns what the function computes (`C100_sign_false`). -/
theorem C100_sign_partial {K : Type} [Ring K] [LinearOrder K] [IsStrictOrderedRing K] (x : K) :
    (0 < x → signOf x = 1) ∧ (x < 0 → signOf x = -1) ∧ (x ≠ 0 → signOf x * |x| = x) := by
  refine ⟨fun h => if_pos h, fun h => if_neg h.not_gt, fun h => ?_⟩
  rcases lt_or_gt_of_ne h with h | h
  · rw [show signOf x = -1 from if_neg h.not_gt, abs_of_neg h]; simp
  · rw [show signOf x = 1 from if_pos h, abs_of_pos h]; simp

/-- C100 is false: zero has sign −1, and `sign` returns its argument (vectors) or zeros (matrices) whatever the function
computes. -/
theorem C100_sign_false :
    (∀ {K : Type} [Ring K] [LinearOrder K] [IsStrictOrderedRing K], signOf (0 : K) = -1) ∧
    signVec [(5 : Int), -3] = .ok [5, -3] ∧ signMat (⟨1, 2, [5, -3]⟩ : Mat Int).toMB = .ok ⟨1, 2, [0, 0]⟩ := by
  refine ⟨fun {K} _ _ _ => if_neg (lt_irrefl 0), by decide +kernel, by decide +kernel⟩

/-- C100: so in every size `sign` of a vector is the vector and `sign` of a matrix is zero. -/
theorem C100_sign_entries {K : Type} [Ring K] [LinearOrder K] {a : List K} {p : Nat} {f} (ha : VRep a p f) {A : MB K}
    (hA : Fits A.rows A.cols) : ReturnsVec (signVec a) p f ∧ Returns (signMat A) A.rows A.cols (fun _ _ => (0 : K)) :=
  C46_shape_partial id signOf ha hA

example : hermitianTranspose (fun z : Int × Int => (z.1, -z.2)) (⟨1, 2, [(1, 2), (3, -4)]⟩ : Mat (Int × Int)).toMB =
    .ok ⟨2, 1, [(1, -2), (3, 4)]⟩ := by decide +kernel

end Malg
