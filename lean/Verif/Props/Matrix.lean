import Verif.Lemmas.Construct
import Verif.Lemmas.View
/-!
# Properties C06 – C10, C12, C13: the `Matrix` object
-/
namespace Malg
variable {T : Type}

/-! ## C06 -/

/-- C06: `A(r,c)` is the cell `A[r*cols+c]`, and reading it succeeds. -/
theorem C06_at_is_linear {A : Mat T} (h : A.WF) {r c : Nat} (hr : r < A.rows) (hc : c < A.cols) :
    A.at_ r c = A.lin (r * A.cols + c) ∧ ∃ x, A.data[r * A.cols + c]? = some x ∧ A.at_ r c = .ok x := by
  have hi : A.idx r c = r * A.cols + c := idx_eq h.2 hr hc
  have hlt : r * A.cols + c < A.data.length := by rw [h.1]; exact lin_lt hr hc
  refine ⟨by simp only [Mat.at_, Mat.lin, hi], A.data[r * A.cols + c], by simp [hlt], ?_⟩
  simp only [Mat.at_, hi]; exact vget_lt hlt

/-- C06: the addressing is a bijection between index pairs and linear positions. -/
theorem C06_address_bijection {A : Mat T} (h : A.WF) (i : Nat) (hi : i < A.data.length) :
    ∃ r c, r < A.rows ∧ c < A.cols ∧ A.idx r c = i ∧
      ∀ r' c', r' < A.rows → c' < A.cols → A.idx r' c' = i → r' = r ∧ c' = c := by
  rw [h.1] at hi
  have h1 := lin_of_lt hi
  refine ⟨i / A.cols, i % A.cols, h1.1, h1.2.1, ?_, ?_⟩
  · exact (idx_eq h.2 h1.1 h1.2.1).trans h1.2.2
  · intro r' c' hr hc he
    have : r' * A.cols + c' = i := by rw [← he]; exact (idx_eq h.2 hr hc).symm
    subst this
    exact ⟨(lin_div hc).symm, (lin_mod hc).symm⟩

/-- C06: a write changes the addressed element and nothing else; `A[r*cols+c] = x` is the same write. -/
theorem C06_write_frame {A : Mat T} {n m : Nat} {e} (h : A.Holds n m e) {r c : Nat} (hr : r < n) (hc : c < m)
    (x : T) :
    Returns (A.setAt r c x) n m (fun i j => if i = r ∧ j = c then x else e i j) ∧
    A.setLin (r * m + c) x = A.setAt r c x := by
  rw [h.eq]
  refine ⟨Returns.of_eq h.fits (ofFn_setAt h.fits hr hc), ?_⟩
  rw [ofFn_setAt h.fits hr hc, ofFn_setLin (lin_lt hr hc), lin_div hc, lin_mod hc]

/-- C06: linear access outside the storage is undefined behaviour, and it is the only check: a column
index that is too large silently reads the following row. -/
theorem C06_no_bounds_check {A : Mat T} (h : A.WF) :
    (∀ i, A.data.length ≤ i → A.lin i = .ub .oob) ∧
    (∀ r c, r + 1 < A.rows → c < A.cols → A.at_ r (A.cols + c) = A.at_ (r + 1) c) := by
  refine ⟨fun i hi => vget_ge hi, fun r c hr hc => ?_⟩
  have h1 := lin_lt hr hc
  have h2 := h.2.mul_lt_W
  have h3 : (r + 1) * A.cols + c = r * A.cols + (A.cols + c) := by rw [Nat.succ_mul]; omega
  simp only [Mat.at_, Mat.idx]
  rw [wmul_eq (a := r) (by omega), wmul_eq (a := r + 1) (by omega), wadd_eq (by omega), wadd_eq (by omega), h3]

example : (⟨2, 3, [1, 2, 3, 4, 5, 6]⟩ : Mat Int).WF := by
  refine ⟨rfl, ?_, ?_, ?_⟩ <;> decide +kernel
example : (⟨2, 3, [1, 2, 3, 4, 5, 6]⟩ : Mat Int).at_ 1 2 = .ok 6 := by decide +kernel
example : (⟨2, 3, [1, 2, 3, 4, 5, 6]⟩ : Mat Int).setAt 1 0 9 = .ok ⟨2, 3, [1, 2, 3, 9, 5, 6]⟩ := by
  decide +kernel
example : (⟨2, 3, [1, 2, 3, 4, 5, 6]⟩ : Mat Int).at_ 0 3 = .ok 4 := by decide +kernel

/-! ## C07 -/

/-- C07: `Matrix(n, m, x)`. -/
theorem C07_constant {n m : Nat} (hf : Fits n m) (x : T) : Returns (Mat.new n m x) n m (fun _ _ => x) :=
  Returns.of_eq hf (Mat.new_eq hf x)

/-- C07: `Matrix(n, m, list)` fills row by row; surplus data is ignored. -/
theorem C07_flat [Zero T] {n m : Nat} (hf : Fits n m) {l : List T} {e : Nat → Nat → T}
    (h : ∀ r c, r < n → c < m → l[r * m + c]? = some (e r c)) : Returns (Mat.ofFlat n m l) n m e :=
  Returns.of_eq hf (Mat.ofFlat_eq hf h)

/-- The loop of the flat constructors runs up to the end of the list and then reads past it. -/
theorem ofFlat_short [Zero T] {n m : Nat} (hf : Fits n m) {l : List T} (h : l.length < n * m) :
    Mat.ofFlat n m l = .ub .oob := by
  have hm : 0 < m := by
    rcases Nat.eq_zero_or_pos m with h0 | h0
    · subst h0; simp at h
    · exact h0
  simp only [Mat.ofFlat, Mat.new_eq hf, Res.ok_bind]
  -- the state before the failing read
  let F : Nat → Nat → Nat → T := fun k i j => if i * m + j < k then l.getD (i * m + j) 0 else 0
  obtain ⟨h1, h2, h3⟩ := lin_of_lt h
  generalize hr0 : l.length / m = r0 at h1 h3
  generalize hc0 : l.length % m = c0 at h2 h3
  have step : ∀ r c, r < n → c < m → r * m + c < l.length →
      (fun j (s : Mat T × Nat) => (do
          let x ← vget l s.2
          let A ← s.1.setAt r j x
          pure (A, s.2 + 1) : Res (Mat T × Nat))) c (Mat.ofFn n m (F (r * m + c)), r * m + c) =
        .ok (Mat.ofFn n m (F (r * m + c + 1)), r * m + c + 1) := by
    intro r c hr hc hlt
    simp only [vget_lt hlt, Res.ok_bind, ofFn_setAt hf hr hc, Res.pure_eq]
    congr 2
    apply ofFn_congr
    intro i j hi hj
    simp only [upd, F]
    by_cases h : i = r ∧ j = c
    · rw [if_pos h, if_pos (by rw [h.1, h.2]; omega), h.1, h.2]; simp [List.getD, hlt]
    · rw [if_neg h]
      have hne : i * m + j ≠ r * m + c := fun h' => h (lin_inj hj hc h')
      apply if_congr _ rfl rfl; omega
  have rowk : ∀ r c, r < n → c ≤ m → r * m + c ≤ l.length →
      forRange 0 c (Mat.ofFn n m (F (r * m)), r * m) (fun j (s : Mat T × Nat) => (do
          let x ← vget l s.2
          let A ← s.1.setAt r j x
          pure (A, s.2 + 1) : Res (Mat T × Nat))) = .ok (Mat.ofFn n m (F (r * m + c)), r * m + c) := by
    intro r c hr hc hle
    rw [forRange_eq (Nat.zero_le c) (fun c => (Mat.ofFn n m (F (r * m + c)), r * m + c))]
    · rfl
    · intro i _ hi; exact step r i hr (by omega) (by omega)
  have hrows : forRange 0 r0 (Mat.ofFn n m (F 0), 0) (fun i s => forRange 0 m s
      (fun j (s : Mat T × Nat) => (do
          let x ← vget l s.2
          let A ← s.1.setAt i j x
          pure (A, s.2 + 1) : Res (Mat T × Nat)))) = .ok (Mat.ofFn n m (F (r0 * m)), r0 * m) := by
    rw [forRange_eq (Nat.zero_le r0) (fun r => (Mat.ofFn n m (F (r * m)), r * m))]
    · simp
    · intro i _ hi
      have : (i + 1) * m ≤ r0 * m := Nat.mul_le_mul_right m hi
      rw [rowk i m (by omega) (Nat.le_refl _) (by rw [Nat.succ_mul] at this; omega)]
      simp only [Nat.succ_mul]
  have hF0 : (Mat.ofFn n m fun _ _ => (0 : T)) = Mat.ofFn n m (F 0) := by
    apply ofFn_congr; intro i j _ _; simp [F]
  rw [hF0, forRange_append (Nat.zero_le r0) (Nat.le_of_lt h1)]
  have key : (forRange r0 n (Mat.ofFn n m (F (r0 * m)), r0 * m) (fun i s => forRange 0 m s
      (fun j (s : Mat T × Nat) => (do
          let x ← vget l s.2
          let A ← s.1.setAt i j x
          pure (A, s.2 + 1) : Res (Mat T × Nat))))) = .ub .oob := by
    rw [forRange_lt h1, forRange_append (Nat.zero_le c0) (Nat.le_of_lt h2),
      rowk r0 c0 h1 (Nat.le_of_lt h2) (by omega), Res.ok_bind, forRange_lt h2]
    simp only [h3, vget_ge (Nat.le_refl _), Res.ub_bind]
  show ((forRange 0 r0 (Mat.ofFn n m (F 0), 0) (fun i s => forRange 0 m s
      (fun j (s : Mat T × Nat) => (do
          let x ← vget l s.2
          let A ← s.1.setAt i j x
          pure (A, s.2 + 1) : Res (Mat T × Nat)))) >>= fun s' => forRange r0 n s' (fun i s => forRange 0 m s
      (fun j (s : Mat T × Nat) => (do
          let x ← vget l s.2
          let A ← s.1.setAt i j x
          pure (A, s.2 + 1) : Res (Mat T × Nat))))) >>= _) = _
  rw [hrows, Res.ok_bind, key]; rfl

/-- C07: `Matrix(n, m, list)` with too little data reads past the end of the list. -/
theorem C07_flat_short [Zero T] {n m : Nat} (hf : Fits n m) {l : List T} (h : l.length < n * m) :
    Mat.ofFlat n m l = .ub .oob := ofFlat_short hf h

/-- C07: the nested-list constructor reproduces the rows. -/
theorem C07_nested [Zero T] {l : List (List T)} {n m : Nat} (hn : 0 < n) (hm : 0 < m) (hf : Fits n m)
    {e : Nat → Nat → T} (hl : l.length = n) (h0 : ∃ first, l[0]? = some first ∧ first.length = m)
    (h : ∀ r, r < n → ∃ row, l[r]? = some row ∧ ∀ c, c < m → row[c]? = some (e r c)) :
    Returns (Mat.ofNested l) n m e :=
  Returns.of_eq hf (Mat.ofNested_eq hn hm hf hl h0 h)

/-- C07: an empty outer list or an empty first row throws. -/
theorem C07_nested_empty [Zero T] :
    Mat.ofNested ([] : List (List T)) = .throw .invalidArgument ∧
    ∀ rest : List (List T), Mat.ofNested ([] :: rest) = .throw .invalidArgument := by
  refine ⟨rfl, fun rest => ?_⟩
  simp [Mat.ofNested, vget]

/-- C07: a row shorter than the first one is read past its end. -/
theorem C07_nested_ragged [Zero T] {l : List (List T)} {n m : Nat} (hf : Fits n m) (hl : l.length = n)
    (h0 : ∃ first, l[0]? = some first ∧ first.length = m) {k : Nat} (hk : k < n) {row : List T}
    (hrow : l[k]? = some row) (hshort : row.length < m)
    (hok : ∀ r, r < k → ∃ row, l[r]? = some row ∧ m ≤ row.length) :
    Mat.ofNested l = .ub .oob := by
  obtain ⟨first, h1, h2⟩ := h0
  have hn : 0 < n := by omega
  have hm : 0 < m := by omega
  simp only [Mat.ofNested, hl, Nat.ne_of_gt hn, if_false, vget_ok_iff.2 h1, Res.ok_bind, h2,
    Nat.ne_of_gt hm, hf.wmul, vnew_ok hf.1]
  rw [forRange_append (Nat.zero_le k) (Nat.le_of_lt hk)]
  have hpre := forRange_inv (Nat.zero_le k)
    (fun _ (A : Mat T) => ∃ f, A = Mat.ofFn n m f)
    (s := (⟨n, m, List.replicate (n * m) 0⟩ : Mat T))
    (body := fun i A => do
      let row ← vget l i
      forRange 0 m A fun j A => do
        let x ← vget row j
        Mat.setAt A i j x)
    ⟨fun _ _ => 0, by rw [replicate_eq_vtab]; rfl⟩
    (by
      rintro i A - hi ⟨f, rfl⟩
      obtain ⟨row, h3, h4⟩ := hok i hi
      simp only [vget_ok_iff.2 h3, Res.ok_bind]
      apply forRange_inv (Nat.zero_le m) (fun _ (A : Mat T) => ∃ f, A = Mat.ofFn n m f) ⟨f, rfl⟩
      rintro j A - hj ⟨f, rfl⟩
      rw [vget_lt (by omega), Res.ok_bind, ofFn_setAt hf (by omega) hj]
      exact ⟨_, rfl, _, rfl⟩)
  obtain ⟨A, hA, f, rfl⟩ := hpre
  rw [hA, Res.ok_bind, forRange_lt hk]
  simp only [vget_ok_iff.2 hrow, Res.ok_bind]
  have hcols := forRange_inv (Nat.zero_le row.length)
    (fun _ (A : Mat T) => ∃ f, A = Mat.ofFn n m f) (s := Mat.ofFn n m f)
    (body := fun j A => do
        let x ← vget row j
        Mat.setAt A k j x) ⟨f, rfl⟩
    (by
      rintro j A - hj ⟨f, rfl⟩
      rw [vget_lt (by omega), Res.ok_bind, ofFn_setAt hf hk (by omega)]
      exact ⟨_, rfl, _, rfl⟩)
  obtain ⟨B, hB, -⟩ := hcols
  rw [forRange_append (Nat.zero_le _) (Nat.le_of_lt hshort), hB, Res.ok_bind, forRange_lt hshort,
    vget_ge (Nat.le_refl _)]
  rfl

/-- C07: constructing from any matrix-like object copies shape and entries. -/
theorem C07_copy [Zero T] {b : MB T} {n m : Nat} {e} (h : Rep b n m e) :
    Returns (Mat.ofMB b id) n m e := Returns.of_eq h.fits (Mat.ofMB_eq h id)

/-- C07: … with element conversion. -/
theorem C07_convert {S : Type} [Zero T] {b : MB S} {n m : Nat} {e} (h : Rep b n m e) (conv : S → T) :
    Returns (Mat.ofMB b conv) n m (fun r c => conv (e r c)) := Returns.of_eq h.fits (Mat.ofMB_eq h conv)

/-- C07: `Vector(size, list)` holds the elements of the list, whose length has to be the size. -/
theorem C07_vector (size : Nat) (l : List T) :
    (∀ {f : Nat → T}, size = l.length → size < allocMax → (∀ i, i < size → l[i]? = some (f i)) →
      ∃ v, vnewList size l = .ok v ∧ VRep v size f) ∧
    (size ≠ l.length → vnewList size l = .abort) := by
  refine ⟨fun h1 h2 h3 => ⟨l, ?_, h2, h1.symm, h3⟩, fun h => if_neg h⟩
  rw [vnewList, if_pos h1, if_pos h2]

example : vnewList 2 [(1 : Int), 2] = .ok [1, 2] ∧ vnewList 3 [(1 : Int), 2] = .abort := by decide +kernel
example : Mat.ofFlat 2 2 [(1 : Int), 2, 3, 4, 5] = .ok ⟨2, 2, [1, 2, 3, 4]⟩ := by decide +kernel
example : Mat.ofFlat 2 2 [(1 : Int), 2, 3] = .ub .oob := by decide +kernel
example : Mat.ofNested [[(1 : Int), 2, 3], [4, 5, 6]] = .ok ⟨2, 3, [1, 2, 3, 4, 5, 6]⟩ := by decide +kernel
example : Mat.ofNested [[(1 : Int), 2, 3], [4, 5]] = .ub .oob := by decide +kernel
example : Mat.ofNested [[(1 : Int), 2], [4, 5, 6]] = .ok ⟨2, 2, [1, 2, 4, 5]⟩ := by decide +kernel
example : Rep (Mat.ofFn 2 2 fun r c => (r + c : Nat)).toMB 2 2 (fun r c => r + c) :=
  ofFn_rep (by refine ⟨?_, ?_, ?_⟩ <;> decide +kernel) _

/-! ## C08 -/

/-- C08: `reshape` succeeds exactly for the same number of elements; the linear sequence and nothing but
the shape changes; otherwise `invalid_argument` (and, the call having no effect, `A` is as before). -/
theorem C08_reshape {A : Mat T} (h : A.WF) {r c : Nat} (hrc : r * c < W) :
    (r * c = A.data.length → A.reshape r c = .ok { rows := r, cols := c, data := A.data }) ∧
    (r * c ≠ A.data.length → A.reshape r c = .throw .invalidArgument) := by
  have hs : A.size = A.data.length := by rw [h.1]; exact h.2.wmul
  simp only [Mat.reshape, hs, wmul_eq hrc]
  constructor
  · intro h1; rw [if_neg (by simp [h1])]
  · intro h1; rw [if_pos (by intro h2; exact h1 h2.symm)]

/-- C08: the reshaped matrix is consistent and keeps every `A[i]`. -/
theorem C08_reshape_entries {A : Mat T} {n m : Nat} {e} (h : A.Holds n m e) {r c : Nat} (hf : Fits r c)
    (heq : r * c = n * m) :
    ∃ B, A.reshape r c = .ok B ∧ B.WF ∧ B.rows = r ∧ B.cols = c ∧ ∀ i, B.lin i = A.lin i := by
  have hl : A.data.length = n * m := by rw [h.wf.1, show A.rows = n from h.rep.rows, show A.cols = m from h.rep.cols]
  refine ⟨_, (C08_reshape h.wf hf.mul_lt_W).1 (by omega), ⟨by simp only; omega, hf⟩, rfl, rfl, fun i => rfl⟩

example : Mat.reshape (⟨2, 3, [1, 2, 3, 4, 5, 6]⟩ : Mat Int) 3 2 = .ok ⟨3, 2, [1, 2, 3, 4, 5, 6]⟩ := by
  decide +kernel
example : Mat.reshape (⟨2, 3, [1, 2, 3, 4, 5, 6]⟩ : Mat Int) 4 2 = .throw .invalidArgument := by
  decide +kernel

/-! ## C09 -/

/-- C09: `resize` keeps the common block and zero-fills. -/
theorem C09_resize [Zero T] {A : Mat T} {n m : Nat} {e} (h : A.Holds n m e) {r c : Nat} (hf : Fits r c) :
    Returns (A.resize r c) r c (fun i j => if i < n ∧ j < m then e i j else 0) := by
  rw [h.eq]; exact Returns.of_eq hf (Mat.resize_eq h.fits hf)

example : Mat.resize (⟨2, 2, [1, 2, 3, 4]⟩ : Mat Int) 3 3 = .ok ⟨3, 3, [1, 2, 0, 3, 4, 0, 0, 0, 0]⟩ := by
  decide +kernel
example : Mat.resize (⟨2, 2, [1, 2, 3, 4]⟩ : Mat Int) 1 2 = .ok ⟨1, 2, [1, 2]⟩ := by decide +kernel

/-! ## C10 -/

/-- C10, the part that holds: assignment from a non-empty source that does not share data with the target
makes the target equal to it. Missing from the full property: empty sources and views of the target (see
`C10_empty_source_ignored` and `C10_own_view_false`). -/
theorem C10_assign_partial [Zero T] {A : Mat T} {b : MB T} {n m : Nat} {e} (h : RepAt b n m e)
    (hpos : 0 < n * m) : Returns (A.assign b) n m e :=
  Returns.of_eq h.fits (Mat.assign_eq h hpos)

/-- C10: move assignment from a non-empty source takes over shape and elements. -/
theorem C10_move_assign_partial {A B : Mat T} {n m : Nat} {e} (h : B.Holds n m e) (hpos : 0 < n * m) :
    (A.moveAssign B).1 = B := by
  have hs : B.size = n * m := h.rep.size
  simp [Mat.moveAssign, hs, hpos]

/-- C10 is false for empty sources: assigning any empty matrix leaves the target as it was. -/
theorem C10_empty_source_ignored [Zero T] (A : Mat T) {b : MB T} {n m : Nat} {e} (h : RepAt b n m e)
    (h0 : n * m = 0) : A.assign b = .ok A := by
  simp [Mat.assign, Mat.assignFrom, h.size, h0]

/-- C10 is false: `A = Matrix()` does not make `A` empty. -/
theorem C10_empty_false : ∃ A : Mat Int, A.WF ∧ A.assign (Mat.empty0 : Mat Int).toMB = .ok A ∧
    A ≠ Mat.empty0 ∧ (A.moveAssign Mat.empty0).1 ≠ Mat.empty0 := by
  refine ⟨⟨1, 1, [5]⟩, ⟨rfl, ?_, ?_, ?_⟩, ?_, ?_, ?_⟩ <;> decide +kernel

/-- C10 is false: assigning a view of the target destroys it; `A = A(Range{0,1}, Range{0,1})` yields zero
instead of `A(0,0)`, and a view that does not start at the first row reads freed storage. -/
theorem C10_own_view_false : ∃ A : Mat Int, A.WF ∧
    A.assignFrom (fun A => A.toMB.view ⟨0, 1⟩ ⟨0, 1⟩) id = .ok ⟨1, 1, [0]⟩ ∧ A.at_ 0 0 = .ok 1 ∧
    A.assignFrom (fun A => A.toMB.view ⟨1, 2⟩ ⟨1, 2⟩) id = .ub .oob ∧ A.at_ 1 1 = .ok 4 := by
  refine ⟨⟨2, 2, [1, 2, 3, 4]⟩, ⟨rfl, ?_, ?_, ?_⟩, ?_, ?_, ?_, ?_⟩ <;> decide +kernel

/-- C10: assignment from a nested list. -/
theorem C10_assign_nested [Zero T] (A : Mat T) (l : List (List T)) (h : Mat.ofNested l ≠ .throw .invalidArgument) :
    A.assignNested l = Mat.ofNested l := by
  unfold Mat.assignNested Mat.ofNested at *
  split
  · rename_i h0; rw [if_pos h0] at h; exact absurd rfl h
  · rename_i h0
    rw [if_neg h0] at h
    cases hv : vget l 0 with
    | ok first =>
      simp only [hv, Res.ok_bind] at h ⊢
      split
      · rename_i h1; rw [if_pos h1] at h; exact absurd rfl h
      · rfl
    | _ => rfl

example : (⟨1, 1, [5]⟩ : Mat Int).assign (⟨1, 2, [6, 7]⟩ : Mat Int).toMB = .ok ⟨1, 2, [6, 7]⟩ := by
  decide +kernel

/-! ## C12 -/

/-- C12 is false: a moved-from matrix still reports its old shape, but every element access within that
shape is undefined, and so is copying it. -/
theorem C12_moved_from_false [Zero T] {A : Mat T} {n m : Nat} {e} (h : A.Holds n m e) (hpos : 0 < n * m) :
    (A.move).1 = A ∧ (A.move).2.rows = n ∧ (A.move).2.cols = m ∧ (A.move).2.size = n * m ∧
    (∀ r c, r < n → c < m → (A.move).2.at_ r c = .ub .oob) ∧
    (A.move).2.copy = .ub .oob ∧ ¬ (A.move).2.WF := by
  have hr : A.rows = n := h.rep.rows
  have hc : A.cols = m := h.rep.cols
  have hs : A.size = n * m := h.rep.size
  have hdata : (A.move).2 = ⟨n, m, []⟩ := by simp [Mat.move, hr, hc]
  refine ⟨rfl, hr, hc, ?_, ?_, ?_, ?_⟩
  · rw [hdata]; exact h.fits.wmul
  · intro r c _ _; rw [hdata]; exact vget_ge (Nat.zero_le _)
  · rw [hdata]
    simp only [Mat.copy, Mat.ofMB, Mat.toMB, h.fits.wmul, vnew_ok h.fits.1, Res.ok_bind]
    rw [forRange_lt hpos]
    simp [Mat.lin, vget]
  · rw [hdata]; rintro ⟨h1, -⟩; simp only [List.length_nil] at h1; omega

/-- C12, the part that holds: a moved-from matrix (of any shape) can be assigned from a non-empty matrix and
is then valid, and resizing it to a different number of rows gives zeros. Missing: everything in
`C12_moved_from_false`, `C12_resize_same_shape_false` and `C12_resize_columns_false`. -/
theorem C12_reuse_partial [Zero T] {A : Mat T} {n m : Nat} {e} (h : A.Holds n m e)
    {b : MB T} {n' m' : Nat} {e'} (hb : RepAt b n' m' e') (hpos : 0 < n' * m') :
    Returns ((A.move).2.assign b) n' m' e' ∧
    ∀ k, Fits k m → k ≠ n → Returns ((A.move).2.resize k m) k m (fun _ _ => 0) := by
  refine ⟨C10_assign_partial hb hpos, fun k hk hkn => ?_⟩
  have hr : A.rows = n := h.rep.rows
  have hc : A.cols = m := h.rep.cols
  apply Returns.of_eq hk
  simp only [Mat.move, Mat.resize, hr, hc]
  rw [if_neg (by rintro ⟨h1, -⟩; exact hkn h1.symm), if_pos trivial]
  simp only [vresize, hk.wmul, hk.1, if_true, Res.ok_bind, Res.pure_eq, List.take_nil, List.nil_append,
    List.length_nil, Nat.sub_zero, replicate_eq_vtab]
  rfl

/-- C12: resizing a moved-from matrix to its own shape does not repair it. -/
theorem C12_resize_same_shape_false [Zero T] (A : Mat T) :
    (A.move).2.resize A.rows A.cols = .ok (A.move).2 := by
  simp [Mat.move, Mat.resize]

/-- C12: resizing a moved-from matrix to another number of columns is undefined: the elements to keep are read from the storage that is gone. -/
theorem C12_resize_columns_false [Zero T] {A : Mat T} {n m : Nat} {e} (h : A.Holds n m e) (hpos : 0 < n * m) {k l : Nat} (hf : Fits k l)
    (hk : 0 < k * l) (hl : l ≠ m) : (A.move).2.resize k l = .ub .oob := by
  have hr : A.rows = n := h.rep.rows
  have hc : A.cols = m := h.rep.cols
  have hdata : (A.move).2 = ⟨n, m, []⟩ := by simp [Mat.move, hr, hc]
  have hn := Nat.pos_of_mul_pos_right hpos
  have hm := Nat.pos_of_mul_pos_left hpos
  have hk' := Nat.pos_of_mul_pos_right hk
  have hl' := Nat.pos_of_mul_pos_left hk
  rw [hdata]
  unfold Mat.resize
  rw [if_neg (fun h => hl h.2.symm), if_neg (fun h => hl h.symm), Mat.new_eq hf, Res.ok_bind, forRange_lt (by simp; omega),
    forRange_lt (by simp; omega)]
  simp [Mat.at_, vget]

example : (⟨1, 2, [6, 7]⟩ : Mat Int).Holds 1 2 (fun _ c => 6 + c) :=
  (by
    have h := ofFn_holds (n := 1) (m := 2) (by refine ⟨?_, ?_, ?_⟩ <;> decide +kernel) (fun _ c => (6 + c : Int))
    exact h)

/-! ## C13 -/

/-- C13, the part that holds: below the limits a constructed matrix has `size() = rows*cols`. -/
theorem C13_no_wrap_partial {n m : Nat} (hf : Fits n m) (x : T) :
    ∃ A, Mat.new n m x = .ok A ∧ A.size = n * m ∧ A.data.length = n * m :=
  ⟨_, Mat.new_eq hf x, hf.wmul, by simp⟩

/-- C13 is false: `Matrix(2^32, 2^32)` succeeds and holds no element although its dimensions promise
`2^64`; reading `(0,0)` is then undefined. -/
theorem C13_wrap_false (x : T) : ∃ A : Mat T, Mat.new (2 ^ 32) (2 ^ 32) x = .ok A ∧ A.rows = 2 ^ 32 ∧
    A.cols = 2 ^ 32 ∧ A.size = 0 ∧ A.data = [] ∧ A.at_ 0 0 = .ub .oob ∧ A.isEmpty = false := by
  have h0 : wmul (2 ^ 32) (2 ^ 32) = 0 := by decide +kernel
  have h1 : (0 : Nat) < allocMax := allocMax_pos
  refine ⟨⟨2 ^ 32, 2 ^ 32, []⟩, ?_, rfl, rfl, h0, rfl, ?_, ?_⟩
  · unfold Mat.new vnew; rw [h0, if_pos h1]; rfl
  · exact vget_ge (Nat.zero_le _)
  · rfl

/-- C13 is false for `reshape`: a `2 × 2` matrix is accepted as a `3 × 12297829382473034412` matrix because
the product wraps to 4. -/
theorem C13_reshape_wrap_false : ∃ (A : Mat Int) (c : Nat), A.WF ∧ c < W ∧ A.data.length ≠ 3 * c ∧
    A.reshape 3 c = .ok ⟨3, c, A.data⟩ := by
  refine ⟨⟨2, 2, [1, 2, 3, 4]⟩, 12297829382473034412, ⟨rfl, ?_, ?_, ?_⟩, ?_, ?_, ?_⟩ <;> decide +kernel

end Malg
