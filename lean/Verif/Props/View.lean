import Verif.Lemmas.Ref
import Verif.Lemmas.Construct
import Verif.Model.Utility
/-!
# Properties C14 – C19: views
-/
namespace Malg
variable {T : Type}

theorem fits_small {n m : Nat} (hn : n < 2 ^ 31) (hm : m < 2 ^ 31) : Fits n m := by
  have h1 : n * m ≤ 2 ^ 31 * 2 ^ 31 := Nat.mul_le_mul (Nat.le_of_lt hn) (Nat.le_of_lt hm)
  refine ⟨?_, ?_, ?_⟩ <;> simp only [allocMax_eq, W_eq] <;> omega

/-! ## C14 -/

/-- C14: a view with ranges starting inside shows the selected block, in both access styles. The hypothesis
covers matrices, views, nested views: everything that represents a table by `(r,c)` access. -/
theorem C14_view {b : MB T} {n m : Nat} {e} (h : RepAt b n m e) {row col : Range}
    (hok : viewOk row col = true) (hr : row.start ≤ n) (hc : col.start ≤ m) :
    ∃ w, b.mkView row col = .ok w ∧
      Rep w (min row.stop n - row.start) (min col.stop m - col.start)
        (fun r c => e (row.start + r) (col.start + c)) := by
  refine ⟨_, if_pos hok, ?_⟩
  simp only [viewOk, Bool.and_eq_true, decide_eq_true_eq] at hok
  exact view_repAt h hr (by omega) hc (by omega)

/-- C14: an empty or reversed range is rejected by the constructor's assertion. -/
theorem C14_bad_range (b : MB T) (row col : Range) (h : row.stop ≤ row.start ∨ col.stop ≤ col.start) :
    b.mkView row col = .abort := by
  unfold MB.mkView viewOk
  rw [if_neg]
  simp only [Bool.and_eq_true, decide_eq_true_eq]; omega

/-- C14: `Range::all()` selects everything. -/
theorem C14_all {b : MB T} {n m : Nat} {e} (h : RepAt b n m e) :
    ∃ w, b.mkView Range.all Range.all = .ok w ∧ Rep w n m e := by
  have hW := one_lt_W
  obtain ⟨w, h1, h2⟩ := C14_view h (row := Range.all) (col := Range.all)
    (by rw [viewOk, Bool.and_eq_true, decide_eq_true_eq]; simp only [Range.all]; omega)
    (Nat.zero_le _) (Nat.zero_le _)
  refine ⟨w, h1, ?_⟩
  have e1 : min Range.all.stop n - Range.all.start = n := by
    have := h.fits.2.1; simp only [Range.all]; omega
  have e2 : min Range.all.stop m - Range.all.start = m := by
    have := h.fits.2.2; simp only [Range.all]; omega
  rw [e1, e2] at h2
  simpa [Range.all] using h2

/-- C14: a view of a view shows the block at the added offsets. -/
theorem C14_nested {b : MB T} {n m : Nat} {e} (h : RepAt b n m e) {r1 c1 r2 c2 : Range}
    (h1 : viewOk r1 c1 = true) (h2 : viewOk r2 c2 = true) (hr : r1.stop ≤ n) (hc : c1.stop ≤ m)
    (hr2 : r2.stop ≤ r1.stop - r1.start) (hc2 : c2.stop ≤ c1.stop - c1.start) :
    ∃ w, (b.mkView r1 c1 >>= fun w => w.mkView r2 c2) = .ok w ∧
      Rep w (r2.stop - r2.start) (c2.stop - c2.start)
        (fun r c => e (r1.start + r2.start + r) (c1.start + c2.start + c)) := by
  have h1' := h1
  have h2' := h2
  simp only [viewOk, Bool.and_eq_true, decide_eq_true_eq] at h1' h2'
  obtain ⟨w1, e1, p1⟩ := C14_view h h1 (by omega) (by omega)
  obtain ⟨w2, e2, p2⟩ := C14_view p1.toRepAt h2 (by omega) (by omega)
  refine ⟨w2, by rw [e1, Res.ok_bind, e2], ?_⟩
  have a1 : min r2.stop (min r1.stop n - r1.start) - r2.start = r2.stop - r2.start := by omega
  have a2 : min c2.stop (min c1.stop m - c1.start) - c2.start = c2.stop - c2.start := by omega
  rw [a1, a2] at p2
  exact p2.congr (fun r c _ _ => by simp only [Nat.add_assoc])

/-- C14: `utility::row` and `utility::col`. -/
theorem C14_row_col {b : MB T} {n m : Nat} {e} (h : RepAt b n m e) {i j : Nat} (hi : i < n) (hj : j < m) :
    (∃ w, b.mkRow i 0 (W - 1) = .ok w ∧ Rep w 1 m (fun _ c => e i c)) ∧
    (∃ w, b.mkCol j 0 (W - 1) = .ok w ∧ Rep w n 1 (fun r _ => e r j)) := by
  have hn := h.fits.2.1
  have hm := h.fits.2.2
  have hW := one_lt_W
  constructor
  · obtain ⟨w, h1, h2⟩ := C14_view h (row := ⟨i, i + 1⟩) (col := ⟨0, W - 1⟩)
      (by simp only [viewOk, Bool.and_eq_true, decide_eq_true_eq]; omega) (by simp only; omega) (by simp)
    refine ⟨w, by unfold MB.mkRow; rw [wadd_eq (by omega)]; exact h1, ?_⟩
    have e1 : min (i + 1) n - i = 1 := by omega
    have e2 : min (W - 1) m - 0 = m := by omega
    simp only [e1, e2] at h2
    exact h2.congr (fun r c hr _ => by
      have : r = 0 := by omega
      subst this; simp)
  · obtain ⟨w, h1, h2⟩ := C14_view h (row := ⟨0, W - 1⟩) (col := ⟨j, j + 1⟩)
      (by simp only [viewOk, Bool.and_eq_true, decide_eq_true_eq]; omega) (by simp) (by simp only; omega)
    refine ⟨w, by unfold MB.mkCol; rw [wadd_eq (by omega)]; exact h1, ?_⟩
    have e1 : min (j + 1) m - j = 1 := by omega
    have e2 : min (W - 1) n - 0 = n := by omega
    simp only [e1, e2] at h2
    exact h2.congr (fun r c _ hc => by
      have : c = 0 := by omega
      subst this; simp)

example : RepAt (Mat.ofFn 3 4 fun r c => (10 * r + c : Nat)).toMB 3 4 (fun r c => 10 * r + c) ∧
    viewOk ⟨1, 3⟩ ⟨1, 3⟩ = true ∧ ((Mat.ofFn 3 4 fun r c => (10 * r + c : Nat)).toMB.view ⟨1, 3⟩ ⟨1, 3⟩).lin 2 = .ok 21 :=
  ⟨(ofFn_rep (fits_small (by norm_num) (by norm_num)) _).toRepAt, rfl, by decide +kernel⟩

/-! ## C15 -/

/-- A view chain of any depth on matrix variable `v`: `A`, `A(r,c)`, `View(&A(r,c), …)`, …; each level starts
inside the previous one. The last four indices are its dimensions and the addresses of its rows and columns in
`v`. -/
inductive ViewChain (v N M : Nat) : MRef (Store T) T → Nat → Nat → (Nat → Nat) → (Nat → Nat) → Prop
  | var : ViewChain v N M (MRef.var v) N M id id
  | sub {m n k ρ κ} (row col : Range) : ViewChain v N M m n k ρ κ → viewOk row col = true →
      row.start ≤ n → col.start ≤ k →
      ViewChain v N M (m.sub row col) (min row.stop n - row.start) (min col.stop k - col.start)
        (fun r => ρ (row.start + r)) (fun c => κ (col.start + c))

theorem ViewChain.on {v N M n k : Nat} {m : MRef (Store T) T} {ρ κ} (hf : Fits N M)
    (h : ViewChain v N M m n k ρ κ) : On m v N M n k ρ κ ∧ n ≤ N ∧ k ≤ M := by
  induction h with
  | var => exact ⟨On.var, Nat.le_refl _, Nat.le_refl _⟩
  | sub row col _ hok hr hc ih =>
    have h1 := hf.2.1
    have h2 := hf.2.2
    simp only [viewOk, Bool.and_eq_true, decide_eq_true_eq] at hok
    exact ⟨ih.1.sub (by omega) (by omega) hr (by omega) hc (by omega), by omega, by omega⟩

/-- C15: a write through a view of any nesting depth, by `(r,c)` or by `[i]`, changes exactly the selected
entry. -/
theorem C15_write {v N M n k : Nat} {m : MRef (Store T) T} {ρ κ} (hm : ViewChain v N M m n k ρ κ)
    {s : Store T} {e} (he : (s v).Holds N M e) {r c : Nat} (hr : r < n) (hc : c < k) (x : T) :
    ρ r < N ∧ κ c < M ∧
    (∃ s', m.setAt s r c x = .ok s' ∧ m.setLin s (r * k + c) x = .ok s' ∧
      (s' v).Holds N M (fun i j => if i = ρ r ∧ j = κ c then x else e i j) ∧ ∀ w, w ≠ v → s' w = s w) := by
  have h := (hm.on he.fits).1
  obtain ⟨s', h1, h2, h3⟩ := h.write s e r c x he hr hc
  exact ⟨h.rho_lt r hr, h.kap_lt c hc, s', h1, (h.writeLin s e r c x he hr hc).trans h1, h2, h3⟩

/-- C15: writing through a `CofactorView` of a square matrix or view. -/
theorem C15_write_cofactor {v N M n : Nat} {m : MRef (Store T) T} {ρ κ} (hm : ViewChain v N M m n n ρ κ)
    (p q : Nat) {s : Store T} {e} (he : (s v).Holds N M e) {r c : Nat} (hr : r < n - 1) (hc : c < n - 1) (x : T) :
    ∃ s', (m.cofactor p q).setAt s r c x = .ok s' ∧ (m.cofactor p q).setLin s (r * (n - 1) + c) x = .ok s' ∧
      (s' v).Holds N M (fun i j => if i = ρ (if r < p then r else r + 1) ∧ j = κ (if c < q then c else c + 1)
        then x else e i j) ∧ ∀ w, w ≠ v → s' w = s w := by
  have h0 := hm.on he.fits
  have hW := he.fits.2.1
  have h := h0.1.cofactor (by omega) (by omega) p q
  obtain ⟨s', h1, h2, h3⟩ := h.write s e r c x he hr hc
  exact ⟨s', h1, (h.writeLin s e r c x he hr hc).trans h1, h2, h3⟩

example : ViewChain (T := Int) 0 3 3 (((MRef.var 0).sub ⟨1, 3⟩ ⟨0, 3⟩).sub ⟨1, 9⟩ ⟨1, 2⟩) (min 9 (min 3 3 - 1) - 1)
    (min 2 (min 3 3 - 0) - 1) (fun r => id (1 + (1 + r))) (fun c => id (0 + (1 + c))) :=
  .sub _ _ (.sub _ _ .var rfl (by decide) (by decide)) rfl (by decide) (by decide)

/-! ## C16 -/

/-- C16, the part that holds: `view = B` copies `B`'s former contents into the viewed cells and leaves the
rest, provided no source cell is overwritten before it is read. Missing: overlaps that violate this
(`C16_overlap_false`). -/
theorem C16_assign_partial {v N M n k w N' M' : Nat} {m m' : MRef (Store T) T} {ρ κ ρ' κ' : Nat → Nat}
    (hm : ViewChain v N M m n k ρ κ) (hm' : ViewChain w N' M' m' n k ρ' κ')
    (hnc : w = v → NoClobber n k ρ κ ρ' κ')
    {s : Store T} {e e' : Nat → Nat → T} (he : (s v).Holds N M e) (he' : (s w).Holds N' M' e') :
    ∃ s', m.assign m'.view id s = .ok s' ∧
      Overwritten s s' v N M e n k ρ κ (fun r c => e' (ρ' r) (κ' c)) := by
  have h := (hm.on he.fits).1
  have h' := (hm'.on he'.fits).1
  have hv := h'.reads s e' he'
  refine ⟨_, h.assign_eq he hv.rows hv.cols (fun r c F hr hc hF => ?_), putOn_overwritten h he.fits _ _ _⟩
  exact (shows_put h he.fits h'.reads h'.rho_lt h'.kap_lt hnc he he' hr hc hF).1

/-- C16: a source in another variable is always fine. -/
theorem C16_assign_disjoint {v N M n k w N' M' : Nat} {m m' : MRef (Store T) T} {ρ κ ρ' κ' : Nat → Nat}
    (hm : ViewChain v N M m n k ρ κ) (hm' : ViewChain w N' M' m' n k ρ' κ') (hvw : w ≠ v)
    {s : Store T} {e e' : Nat → Nat → T} (he : (s v).Holds N M e) (he' : (s w).Holds N' M' e') :
    ∃ s', m.assign m'.view id s = .ok s' ∧
      Overwritten s s' v N M e n k ρ κ (fun r c => e' (ρ' r) (κ' c)) :=
  C16_assign_partial hm hm' (fun h => absurd h hvw) he he'

/-- C16: so are self-assignment and blocks that move towards the start of the matrix. -/
theorem C16_assign_shift {v N M n k : Nat} {m m' : MRef (Store T) T} {ρ κ ρ' κ' : Nat → Nat}
    (hm : ViewChain v N M m n k ρ κ) (hm' : ViewChain v N M m' n k ρ' κ')
    {a b a' b' : Nat} (hρ : ∀ r, ρ r = a + r) (hκ : ∀ c, κ c = b + c) (hρ' : ∀ r, ρ' r = a' + r)
    (hκ' : ∀ c, κ' c = b' + c) (hle : a < a' ∨ (a = a' ∧ b ≤ b'))
    {s : Store T} {e : Nat → Nat → T} (he : (s v).Holds N M e) :
    ∃ s', m.assign m'.view id s = .ok s' ∧
      Overwritten s s' v N M e n k ρ κ (fun r c => e (a' + r) (b' + c)) := by
  have := C16_assign_partial hm hm' (fun _ r c r' c' _ _ _ _ hlt h => ?_) he he
  · simpa only [hρ', hκ'] using this
  · rw [hρ, hρ', hκ, hκ'] at h; omega

/-- C16: assigning a matrix of another element type converts. -/
theorem C16_assign_convert {R : Type} {v N M n k : Nat} {m : MRef (Store T) T} {ρ κ : Nat → Nat}
    (hm : ViewChain v N M m n k ρ κ) {b : MB R} {x : Nat → Nat → R} (hb : RepAt b n k x) (conv : R → T)
    {s : Store T} {e : Nat → Nat → T} (he : (s v).Holds N M e) :
    ∃ s', m.assign (fun _ => b) conv s = .ok s' ∧
      Overwritten s s' v N M e n k ρ κ (fun r c => conv (x r c)) := by
  have h := (hm.on he.fits).1
  exact ⟨_, h.assign_eq he hb.rows hb.cols (fun r c F hr hc hF => hb.get r c hr hc), putOn_overwritten h he.fits _ _ _⟩

/-- C16: different dimensions are rejected by the assertions. -/
theorem C16_assign_mismatch {R : Type} {v N M n k n' k' : Nat} {m : MRef (Store T) T} {ρ κ : Nat → Nat}
    (hm : ViewChain v N M m n k ρ κ) {b : MB R} {x : Nat → Nat → R} (hb : RepAt b n' k' x) (conv : R → T)
    {s : Store T} {e : Nat → Nat → T} (he : (s v).Holds N M e) (hne : n ≠ n' ∨ k ≠ k') :
    m.assign (fun _ => b) conv s = .abort := by
  have hv := (hm.on he.fits).1.reads s e he
  unfold MRef.assign
  rw [hv.rows, hv.cols]
  simp only [hb.rows, hb.cols]
  rcases hne with h | h
  · rw [if_pos h]
  · by_cases h' : n ≠ n'
    · rw [if_pos h']
    · rw [if_neg h', if_pos h]

/-- C16: a nested list of the right shape is copied. -/
theorem C16_assign_nested {v N M n k : Nat} {m : MRef (Store T) T} {ρ κ : Nat → Nat}
    (hm : ViewChain v N M m n k ρ κ) {s : Store T} {e : Nat → Nat → T} (he : (s v).Holds N M e)
    {l : List (List T)} {x : Nat → Nat → T} (hn : 0 < n) (hk : 0 < k) (hl : l.length = n)
    (h0 : ∃ first, l[0]? = some first ∧ first.length = k)
    (hx : ∀ r, r < n → ∃ row, l[r]? = some row ∧ ∀ c, c < k → row[c]? = some (x r c)) :
    ∃ s', m.assignNested l s = .ok s' ∧ Overwritten s s' v N M e n k ρ κ x := by
  have h := (hm.on he.fits).1
  have hv := h.reads s e he
  obtain ⟨first, h1, h2⟩ := h0
  refine ⟨_, ?_, putOn_overwritten h he.fits s e x⟩
  unfold MRef.assignNested
  rw [hl, if_neg (by omega), hv.rows, if_neg (by simp), vget_ok_iff.2 h1, Res.ok_bind, h2, if_neg (by omega),
    hv.cols, if_neg (by simp)]
  have hfill := fillRect (e := x) (Nat.zero_le n) (Nat.zero_le k) (putOn s v N M n k ρ κ e) (putOn_init h he)
      (body := fun r c s' => do
          let row ← vget l r
          let x ← vget row c
          m.setAt s' r c x) (by
        intro r c f _ hr _ hc _ _
        obtain ⟨row, h3, h4⟩ := hx r hr
        rw [vget_ok_iff.2 h3, Res.ok_bind, vget_ok_iff.2 (h4 c hc), Res.ok_bind, h.put_step he.fits hr hc])
  have hc : (putOn s v N M n k ρ κ e fun i j =>
      if 0 ≤ i ∧ i < n ∧ 0 ≤ j ∧ j < k then x i j else e (ρ i) (κ j)) = putOn s v N M n k ρ κ e x :=
    putOn_congr (fun r c hr hc => by rw [if_pos (by omega)])
  rw [hc] at hfill
  rw [← hfill]
  apply forRange_congr
  intro r s' _ hr
  obtain ⟨row, h3, h4⟩ := hx r hr
  simp only [vget_ok_iff.2 h3, Res.ok_bind]

/-- C16: a nested list of another shape is ignored silently (up to `std::cerr`), judged by the number of rows and the length of the first row. -/
theorem C16_assign_nested_ignored {v N M n k : Nat} {m : MRef (Store T) T} {ρ κ : Nat → Nat}
    (hm : ViewChain v N M m n k ρ κ) {s : Store T} {e : Nat → Nat → T} (he : (s v).Holds N M e) {l : List (List T)}
    (h : l.length ≠ n ∨ ∃ first, l[0]? = some first ∧ first.length ≠ k) : m.assignNested l s = .ok s := by
  have hv := (hm.on he.fits).1.reads s e he
  unfold MRef.assignNested
  split_ifs with h1 h2
  · rfl
  · rfl
  · rw [hv.rows, not_not] at h2
    rcases h with h | ⟨first, h3, h4⟩
    · exact absurd h2.symm h
    · rw [vget_ok_iff.2 h3, Res.ok_bind, hv.cols]
      split_ifs with h5
      · rfl
      · rfl
      · rename_i h6; exact absurd (not_not.1 h6).symm h4

example : (((MRef.var 0).sub ⟨0, 1⟩ ⟨1, 3⟩).assignNested [[7, 8, 9]] (fun _ => (⟨1, 3, [1, 2, 3]⟩ : Mat Int)) >>= fun s' => .ok (s' 0)) =
    .ok ⟨1, 3, [1, 2, 3]⟩ := by decide +kernel

/-- C16 is false for overlapping views: with `A = [1 2 3]`, `A(:, 1..2) = A(:, 0..1)` gives `1 1 1`, not
`1 1 2`. -/
theorem C16_overlap_false : ∃ (A : Mat Int), A.Holds 1 3 (fun _ c => (c : Int) + 1) ∧
    ∃ s', MRef.assign ((MRef.var 0).sub ⟨0, 1⟩ ⟨1, 3⟩) ((MRef.var 0).sub ⟨0, 1⟩ ⟨0, 2⟩).view id (fun _ => A) = .ok s'
      ∧ (s' 0).at_ 0 2 = .ok 1 ∧ A.at_ 0 1 = .ok 2 := by
  have hA : (⟨1, 3, [1, 2, 3]⟩ : Mat Int) = Mat.ofFn 1 3 (fun _ c => (c : Int) + 1) := by decide
  refine ⟨⟨1, 3, [1, 2, 3]⟩, ?_, ?_⟩
  · rw [hA]; exact ofFn_holds (fits_small (by norm_num) (by norm_num)) _
  · have key : ((MRef.assign ((MRef.var 0).sub ⟨0, 1⟩ ⟨1, 3⟩) ((MRef.var 0).sub ⟨0, 1⟩ ⟨0, 2⟩).view id
        (fun _ => (⟨1, 3, [1, 2, 3]⟩ : Mat Int))) >>= fun s' => .ok (s' 0)) = .ok ⟨1, 3, [1, 1, 1]⟩ := by
      decide +kernel
    obtain ⟨s', h1, h2⟩ := Res.bind_eq_ok.1 key
    refine ⟨s', h1, ?_, by decide +kernel⟩
    injection h2 with h2; rw [h2]; decide +kernel

/-! ## C17 -/

/-- C17, the part that holds: for a `Matrix`, `empty()` is exact. Missing: views (`C17_view_false`). -/
theorem C17_matrix_partial (A : Mat T) : A.toMB.empty = true ↔ A.rows = 0 ∨ A.cols = 0 := by
  simp [Mat.toMB, Mat.isEmpty]

/-- C17 is false for views: every `View` and every `CofactorView` reports to be empty, whatever it shows. -/
theorem C17_view_false (b : MB T) (row col : Range) (p q : Nat) :
    (b.view row col).empty = true ∧ (b.cofactor p q).empty = true := ⟨rfl, rfl⟩

/-- … for instance one that shows four elements. -/
example : ((⟨2, 2, [1, 2, 3, 4]⟩ : Mat Int).toMB.view ⟨0, 2⟩ ⟨0, 2⟩).empty = true ∧
    ((⟨2, 2, [1, 2, 3, 4]⟩ : Mat Int).toMB.view ⟨0, 2⟩ ⟨0, 2⟩).size = 4 := by decide +kernel

/-! ## C18 -/

/-- C18, the part that holds: a view whose ranges start inside the matrix is at most as large. Missing:
ranges starting beyond it (`C18_view_false`, `C18_extract_false`). -/
theorem C18_dims_partial {b : MB T} {n m : Nat} {e} (h : RepAt b n m e) {row col : Range} {w : MB T}
    (hw : b.mkView row col = .ok w) (hr : row.start ≤ n) (hc : col.start ≤ m) :
    w.rows ≤ n ∧ w.cols ≤ m ∧ w.rows = min row.stop n - row.start ∧ w.cols = min col.stop m - col.start := by
  unfold MB.mkView at hw
  split at hw
  · rename_i hok
    injection hw with hw; subst hw
    simp only [viewOk, Bool.and_eq_true, decide_eq_true_eq] at hok
    have := view_repAt h hr (by omega) hc (by omega) (row := row) (col := col)
    rw [this.rows, this.cols]; omega
  · cases hw

/-- C18 is false: a view starting beyond the last row reports almost `2^64` rows. -/
theorem C18_view_false {b : MB T} {n m : Nat} {e} (h : RepAt b n m e) {row col : Range}
    (hr : n < row.start) (hs : row.start < W) : (b.view row col).rows = W - (row.start - min row.stop n) := by
  show wsub (min row.stop b.rows) row.start = _
  rw [h.rows]
  unfold wsub
  have h1 : min row.stop n + (W - row.start) < W := by omega
  rw [Nat.mod_eq_of_lt h1]; omega

example : ((⟨2, 2, [1, 2, 3, 4]⟩ : Mat Int).toMB.view ⟨3, 5⟩ ⟨0, 2⟩).rows = 2 ^ 64 - 1 := by decide +kernel

/-- C18 is false for `extract`: from a `2 × 2` matrix it returns one that claims `(2^64-1) × (2^64-1)`
elements over a single storage cell. -/
theorem C18_extract_false : ∃ A : Mat Int, A.WF ∧
    Util.extract A.toMB 3 5 3 5 = .ok ⟨2 ^ 64 - 1, 2 ^ 64 - 1, [0]⟩ := by
  refine ⟨⟨2, 2, [1, 2, 3, 4]⟩, ⟨rfl, ?_, ?_, ?_⟩, ?_⟩ <;> decide +kernel

/-! ## C19 -/

/-- C19: `CofactorView(r,c)` is the entry of the matrix without row `p` and column `q`; for `p` or `q` outside
nothing is skipped at that end but the last row or column is cut off. -/
theorem C19_cofactor_view {b : MB T} {n m : Nat} {e} (h : RepAt b n m e) (hn : 0 < n) (hm : 0 < m) (p q : Nat) :
    RepAt (b.cofactor p q) (n - 1) (m - 1)
      (fun r c => e (if r < p then r else r + 1) (if c < q then c else c + 1)) :=
  cofactor_repAt h hn hm p q

/-- C19, linear access: right for square matrices. Missing: non-square ones (`C19_linear_false`). -/
theorem C19_linear_partial {b : MB T} {n : Nat} {e} (h : RepAt b n n e) (hn : 0 < n) (p q : Nat) :
    Rep (b.cofactor p q) (n - 1) (n - 1)
      (fun r c => e (if r < p then r else r + 1) (if c < q then c else c + 1)) :=
  cofactor_rep h hn p q

/-- C19 is false for linear access on non-square matrices: it divides by the number of rows. -/
theorem C19_linear_false : ∃ A : Mat Int, A.WF ∧ (A.toMB.cofactor 0 0).rows = 1 ∧ (A.toMB.cofactor 0 0).cols = 2 ∧
    (A.toMB.cofactor 0 0).at_ 0 1 = .ok 6 ∧ (A.toMB.cofactor 0 0).lin 1 = .ub .oob := by
  refine ⟨⟨2, 3, [1, 2, 3, 4, 5, 6]⟩, ⟨rfl, ?_, ?_, ?_⟩, ?_, ?_, ?_, ?_⟩ <;> decide +kernel

end Malg
