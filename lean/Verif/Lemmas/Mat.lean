import Verif.Spec.Rep
import Verif.Lemmas.Loops
import Mathlib.Tactic.Ring
import Mathlib.Tactic.Linarith
/-!
# Matrix objects as tables of entries
-/
namespace Malg
variable {T : Type} {S : Type}

/-! ## index arithmetic -/

theorem lin_lt {r c n m : Nat} (hr : r < n) (hc : c < m) : r * m + c < n * m := by
  have : (r + 1) * m ≤ n * m := Nat.mul_le_mul_right m hr
  rw [Nat.succ_mul] at this; omega

theorem lin_div {r c m : Nat} (hc : c < m) : (r * m + c) / m = r := by
  rw [Nat.mul_comm, Nat.mul_add_div (by omega), Nat.div_eq_of_lt hc]; rfl

theorem lin_mod {r c m : Nat} (hc : c < m) : (r * m + c) % m = c := by
  rw [Nat.mul_comm, Nat.mul_add_mod, Nat.mod_eq_of_lt hc]

theorem lin_of_lt {i n m : Nat} (h : i < n * m) : i / m < n ∧ i % m < m ∧ i / m * m + i % m = i := by
  have hm : 0 < m := by
    rcases Nat.eq_zero_or_pos m with h0 | h0
    · subst h0; simp at h
    · exact h0
  exact ⟨(Nat.div_lt_iff_lt_mul hm).2 h, Nat.mod_lt _ hm, by rw [Nat.mul_comm]; exact Nat.div_add_mod i m⟩

theorem lin_inj {r c r' c' m : Nat} (hc : c < m) (hc' : c' < m) (h : r * m + c = r' * m + c') :
    r = r' ∧ c = c' := by
  have h1 := lin_div (r := r) hc
  have h2 := lin_mod (r := r) hc
  rw [h, lin_div hc'] at h1
  rw [h, lin_mod hc'] at h2
  exact ⟨h1.symm, h2.symm⟩

theorem Fits.mul_lt_W {n m : Nat} (h : Fits n m) : n * m < W := lt_trans h.1 allocMax_lt_W

theorem Fits.wmul {n m : Nat} (h : Fits n m) : wmul n m = n * m := wmul_eq h.mul_lt_W

theorem Fits.symm {n m : Nat} (h : Fits n m) : Fits m n := ⟨by rw [Nat.mul_comm]; exact h.1, h.2.2, h.2.1⟩

theorem Fits.mono {n m n' m' : Nat} (h : Fits n m) (hn : n' ≤ n) (hm : m' ≤ m) : Fits n' m' :=
  ⟨lt_of_le_of_lt (Nat.mul_le_mul hn hm) h.1, lt_of_le_of_lt hn h.2.1, lt_of_le_of_lt hm h.2.2⟩

theorem Fits.zero {m : Nat} (h : m < W) : Fits 0 m := ⟨by rw [Nat.zero_mul]; exact allocMax_pos, W_pos, h⟩

theorem idx_eq {r c n m : Nat} (h : Fits n m) (hr : r < n) (hc : c < m) :
    wadd (wmul r m) c = r * m + c := by
  have h1 := lin_lt hr hc
  have h2 := h.mul_lt_W
  rw [wmul_eq (by omega), wadd_eq (by omega)]

/-! ## vector access -/

theorem vget_lt {v : List T} {i : Nat} (h : i < v.length) : vget v i = .ok v[i] := by
  simp [vget, List.getElem?_eq_getElem h]

theorem vget_ge {v : List T} {i : Nat} (h : v.length ≤ i) : vget v i = .ub .oob := by
  simp [vget, h]

theorem vget_ok_iff {v : List T} {i : Nat} {x : T} : vget v i = .ok x ↔ v[i]? = some x := by
  unfold vget; cases h : v[i]? <;> simp

theorem vset_lt {v : List T} {i : Nat} {x : T} (h : i < v.length) : vset v i x = .ok (v.set i x) := by
  simp [vset, h]

theorem vset_ge {v : List T} {i : Nat} {x : T} (h : v.length ≤ i) : vset v i x = .ub .oob := by
  simp [vset, Nat.not_lt.2 h]

theorem vnew_ok {n : Nat} {x : T} (h : n < allocMax) : vnew n x = .ok (List.replicate n x) := by
  simp [vnew, h]

/-- A list as a table over `range`. -/
def vtab (n : Nat) (f : Nat → T) : List T := (List.range n).map f

@[simp] theorem vtab_length (n : Nat) (f : Nat → T) : (vtab n f).length = n := by simp [vtab]

@[simp] theorem vtab_getElem (n : Nat) (f : Nat → T) (i : Nat) (h : i < (vtab n f).length) :
    (vtab n f)[i] = f i := by simp [vtab]

theorem vtab_congr {n : Nat} {f g : Nat → T} (h : ∀ i, i < n → f i = g i) : vtab n f = vtab n g := by
  unfold vtab; apply List.map_congr_left; intro i hi; exact h i (by simpa using hi)

theorem vtab_ext_iff {n : Nat} {f g : Nat → T} : vtab n f = vtab n g ↔ ∀ i, i < n → f i = g i := by
  refine ⟨fun h i hi => ?_, vtab_congr⟩
  have := congrArg (fun l => l[i]?) h
  simpa [vtab, hi] using this

theorem vget_vtab {n : Nat} {f : Nat → T} {i : Nat} (h : i < n) : vget (vtab n f) i = .ok (f i) := by
  rw [vget_lt (by simpa using h)]; simp

theorem vset_vtab {n : Nat} {f : Nat → T} {i : Nat} {x : T} (h : i < n) :
    vset (vtab n f) i x = .ok (vtab n (Function.update f i x)) := by
  rw [vset_lt (by simpa using h)]
  congr 1
  apply List.ext_getElem
  · simp
  · intro k h1 h2
    simp only [List.getElem_set, vtab_getElem, Function.update_apply, eq_comm]

theorem replicate_eq_vtab (n : Nat) (x : T) : List.replicate n x = vtab n (fun _ => x) := by
  apply List.ext_getElem <;> simp

/-- Every list is a table. -/
theorem list_eq_vtab [Nonempty T] (l : List T) : ∃ f, l = vtab l.length f := by
  classical
  obtain ⟨d⟩ := ‹Nonempty T›
  refine ⟨fun i => l.getD i d, ?_⟩
  apply List.ext_getElem
  · simp
  · intro i h1 h2; simp [List.getD, h1]

theorem list_eq_vtab_getD (l : List T) (d : T) : l = vtab l.length (fun i => l.getD i d) := by
  apply List.ext_getElem
  · simp
  · intro i h1 h2; simp [List.getD, h1]

/-- Filling a vector entry by entry. -/
theorem vfill_eq {n : Nat} {v : List T} {e : Nat → T} {body : Nat → List T → Res (List T)}
    (hv : v.length = n)
    (hb : ∀ i f, i < n → (∀ k, k < i → f k = e k) →
      body i (vtab n f) = .ok (vtab n (Function.update f i (e i)))) :
    forRange 0 n v body = .ok (vtab n e) := by
  rcases Nat.eq_zero_or_pos n with h0 | hpos
  · subst h0
    simp only [forRange_self]
    congr 1
    simpa [vtab] using hv
  · have : Nonempty T := ⟨v[0]'(by omega)⟩
    obtain ⟨f0, hf0⟩ := list_eq_vtab v
    rw [hv] at hf0
    rw [forRange_eq (Nat.zero_le n) (fun k => vtab n (fun i => if i < k then e i else f0 i))]
    · congr 1; apply vtab_congr; intro i hi; simp [hi]
    · rw [hf0]; simp
    · intro i _ hi
      rw [hb i _ hi (by intro k hk; simp [hk])]
      congr 1; apply vtab_congr; intro k hk
      simp only [Function.update_apply]
      by_cases hki : k = i
      · subst hki; simp
      · have : k < i + 1 ↔ k < i := by omega
        simp [hki, this]

/-! ## tables -/

/-- Table with one changed entry. -/
def upd (f : Nat → Nat → T) (r c : Nat) (x : T) : Nat → Nat → T :=
  fun i j => if i = r ∧ j = c then x else f i j

@[simp] theorem upd_same (f : Nat → Nat → T) (r c : Nat) (x : T) : upd f r c x r c = x := by simp [upd]

theorem upd_ne (f : Nat → Nat → T) {r c i j : Nat} (x : T) (h : ¬ (i = r ∧ j = c)) :
    upd f r c x i j = f i j := by simp [upd, h]

@[simp] theorem ofFn_rows (n m : Nat) (e : Nat → Nat → T) : (Mat.ofFn n m e).rows = n := rfl
@[simp] theorem ofFn_cols (n m : Nat) (e : Nat → Nat → T) : (Mat.ofFn n m e).cols = m := rfl
@[simp] theorem ofFn_data_length (n m : Nat) (e : Nat → Nat → T) :
    (Mat.ofFn n m e).data.length = n * m := by simp [Mat.ofFn]

theorem ofFn_data (n m : Nat) (e : Nat → Nat → T) :
    (Mat.ofFn n m e).data = vtab (n * m) fun i => e (i / m) (i % m) := rfl

theorem ofFn_congr {n m : Nat} {e f : Nat → Nat → T} (h : ∀ r c, r < n → c < m → e r c = f r c) :
    Mat.ofFn n m e = Mat.ofFn n m f := by
  unfold Mat.ofFn
  congr 1
  apply List.map_congr_left
  intro i hi
  have := lin_of_lt (List.mem_range.1 hi)
  exact h _ _ this.1 this.2.1

theorem ofFn_ext_iff {n m : Nat} {e f : Nat → Nat → T} :
    Mat.ofFn n m e = Mat.ofFn n m f ↔ ∀ r c, r < n → c < m → e r c = f r c := by
  refine ⟨fun h r c hr hc => ?_, ofFn_congr⟩
  have h1 : vtab (n * m) (fun i => e (i / m) (i % m)) = vtab (n * m) (fun i => f (i / m) (i % m)) :=
    congrArg Mat.data h
  have := vtab_ext_iff.1 h1 (r * m + c) (lin_lt hr hc)
  simpa only [lin_div hc, lin_mod hc] using this

theorem ofFn_WF {n m : Nat} (h : Fits n m) (e : Nat → Nat → T) : (Mat.ofFn n m e).WF :=
  ⟨by simp, h⟩

theorem WF.eq_ofFn {A : Mat T} (h : A.WF) (d : T) :
    A = Mat.ofFn A.rows A.cols (fun r c => A.data.getD (r * A.cols + c) d) := by
  obtain ⟨rows, cols, data⟩ := A
  unfold Mat.ofFn
  congr 1
  have hl : data.length = rows * cols := h.1
  apply List.ext_getElem
  · simp [hl]
  · intro i h1 h2
    have := lin_of_lt (n := rows) (m := cols) (i := i) (by omega)
    simp [this.2.2, List.getD, h1]

theorem Mat.eq_ofFn_of_length [Nonempty T] {A : Mat T} (h : A.data.length = A.rows * A.cols) :
    ∃ f, A = Mat.ofFn A.rows A.cols f := by
  obtain ⟨d⟩ := ‹Nonempty T›
  obtain ⟨rows, cols, data⟩ := A
  refine ⟨fun r c => data.getD (r * cols + c) d, ?_⟩
  unfold Mat.ofFn
  congr 1
  have hl : data.length = rows * cols := h
  apply List.ext_getElem
  · simp [hl]
  · intro i h1 h2
    have := lin_of_lt (n := rows) (m := cols) (i := i) (by omega)
    simp [this.2.2, List.getD, h1]

theorem ofFn_lin {n m : Nat} {e : Nat → Nat → T} {i : Nat} (h : i < n * m) :
    (Mat.ofFn n m e).lin i = .ok (e (i / m) (i % m)) := by
  simp only [Mat.lin, ofFn_data]
  rw [vget_vtab h]

theorem ofFn_lin_ge {n m : Nat} {e : Nat → Nat → T} {i : Nat} (h : n * m ≤ i) :
    (Mat.ofFn n m e).lin i = .ub .oob := by
  simp only [Mat.lin, ofFn_data]
  rw [vget_ge (by simpa using h)]

theorem ofFn_at {n m : Nat} (hf : Fits n m) {e : Nat → Nat → T} {r c : Nat} (hr : r < n) (hc : c < m) :
    (Mat.ofFn n m e).at_ r c = .ok (e r c) := by
  have : (Mat.ofFn n m e).idx r c = r * m + c := idx_eq hf hr hc
  simp only [Mat.at_, this, ofFn_data]
  rw [vget_vtab (lin_lt hr hc), lin_div hc, lin_mod hc]

theorem ofFn_setAt {n m : Nat} (hf : Fits n m) {e : Nat → Nat → T} {r c : Nat} {x : T}
    (hr : r < n) (hc : c < m) :
    (Mat.ofFn n m e).setAt r c x = .ok (Mat.ofFn n m (upd e r c x)) := by
  have : (Mat.ofFn n m e).idx r c = r * m + c := idx_eq hf hr hc
  simp only [Mat.setAt, this, ofFn_data]
  rw [vset_vtab (lin_lt hr hc)]
  simp only [Res.ok_bind, Res.pure_eq, Mat.ofFn]
  congr 2
  apply vtab_congr
  intro i hi
  have h1 := lin_of_lt hi
  simp only [Function.update_apply, upd]
  by_cases h : i = r * m + c
  · subst h; simp [lin_div hc, lin_mod hc]
  · rw [if_neg h, if_neg]
    rintro ⟨h2, h3⟩
    apply h; rw [← h2, ← h3]; exact h1.2.2.symm

theorem ofFn_setLin {n m : Nat} {e : Nat → Nat → T} {i : Nat} {x : T} (hi : i < n * m) :
    (Mat.ofFn n m e).setLin i x = .ok (Mat.ofFn n m (upd e (i / m) (i % m) x)) := by
  simp only [Mat.setLin, ofFn_data]
  rw [vset_vtab hi]
  simp only [Res.ok_bind, Res.pure_eq, Mat.ofFn]
  congr 2
  apply vtab_congr
  intro k hk
  have h1 := lin_of_lt hi
  have h2 := lin_of_lt hk
  simp only [Function.update_apply, upd]
  by_cases h : k = i
  · subst h; simp
  · rw [if_neg h, if_neg]
    rintro ⟨h3, h4⟩
    apply h; rw [← h2.2.2, ← h1.2.2, h3, h4]

theorem ofFn_rep {n m : Nat} (hf : Fits n m) (e : Nat → Nat → T) : Rep (Mat.ofFn n m e).toMB n m e where
  fits := hf
  rows := rfl
  cols := rfl
  size := hf.wmul
  get := fun _ _ hr hc => ofFn_at hf hr hc
  lin := fun r c hr hc => by
    have := ofFn_lin (e := e) (lin_lt hr hc)
    rw [lin_div hc, lin_mod hc] at this; exact this

theorem Rep.lin' {b : MB T} {n m : Nat} {e} (h : Rep b n m e) {i : Nat} (hi : i < n * m) :
    b.lin i = .ok (e (i / m) (i % m)) := by
  have h1 := lin_of_lt hi
  have := h.lin _ _ h1.1 h1.2.1
  rwa [h1.2.2] at this

theorem RepAt.congr {b : MB T} {n m : Nat} {e f} (h : RepAt b n m e)
    (hef : ∀ r c, r < n → c < m → e r c = f r c) : RepAt b n m f :=
  ⟨h.fits, h.rows, h.cols, h.size, fun r c hr hc => by rw [h.get r c hr hc, hef r c hr hc]⟩

theorem Rep.congr {b : MB T} {n m : Nat} {e f} (h : Rep b n m e)
    (hef : ∀ r c, r < n → c < m → e r c = f r c) : Rep b n m f :=
  ⟨h.toRepAt.congr hef, fun r c hr hc => by rw [h.lin r c hr hc, hef r c hr hc]⟩

theorem RepAt.unique {b : MB T} {n m n' m' : Nat} {e f} (h : RepAt b n m e) (h' : RepAt b n' m' f) :
    n = n' ∧ m = m' ∧ ∀ r c, r < n → c < m → e r c = f r c := by
  obtain rfl : n = n' := h.rows.symm.trans h'.rows
  obtain rfl : m = m' := h.cols.symm.trans h'.cols
  refine ⟨rfl, rfl, fun r c hr hc => ?_⟩
  have := (h.get r c hr hc).symm.trans (h'.get r c hr hc)
  exact Res.ok.inj this

/-- A matrix object that represents a table is that table. -/
theorem Mat.eq_ofFn_of_rep {A : Mat T} {n m : Nat} {e} (hA : A.data.length = A.rows * A.cols)
    (h : RepAt A.toMB n m e) : A = Mat.ofFn n m e := by
  obtain ⟨rows, cols, data⟩ := A
  obtain rfl : rows = n := h.rows
  obtain rfl : cols = m := h.cols
  unfold Mat.ofFn
  congr 1
  apply List.ext_getElem
  · simpa using hA
  · intro i h1 h2
    have hi : i < rows * cols := by
      have : data.length = rows * cols := hA
      omega
    have h3 := lin_of_lt hi
    have h4 := h.get _ _ h3.1 h3.2.1
    have h5 : vget data (wadd (wmul (i / cols) cols) (i % cols)) = .ok (e (i / cols) (i % cols)) := h4
    rw [idx_eq h.fits h3.1 h3.2.1, h3.2.2, vget_lt h1] at h5
    simpa using h5

theorem WF.rep [Nonempty T] {A : Mat T} (h : A.WF) : ∃ e, A = Mat.ofFn A.rows A.cols e ∧ Rep A.toMB A.rows A.cols e := by
  obtain ⟨f, hf⟩ := Mat.eq_ofFn_of_length h.1
  refine ⟨f, hf, ?_⟩
  have := ofFn_rep h.2 f
  rwa [← hf] at this

theorem ofFn_holds {n m : Nat} (h : Fits n m) (e : Nat → Nat → T) : (Mat.ofFn n m e).Holds n m e :=
  ⟨ofFn_WF h e, ofFn_rep h e⟩

theorem Mat.Holds.eq {A : Mat T} {n m : Nat} {e} (h : A.Holds n m e) : A = Mat.ofFn n m e :=
  Mat.eq_ofFn_of_rep h.wf.1 h.rep.toRepAt

theorem Mat.Holds.fits {A : Mat T} {n m : Nat} {e} (h : A.Holds n m e) : Fits n m := h.rep.fits

theorem Mat.WF.holds [Nonempty T] {A : Mat T} (h : A.WF) : ∃ e, A.Holds A.rows A.cols e := by
  obtain ⟨e, _, h2⟩ := WF.rep h
  exact ⟨e, h, h2⟩

theorem Returns.of_eq {x : Res (Mat T)} {n m : Nat} {e} (hf : Fits n m)
    (h : x = .ok (Mat.ofFn n m e)) : Returns x n m e := ⟨_, h, ofFn_holds hf e⟩

theorem Returns.eq {x : Res (Mat T)} {n m : Nat} {e} (h : Returns x n m e) :
    x = .ok (Mat.ofFn n m e) := by
  obtain ⟨A, h1, h2⟩ := h
  rw [h1, h2.eq]

theorem Returns.fits {x : Res (Mat T)} {n m : Nat} {e} (h : Returns x n m e) : Fits n m := by
  obtain ⟨A, h1, h2⟩ := h; exact h2.fits

theorem Returns.congr {x : Res (Mat T)} {n m : Nat} {e f} (h : Returns x n m e)
    (hef : ∀ r c, r < n → c < m → e r c = f r c) : Returns x n m f := by
  have := h.eq
  rw [ofFn_congr hef] at this
  exact Returns.of_eq h.fits this

theorem ReturnsVec.of_eq {x : Res (List T)} {n : Nat} {f : Nat → T}
    (h : x = .ok (vtab n f)) : ReturnsVec x n f :=
  ⟨_, h, by simp, fun i hi => by simp [vtab, hi]⟩

theorem eq_vtab_of {v : List T} {n : Nat} {f : Nat → T} (h1 : v.length = n)
    (h2 : ∀ i, i < n → v[i]? = some (f i)) : v = vtab n f := by
  apply List.ext_getElem?
  intro i
  by_cases hi : i < n
  · rw [h2 i hi]; simp [vtab, hi]
  · rw [List.getElem?_eq_none (by omega), List.getElem?_eq_none (by simp; omega)]

theorem ReturnsVec.eq {x : Res (List T)} {n : Nat} {f : Nat → T} (h : ReturnsVec x n f) :
    x = .ok (vtab n f) := by
  obtain ⟨v, h1, h2, h3⟩ := h
  rw [h1, eq_vtab_of h2 h3]

theorem VRep.eq {v : List T} {n : Nat} {f : Nat → T} (h : VRep v n f) : v = vtab n f :=
  eq_vtab_of h.2.1 h.2.2

theorem VRep.get {v : List T} {n : Nat} {f : Nat → T} (h : VRep v n f) {i : Nat} (hi : i < n) :
    vget v i = .ok (f i) := by rw [vget_ok_iff]; exact h.2.2 i hi

theorem vtab_vrep {n : Nat} (h : n < allocMax) (f : Nat → T) : VRep (vtab n f) n f :=
  ⟨h, by simp, fun i hi => by simp [vtab, hi]⟩

theorem Mat.new_eq {n m : Nat} (h : Fits n m) (x : T) : Mat.new n m x = .ok (Mat.ofFn n m fun _ _ => x) := by
  simp only [Mat.new, h.wmul, vnew_ok h.1, Res.ok_bind, Res.pure_eq, replicate_eq_vtab]
  rfl

/-- Rectangular fill: rows `[r0,r1)`, columns `[c0,c1)`.  The body may look at the current contents;
it is given a table that has the new entries at visited cells and the old ones elsewhere. -/
theorem fillRect {σ : Type} {r0 r1 c0 c1 : Nat} (hr : r0 ≤ r1) (hc : c0 ≤ c1)
    (St : (Nat → Nat → T) → σ) {e f0 : Nat → Nat → T} {body : Nat → Nat → σ → Res σ} {s : σ}
    (hs : s = St f0)
    (hb : ∀ r c f, r0 ≤ r → r < r1 → c0 ≤ c → c < c1 →
      (∀ i j, r0 ≤ i → i < r1 → c0 ≤ j → j < c1 → (i < r ∨ (i = r ∧ j < c)) → f i j = e i j) →
      (∀ i j, ¬ (r0 ≤ i ∧ i < r1 ∧ c0 ≤ j ∧ j < c1 ∧ (i < r ∨ (i = r ∧ j < c))) → f i j = f0 i j) →
      body r c (St f) = .ok (St (upd f r c (e r c)))) :
    forRange r0 r1 s (fun r s => forRange c0 c1 s (fun c s => body r c s)) =
      .ok (St fun i j => if r0 ≤ i ∧ i < r1 ∧ c0 ≤ j ∧ j < c1 then e i j else f0 i j) := by
  subst hs
  let F : Nat → Nat → Nat → Nat → T := fun r c i j =>
    if r0 ≤ i ∧ i < r1 ∧ c0 ≤ j ∧ j < c1 ∧ (i < r ∨ (i = r ∧ j < c)) then e i j else f0 i j
  have inner : ∀ r, r0 ≤ r → r < r1 →
      forRange c0 c1 (St (F r c0)) (fun c s => body r c s) = .ok (St (F (r + 1) c0)) := by
    intro r h1 h2
    rw [forRange_eq hc (fun c => St (F r c)) rfl]
    · congr 2; funext i j; simp only [F]
      apply if_congr _ rfl rfl
      omega
    · intro c h3 h4
      rw [hb r c (F r c) h1 h2 h3 h4]
      · congr 2; funext i j
        simp only [upd, F]
        by_cases hij : i = r ∧ j = c
        · rw [if_pos hij, if_pos (by omega), hij.1, hij.2]
        · rw [if_neg hij]; apply if_congr _ rfl rfl; omega
      · intro i j a1 a2 a3 a4 a5
        simp only [F]; rw [if_pos (by omega)]
      · intro i j a
        simp only [F]; rw [if_neg (by omega)]
  rw [forRange_eq hr (fun r => St (F r c0))]
  · congr 2; funext i j; simp only [F]
    apply if_congr _ rfl rfl; omega
  · congr 1; funext i j; simp only [F]; rw [if_neg (by omega)]
  · intro r h1 h2; exact inner r h1 h2

/-- The common case: every cell of a fresh matrix gets its entry. -/
theorem fill_all {n m : Nat} {A : Mat T} {e f0 : Nat → Nat → T}
    (hA : A = Mat.ofFn n m f0) {body : Nat → Nat → Mat T → Res (Mat T)}
    (hb : ∀ r c f, r < n → c < m →
      (∀ i j, i < n → j < m → (i < r ∨ (i = r ∧ j < c)) → f i j = e i j) →
      (∀ i j, ¬ (i < n ∧ j < m ∧ (i < r ∨ (i = r ∧ j < c))) → f i j = f0 i j) →
      body r c (Mat.ofFn n m f) = .ok (Mat.ofFn n m (upd f r c (e r c)))) :
    forRange 0 n A (fun r A => forRange 0 m A (fun c A => body r c A)) = .ok (Mat.ofFn n m e) := by
  rw [fillRect (Nat.zero_le n) (Nat.zero_le m) (Mat.ofFn n m) hA
    (e := e) (f0 := f0) (fun r c f _ h2 _ h4 h5 h6 => hb r c f h2 h4
      (fun i j a b d => h5 i j (by omega) a (by omega) b d)
      (fun i j a => h6 i j (by omega)))]
  congr 1
  apply ofFn_congr
  intro r c hr hc
  simp [hr, hc]

/-- Fill with entries that do not depend on the matrix being filled. -/
theorem fill_pure {n m : Nat} (hf : Fits n m) {A : Mat T} {e f0 : Nat → Nat → T}
    (hA : A = Mat.ofFn n m f0) {g : Nat → Nat → Res T}
    (hg : ∀ r c, r < n → c < m → g r c = .ok (e r c)) :
    forRange 0 n A (fun r A => forRange 0 m A (fun c A => g r c >>= fun x => A.setAt r c x))
      = .ok (Mat.ofFn n m e) :=
  fill_all hA (fun r c f hr hc _ _ => by
    rw [hg r c hr hc, Res.ok_bind, ofFn_setAt hf hr hc])

/-- Linear fill. -/
theorem fill_lin {n m : Nat} {A : Mat T} {e f0 : Nat → Nat → T}
    (hA : A = Mat.ofFn n m f0) {body : Nat → Mat T → Res (Mat T)}
    (hb : ∀ i f, i < n * m →
      (∀ r c, c < m → r * m + c < i → f r c = e r c) →
      (∀ r c, c < m → i ≤ r * m + c → f r c = f0 r c) →
      body i (Mat.ofFn n m f) = .ok (Mat.ofFn n m (upd f (i / m) (i % m) (e (i / m) (i % m))))) :
    forRange 0 (n * m) A body = .ok (Mat.ofFn n m e) := by
  let F : Nat → Nat → Nat → T := fun k r c => if r * m + c < k then e r c else f0 r c
  rw [forRange_eq (Nat.zero_le _) (fun k => Mat.ofFn n m (F k))]
  · congr 1; apply ofFn_congr; intro r c hr hc; simp [F, lin_lt hr hc]
  · rw [hA]; apply ofFn_congr; intro r c hr hc; simp [F]
  · intro i _ hi
    rw [hb i (F i) hi]
    · congr 1; apply ofFn_congr; intro r c hr hc
      have h1 := lin_of_lt hi
      simp only [upd, F]
      by_cases h : r = i / m ∧ c = i % m
      · rw [if_pos h, if_pos (by rw [h.1, h.2]; omega), h.1, h.2]
      · rw [if_neg h]
        have hne : r * m + c ≠ i := fun h' => h (by rw [← h', lin_div hc, lin_mod hc]; exact ⟨rfl, rfl⟩)
        apply if_congr _ rfl rfl; omega
    · intro r c _ h; simp [F, h]
    · intro r c _ h; simp [F, Nat.not_lt.2 h]

end Malg
