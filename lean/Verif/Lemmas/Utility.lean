import Verif.Lemmas.Construct
import Verif.Lemmas.Ref
import Verif.Model.Utility
/-!
# Equations for `utility.hpp`
-/
namespace Malg
variable {T : Type}

/-- Fill a vector from a pure source. -/
theorem vfill_get {n : Nat} {v : List T} {e : Nat → T} {g : Nat → Res T} (hv : v.length = n)
    (hg : ∀ i, i < n → g i = .ok (e i)) :
    forRange 0 n v (fun i v => g i >>= fun x => vset v i x) = .ok (vtab n e) :=
  vfill_eq hv (fun i f hi _ => by rw [hg i hi, Res.ok_bind, vset_vtab hi])

theorem vfill_const {n : Nat} {v : List T} {e : Nat → T} (hv : v.length = n) :
    forRange 0 n v (fun i v => vset v i (e i)) = .ok (vtab n e) :=
  vfill_eq hv (fun i f hi _ => by rw [vset_vtab hi])

namespace Util

theorem eye_eq [Zero T] {n m : Nat} (hn : 0 < n) (hm : 0 < m) (hf : Fits n m) (v : T) :
    eye n m v = .ok (Mat.ofFn n m fun r c => if r = c then v else 0) := by
  unfold eye
  rw [if_neg (by omega), if_neg (by omega), Mat.new_eq hf, Res.ok_bind,
    forRange_eq (Nat.zero_le _) (fun k => Mat.ofFn n m fun r c => if r = c ∧ r < k then v else 0)]
  · congr 1; apply ofFn_congr; intro r c hr hc
    apply if_congr _ rfl rfl; omega
  · apply ofFn_congr; intro r c hr hc; simp
  · intro i _ hi
    rw [ofFn_setAt hf (by omega) (by omega)]
    congr 1; apply ofFn_congr; intro r c hr hc
    simp only [upd]
    by_cases h : r = i ∧ c = i
    · rw [if_pos h, if_pos (by omega)]
    · rw [if_neg h]; apply if_congr _ rfl rfl; omega

theorem diagOf_eq [Zero T] {b : MB T} {n m : Nat} {e} (h : RepAt b n m e) (hlt : min n m < allocMax) :
    diagOf b = .ok (vtab (min n m) fun i => e i i) := by
  unfold diagOf
  simp only [h.rows, h.cols, vnew_ok hlt, Res.ok_bind]
  exact vfill_get (by simp) (fun i hi => h.get i i (by omega) (by omega))

theorem diagMat_eq [Zero T] {a : List T} {n : Nat} {f} (h : VRep a n f) (hf : Fits n n) :
    diagMat a = .ok (Mat.ofFn n n fun r c => if r = c then f r else 0) := by
  unfold diagMat
  rw [h.2.1, Mat.new_eq hf, Res.ok_bind,
    forRange_eq (Nat.zero_le _) (fun k => Mat.ofFn n n fun r c => if r = c ∧ r < k then f r else 0)]
  · congr 1; apply ofFn_congr; intro r c hr hc
    apply if_congr _ rfl rfl; omega
  · apply ofFn_congr; intro r c hr hc; simp
  · intro i _ hi
    rw [h.get hi, Res.ok_bind, ofFn_setAt hf (by omega) (by omega)]
    congr 1; apply ofFn_congr; intro r c hr hc
    simp only [upd]
    by_cases h : r = i ∧ c = i
    · rw [if_pos h, if_pos (by omega), h.1]
    · rw [if_neg h]; apply if_congr _ rfl rfl; omega

theorem toMatrix_eq [Zero T] {a : List T} {n : Nat} {f} (h : VRep a n f) (hW : n < W) (row : Bool) :
    toMatrix a row = .ok (if row then Mat.ofFn 1 n (fun _ c => f c) else Mat.ofFn n 1 (fun r _ => f r)) := by
  unfold toMatrix
  have h1 : (1 : Nat) < W := one_lt_W
  cases row with
  | true =>
    have hf : Fits 1 n := ⟨by rw [Nat.one_mul]; exact h.1, h1, hW⟩
    simp only [if_true, h.2.1, Mat.new_eq hf, Res.ok_bind]
    have := fill_lin (n := 1) (m := n) (e := fun _ c => f c) (f0 := fun _ _ => (0 : T)) rfl
      (body := fun i m => do
        let x ← vget a i
        m.setLin i x) (by
        intro i g hi _ _
        rw [Nat.one_mul] at hi
        rw [h.get hi, Res.ok_bind, ofFn_setLin (by omega)]
        congr 4
        rw [Nat.mod_eq_of_lt hi])
    rw [Nat.one_mul] at this
    exact this
  | false =>
    have hf : Fits n 1 := ⟨by rw [Nat.mul_one]; exact h.1, hW, h1⟩
    simp only [Bool.false_eq_true, if_false, h.2.1, Mat.new_eq hf, Res.ok_bind]
    have := fill_lin (n := n) (m := 1) (e := fun r _ => f r) (f0 := fun _ _ => (0 : T)) rfl
      (body := fun i m => do
        let x ← vget a i
        m.setLin i x) (by
        intro i g hi _ _
        rw [Nat.mul_one] at hi
        rw [h.get hi, Res.ok_bind, ofFn_setLin (by omega)]
        congr 4
        rw [Nat.div_one])
    rw [Nat.mul_one] at this
    exact this

theorem ravel_eq [Zero T] {b : MB T} {n m : Nat} {e} (h : Rep b n m e) :
    ravel b = .ok (vtab (n * m) fun i => e (i / m) (i % m)) := by
  unfold ravel
  rw [h.size, vnew_ok h.fits.1, Res.ok_bind, List.length_replicate]
  exact vfill_get (by simp) (fun i hi => h.lin' hi)

theorem toVector_eq [Zero T] {A : Mat T} {n m : Nat} {e} (h : Rep A.toMB n m e) :
    toVector A = .ok (vtab (n * m) fun i => e (i / m) (i % m)) := by
  unfold toVector
  rw [show A.size = n * m from h.size, vnew_ok h.fits.1, Res.ok_bind]
  exact vfill_get (by simp) (fun i hi => h.lin' hi)

theorem vstack_eq [Zero T] {A B : MB T} {n k m : Nat} {e f} (hA : RepAt A n m e) (hB : RepAt B k m f)
    (hf : Fits (n + k) m) :
    vstack A B = .ok (Mat.ofFn (n + k) m fun r c => if r < n then e r c else f (r - n) c) := by
  unfold vstack
  have hW := hf.2.1
  rw [if_neg (by rw [hA.cols, hB.cols]; simp), hA.rows, hB.rows, hA.cols, hB.cols, wadd_eq hW, Mat.new_eq hf,
    Res.ok_bind, fillRect (e := e) (f0 := fun _ _ => (0 : T)) (Nat.zero_le n) (Nat.zero_le m) (Mat.ofFn (n + k) m) rfl,
    Res.ok_bind, fillRect (e := f) (f0 := fun _ _ => (0 : T)) (Nat.zero_le k) (Nat.zero_le m)
      (fun g => Mat.ofFn (n + k) m fun r c => if r < n then e r c else g (r - n) c)]
  · congr 1; apply ofFn_congr; intro r c hr hc
    dsimp only
    split
    · rfl
    · rw [if_pos (by omega)]
  · apply ofFn_congr; intro r c hr hc
    apply if_congr _ rfl rfl; omega
  · intro r c g _ hr _ hc _ _
    simp only [hB.get r c hr hc, Res.ok_bind]
    rw [wadd_eq (by omega), ofFn_setAt hf (by omega) hc]
    congr 1; apply ofFn_congr; intro i j hi hj
    simp only [upd]
    by_cases h1 : i < n
    · rw [if_pos h1, if_neg (by omega), if_pos h1]
    · rw [if_neg h1, if_neg h1]; apply if_congr _ rfl rfl; omega
  · intro r c g _ hr _ hc _ _
    simp only [hA.get r c hr hc, Res.ok_bind]
    rw [ofFn_setAt hf (by omega) hc]

theorem transpose_upd (g : Nat → Nat → T) (r c : Nat) (x : T) :
    (fun i j => upd g c r x j i) = upd (fun i j => g j i) r c x := by
  funext i j; simp only [upd]; apply if_congr _ rfl rfl; omega

theorem hstack_eq [Zero T] {A B : MB T} {n m k : Nat} {e f} (hA : RepAt A n m e) (hB : RepAt B n k f)
    (hf : Fits n (m + k)) :
    hstack A B = .ok (Mat.ofFn n (m + k) fun r c => if c < m then e r c else f r (c - m)) := by
  unfold hstack
  have hW := hf.2.2
  rw [if_neg (by rw [hA.rows, hB.rows]; simp), hA.rows, hB.rows, hA.cols, hB.cols, wadd_eq hW, Mat.new_eq hf,
    Res.ok_bind, fillRect (e := fun c r => e r c) (f0 := fun _ _ => (0 : T)) (Nat.zero_le m) (Nat.zero_le n)
      (fun g => Mat.ofFn n (m + k) fun r c => g c r) rfl,
    Res.ok_bind, fillRect (e := fun c r => f r c) (f0 := fun _ _ => (0 : T)) (Nat.zero_le k) (Nat.zero_le n)
      (fun g => Mat.ofFn n (m + k) fun r c => if c < m then e r c else g (c - m) r)]
  · congr 1; apply ofFn_congr; intro r c hr hc
    dsimp only
    split
    · rfl
    · rw [if_pos (by omega)]
  · apply ofFn_congr; intro r c hr hc
    apply if_congr _ rfl rfl; omega
  · intro c r g _ hc _ hr _ _
    simp only [hB.get r c hr hc, Res.ok_bind]
    rw [wadd_eq (by omega), ofFn_setAt hf hr (by omega)]
    congr 1; apply ofFn_congr; intro i j hi hj
    simp only [upd]
    by_cases h1 : j < m
    · rw [if_pos h1, if_neg (by omega), if_pos h1]
    · rw [if_neg h1, if_neg h1]; apply if_congr _ rfl rfl; omega
  · intro c r g _ hc _ hr _ _
    simp only [hA.get r c hr hc, Res.ok_bind]
    rw [ofFn_setAt hf hr (by omega), transpose_upd]

theorem concatenate_eq [Zero T] {a b : List T} (h : a.length + b.length < allocMax) :
    concatenate a b = .ok (a ++ b) := by
  unfold concatenate
  have hW := allocMax_lt_W
  rw [wadd_eq (by omega)]
  simp only [vresize, h, if_true, Res.ok_bind]
  have e1 : a.take (a.length + b.length) ++ List.replicate (a.length + b.length - a.length) (0 : T) =
      a ++ (b.take 0 ++ List.replicate (b.length - 0) 0) := by
    rw [List.take_of_length_le (by omega)]; simp
  rw [e1, forRange_eq (Nat.zero_le _) (fun i => a ++ (b.take i ++ List.replicate (b.length - i) 0))]
  · simp
  · rfl
  · intro i _ hi
    rw [vget_lt hi, Res.ok_bind, wadd_eq (by omega), vset_lt (by simp; omega)]
    congr 1
    obtain ⟨q, hq⟩ : ∃ q, b.length - i = q + 1 := ⟨b.length - i - 1, by omega⟩
    have hq' : b.length - (i + 1) = q := by omega
    rw [List.set_append_right _ _ (by omega), Nat.add_sub_cancel_left, hq, hq',
      List.set_append_right _ _ (by simp), List.length_take, Nat.min_eq_left (by omega), Nat.sub_self,
      List.replicate_succ, List.set_cons_zero]
    rw [List.take_succ_eq_append_getElem hi, List.append_assoc]
    rfl

theorem extract_eq [Zero T] {b : MB T} {n m : Nat} {e} (h : RepAt b n m e) {sr er sc ec : Nat}
    (h1 : sr < er) (h2 : sc < ec) (h3 : sr ≤ n) (h4 : sc ≤ m) :
    extract b sr er sc ec =
      .ok (Mat.ofFn (min n er - sr) (min m ec - sc) fun r c => e (sr + r) (sc + c)) := by
  unfold extract
  have hn := h.fits.2.1
  have hm := h.fits.2.2
  have hf : Fits (min n er - sr) (min m ec - sc) := h.fits.mono (by omega) (by omega)
  rw [if_neg (by omega), if_neg (by omega), h.rows, h.cols]
  simp only
  rw [wsub_eq (by omega) (by omega), wsub_eq (by omega) (by omega), Mat.new_eq hf, Res.ok_bind,
    fillRect (e := e) (f0 := fun _ _ => (0 : T)) (by omega) (by omega)
      (fun g => Mat.ofFn (min n er - sr) (min m ec - sc) fun r c => g (sr + r) (sc + c)) rfl]
  · congr 1; apply ofFn_congr; intro r c hr hc
    dsimp only
    rw [if_pos (by omega)]
  · intro r c g hr hr' hc hc' _ _
    rw [h.get r c (by omega) (by omega), Res.ok_bind, wsub_eq hr (by omega), wsub_eq hc (by omega),
      ofFn_setAt hf (by omega) (by omega)]
    congr 1; apply ofFn_congr; intro i j hi hj
    simp only [upd]; apply if_congr _ rfl rfl; omega

/-- Fill of a vector with shifted indices. -/
theorem vfill_shift {lo hi : Nat} (hle : lo ≤ hi) (hW : hi < W) {x : T} {e : Nat → T} {g : Nat → Res T}
    (hg : ∀ i, lo ≤ i → i < hi → g i = .ok (e i)) :
    forRange lo hi (List.replicate (hi - lo) x) (fun i v => g i >>= fun x => vset v (wsub i lo) x) =
      .ok (vtab (hi - lo) fun i => e (lo + i)) := by
  rw [forRange_eq hle (fun k => vtab (hi - lo) fun i => if lo + i < k then e (lo + i) else x)]
  · congr 1; apply vtab_congr; intro i hi; rw [if_pos (by omega)]
  · rw [replicate_eq_vtab]; apply vtab_congr; intro i hi; rw [if_neg (by omega)]
  · intro i h1 h2
    rw [hg i h1 h2, Res.ok_bind, wsub_eq h1 (by omega), vset_vtab (by omega)]
    congr 1; apply vtab_congr; intro j hj
    simp only [Function.update_apply]
    by_cases h : j = i - lo
    · rw [if_pos h, if_pos (by omega)]; congr 1; omega
    · rw [if_neg h]; apply if_congr _ rfl rfl; omega

theorem extractColumn_eq [Zero T] {b : MB T} {n m : Nat} {e} (h : RepAt b n m e) {col sr er : Nat}
    (h1 : sr < er) (h2 : col < m) (h3 : sr ≤ n) (ha : n < allocMax) :
    extractColumn b col sr er = .ok (vtab (min n er - sr) fun r => e (sr + r) col) := by
  unfold extractColumn
  have hn := h.fits.2.1
  rw [if_neg (by omega), if_neg (by rw [h.cols]; omega), h.rows]
  simp only
  rw [wsub_eq (by omega) (by omega), vnew_ok (by omega), Res.ok_bind,
    vfill_shift (e := fun r => e r col) (by omega) (by omega)]
  intro i h4 h5; exact h.get i col (by omega) h2

theorem extractRow_eq [Zero T] {b : MB T} {n m : Nat} {e} (h : RepAt b n m e) {row sc ec : Nat}
    (h1 : sc < ec) (h2 : row < n) (h3 : sc ≤ m) (ha : m < allocMax) :
    extractRow b row sc ec = .ok (vtab (min m ec - sc) fun c => e row (sc + c)) := by
  unfold extractRow
  have hm := h.fits.2.2
  rw [if_neg (by rw [h.rows]; omega), if_neg (by omega), h.cols]
  simp only
  rw [wsub_eq (by omega) (by omega), vnew_ok (by omega), Res.ok_bind,
    vfill_shift (e := fun c => e row c) (by omega) (by omega)]
  intro i h4 h5; exact h.get row i h2 (by omega)

theorem swapAt_putOn {m : MRef (Store T) T} {v N M n k : Nat} {ρ κ} (h : On m v N M n k ρ κ)
    (hf : Fits N M) {s : Store T} {e F : Nat → Nat → T} {r1 c1 r2 c2 : Nat} (hr1 : r1 < n) (hc1 : c1 < k)
    (hr2 : r2 < n) (hc2 : c2 < k) :
    swapAt m (putOn s v N M n k ρ κ e F) r1 c1 r2 c2 =
      .ok (putOn s v N M n k ρ κ e (upd (upd F r1 c1 (F r2 c2)) r2 c2 (F r1 c1))) := by
  have hr := h.put_read hf (s := s) (e := e) (F := F)
  simp only [swapAt, hr.get r1 c1 hr1 hc1, hr.get r2 c2 hr2 hc2, Res.ok_bind, h.put_step hf hr1 hc1,
    h.put_step hf hr2 hc2]

/-- The table with rows `i` and `j` exchanged in the columns `[lo, hi)`. -/
def swapR (e : Nat → Nat → T) (i j lo hi : Nat) : Nat → Nat → T := fun r c =>
  if lo ≤ c ∧ c < hi then e (if r = i then j else if r = j then i else r) c else e r c

/-- The table with columns `i` and `j` exchanged in the rows `[lo, hi)`. -/
def swapC (e : Nat → Nat → T) (i j lo hi : Nat) : Nat → Nat → T := fun r c =>
  if lo ≤ r ∧ r < hi then e r (if c = i then j else if c = j then i else c) else e r c

theorem swapR_step (e : Nat → Nat → T) {i j lo c : Nat} (h : lo ≤ c) :
    upd (upd (swapR e i j lo c) i c (swapR e i j lo c j c)) j c (swapR e i j lo c i c) = swapR e i j lo (c + 1) := by
  funext r q
  have hx : ∀ a, swapR e i j lo c a c = e a c := fun a => by simp [swapR]
  simp only [upd, hx]
  by_cases hq : q = c
  · subst hq
    simp only [swapR, and_true, h, Nat.lt_succ_self, Nat.lt_irrefl, and_false, if_false, if_true]
    by_cases h1 : r = j
    · subst h1
      by_cases h2 : r = i
      · subst h2; simp
      · simp [h2]
    · by_cases h2 : r = i
      · subst h2; simp [h1]
      · simp [h1, h2]
  · have : (lo ≤ q ∧ q < c) ↔ (lo ≤ q ∧ q < c + 1) := by omega
    simp [hq, swapR, this]

theorem swapC_eq_transpose (e : Nat → Nat → T) (i j lo hi : Nat) :
    swapC e i j lo hi = fun r c => swapR (fun a b => e b a) i j lo hi c r := rfl

theorem swapC_step (e : Nat → Nat → T) {i j lo r : Nat} (h : lo ≤ r) :
    upd (upd (swapC e i j lo r) r i (swapC e i j lo r r j)) r j (swapC e i j lo r r i) = swapC e i j lo (r + 1) := by
  have := swapR_step (fun a b => e b a) (i := i) (j := j) h
  rw [swapC_eq_transpose e i j lo (r + 1), ← this]
  funext a b
  simp only [swapC_eq_transpose, upd]
  apply if_congr (by omega) rfl
  apply if_congr (by omega) rfl rfl

theorem swapRows_eq {m : MRef (Store T) T} {v N M n k : Nat} {ρ κ} (h : On m v N M n k ρ κ)
    {s : Store T} {e : Nat → Nat → T} (he : (s v).Holds N M e) {i j : Nat} (hi : i < n) (hj : j < n) (lo hi' : Nat) :
    swapRows m s i j lo hi' =
      .ok (putOn s v N M n k ρ κ e (swapR (fun r c => e (ρ r) (κ c)) i j lo (min hi' k))) := by
  unfold swapRows
  simp only [(h.reads s e he).cols]
  by_cases hle : lo ≤ min hi' k
  · rw [forRange_eq hle (fun c => putOn s v N M n k ρ κ e (swapR (fun r c => e (ρ r) (κ c)) i j lo c))]
    · have : swapR (fun r c => e (ρ r) (κ c)) i j lo lo = fun r c => e (ρ r) (κ c) := by
        funext r c; simp only [swapR]; rw [if_neg (by omega)]
      rw [this]; exact putOn_init h he
    · intro c h1 h2
      rw [swapAt_putOn h he.fits hi (by omega) hj (by omega), swapR_step _ h1]
  · rw [forRange_ge (by omega)]
    have : swapR (fun r c => e (ρ r) (κ c)) i j lo (min hi' k) = fun r c => e (ρ r) (κ c) := by
      funext r c; simp only [swapR]; rw [if_neg (by omega)]
    rw [this, ← putOn_init h he]

theorem swapCols_eq {m : MRef (Store T) T} {v N M n k : Nat} {ρ κ} (h : On m v N M n k ρ κ)
    {s : Store T} {e : Nat → Nat → T} (he : (s v).Holds N M e) {i j : Nat} (hi : i < k) (hj : j < k) (lo hi' : Nat) :
    swapCols m s i j lo hi' =
      .ok (putOn s v N M n k ρ κ e (swapC (fun r c => e (ρ r) (κ c)) i j lo (min n hi'))) := by
  unfold swapCols
  simp only [(h.reads s e he).rows]
  by_cases hle : lo ≤ min n hi'
  · rw [forRange_eq hle (fun r => putOn s v N M n k ρ κ e (swapC (fun r c => e (ρ r) (κ c)) i j lo r))]
    · have : swapC (fun r c => e (ρ r) (κ c)) i j lo lo = fun r c => e (ρ r) (κ c) := by
        funext r c; simp only [swapC]; rw [if_neg (by omega)]
      rw [this]; exact putOn_init h he
    · intro r h1 h2
      rw [swapAt_putOn h he.fits (by omega) hi (by omega) hj, swapC_step _ h1]
  · rw [forRange_ge (by omega)]
    have : swapC (fun r c => e (ρ r) (κ c)) i j lo (min n hi') = fun r c => e (ρ r) (κ c) := by
      funext r c; simp only [swapC]; rw [if_neg (by omega)]
    rw [this, ← putOn_init h he]

theorem swapMat_eq {n m : Nat} (hf : Fits n m) {F : Nat → Nat → T} {r1 c1 r2 c2 : Nat} (hr1 : r1 < n) (hc1 : c1 < m)
    (hr2 : r2 < n) (hc2 : c2 < m) :
    swapMat (Mat.ofFn n m F) r1 c1 r2 c2 =
      .ok (Mat.ofFn n m (upd (upd F r1 c1 (F r2 c2)) r2 c2 (F r1 c1))) := by
  simp only [swapMat, ofFn_at hf hr1 hc1, ofFn_at hf hr2 hc2, Res.ok_bind, ofFn_setAt hf hr1 hc1,
    ofFn_setAt hf hr2 hc2]

/-- Rows after the removed row `p` has been bubbled down to position `k`. -/
def bubble (e : Nat → Nat → T) (p k : Nat) : Nat → Nat → T := fun i j =>
  if i < p then e i j else if i < k then e (i + 1) j else if i = k then e p j else e i j

theorem bubble_self (e : Nat → Nat → T) (p : Nat) : bubble e p p = e := by
  funext i j; simp only [bubble]; split
  · rfl
  · split
    · rename_i h; rw [h]
    · rfl

theorem bubble_step (e : Nat → Nat → T) {p k : Nat} (h : p ≤ k) (i j : Nat) :
    bubble e p (k + 1) i j = bubble e p k (if i = k then k + 1 else if i = k + 1 then k else i) j := by
  simp only [bubble]
  by_cases h1 : i = k
  · subst h1; simp [Nat.not_lt.2 h, show ¬ i + 1 < p by omega]
  · by_cases h2 : i = k + 1
    · subst h2; simp [Nat.not_lt.2 h, show ¬ k + 1 < p by omega]
    · simp only [h1, h2, if_false]
      by_cases h3 : i < p
      · simp [h3]
      · by_cases h4 : i < k
        · simp [h3, h4, show i < k + 1 by omega]
        · simp [h3, h4, show ¬ i < k + 1 by omega]

theorem removeRow_eq [Zero T] {n m p : Nat} {e : Nat → Nat → T} (hf : Fits n m) (hp : p < n) :
    removeRow (Mat.ofFn n m e) p = .ok (Mat.ofFn (n - 1) m fun r c => e (if r < p then r else r + 1) c) := by
  unfold removeRow
  have hn := hf.2.1
  rw [if_neg (by exact Nat.not_le.2 hp)]
  rw [show (Mat.ofFn n m e).rows = n from rfl, show (Mat.ofFn n m e).cols = m from rfl,
    wsub_eq (by omega) hn,
    forRange_eq (by omega) (fun k => Mat.ofFn n m (bubble e p k))]
  · rw [Res.ok_bind]
    show Mat.resize _ (wsub n 1) m = _
    rw [wsub_eq (by omega) hn, Mat.resize_eq hf (hf.mono (by omega) (Nat.le_refl m))]
    congr 1; apply ofFn_congr; intro r c hr hc
    rw [if_pos (by omega)]
    simp only [bubble]
    split
    · rfl
    · rfl
  · rw [bubble_self]
  · intro k h1 h2
    rw [forRange_eq (Nat.zero_le m) (fun c => Mat.ofFn n m (swapR (bubble e p k) k (k + 1) 0 c))]
    · congr 1; apply ofFn_congr; intro i j hi hj
      rw [bubble_step e h1]
      simp only [swapR]; rw [if_pos (by omega)]
    · apply ofFn_congr; intro i j _ _; simp only [swapR]; rw [if_neg (by omega)]
    · intro c _ hc
      rw [wadd_eq (by omega), swapMat_eq hf (by omega) hc (by omega) hc, swapR_step _ (Nat.zero_le c)]

theorem removeColumn_eq [Zero T] {n m p : Nat} {e : Nat → Nat → T} (hf : Fits n m) (hp : p < m) :
    removeColumn (Mat.ofFn n m e) p = .ok (Mat.ofFn n (m - 1) fun r c => e r (if c < p then c else c + 1)) := by
  unfold removeColumn
  have hm := hf.2.2
  rw [if_neg (by exact Nat.not_le.2 hp)]
  rw [show (Mat.ofFn n m e).rows = n from rfl, show (Mat.ofFn n m e).cols = m from rfl,
    wsub_eq (by omega) hm,
    forRange_eq (by omega) (fun k => Mat.ofFn n m (fun r c => bubble (fun a b => e b a) p k c r))]
  · rw [Res.ok_bind]
    show Mat.resize _ n (wsub m 1) = _
    rw [wsub_eq (by omega) hm, Mat.resize_eq hf (hf.mono (Nat.le_refl n) (by omega))]
    congr 1; apply ofFn_congr; intro r c hr hc
    rw [if_pos (by omega)]
    simp only [bubble]
    split
    · rfl
    · rfl
  · rw [bubble_self]
  · intro k h1 h2
    rw [forRange_eq (Nat.zero_le n)
      (fun r => Mat.ofFn n m (swapC (fun r c => bubble (fun a b => e b a) p k c r) k (k + 1) 0 r))]
    · congr 1; apply ofFn_congr; intro i j hi hj
      rw [bubble_step _ h1]
      simp only [swapC]; rw [if_pos (by omega)]
    · apply ofFn_congr; intro i j _ _; simp only [swapC]; rw [if_neg (by omega)]
    · intro r _ hr
      rw [wadd_eq (by omega), swapMat_eq hf hr (by omega) hr (by omega), swapC_step _ (Nat.zero_le r)]

/-- The predicate loops decide a universally quantified statement. -/
theorem scan_spec {lo hi : Nat → Nat} {rows : Nat} {bad : Nat → Nat → Res Bool} {P : Nat → Nat → Prop}
    [∀ i j, Decidable (P i j)]
    (h : ∀ i j, i < rows → lo i ≤ j → j < hi i → bad i j = .ok (decide (P i j))) :
    ∃ b, scan lo hi rows bad = .ok b ∧ (b = true ↔ ∀ i j, i < rows → lo i ≤ j → j < hi i → ¬ P i j) := by
  unfold scan
  classical
  have inner : ∀ i, i < rows → (forSearch (lo i) (hi i) fun j => do
      let b ← bad i j
      return (if b then some false else none)) =
        .ok (if ∃ j, lo i ≤ j ∧ j < hi i ∧ P i j then some false else none) := by
    intro i hi'
    rcases forSearch_decide (lo := lo i) (hi := hi i) (p := fun j => P i j) (b := false)
      (body := fun j => do
        let b ← bad i j
        return (if b then some false else none)) (by
        intro j h1 h2; rw [h i j hi' h1 h2]; simp) with ⟨h1, j, h2⟩ | ⟨h1, h2⟩
    · rw [h1, if_pos ⟨j, h2⟩]
    · rw [h1, if_neg]; rintro ⟨j, h3, h4, h5⟩; exact h2 j h3 h4 h5
  rcases forSearch_decide (lo := 0) (hi := rows) (p := fun i => ∃ j, lo i ≤ j ∧ j < hi i ∧ P i j) (b := false)
    (fun i _ hi' => inner i hi') with ⟨h1, i, _, h2, j, h3⟩ | ⟨h1, h2⟩
  · rw [h1]; refine ⟨false, rfl, ?_⟩
    simp only [Bool.false_eq_true, false_iff]
    intro hh; exact hh i j h2 h3.1 h3.2.1 h3.2.2
  · rw [h1]; refine ⟨true, rfl, ?_⟩
    simp only [true_iff]
    intro i j hi' h3 h4 h5; exact h2 i (Nat.zero_le _) hi' ⟨j, h3, h4, h5⟩

/-- A search loop that returns `false` at the first bad index. -/
theorem search_spec {n : Nat} {P : Nat → Prop} [DecidablePred P] {body : Nat → Res (Option Bool)}
    (h : ∀ i, i < n → body i = .ok (if P i then some false else none)) :
    ∃ b, (do let r ← forSearch 0 n body; return r.getD true : Res Bool) = .ok b ∧
      (b = true ↔ ∀ i, i < n → ¬ P i) := by
  rcases forSearch_decide (lo := 0) (hi := n) (p := P) (b := false) (fun i _ hi => h i hi) with
    ⟨h1, i, _, h2, h3⟩ | ⟨h1, h2⟩
  · rw [h1]; refine ⟨false, rfl, ?_⟩
    simp only [Bool.false_eq_true, false_iff]; intro hh; exact hh i h2 h3
  · rw [h1]; refine ⟨true, rfl, ?_⟩
    simp only [true_iff]; intro i hi; exact h2 i (Nat.zero_le _) hi

theorem flatnonzero_eq {isZero : T → Bool} {A : Mat T} {n m : Nat} {e} (h : Rep A.toMB n m e) :
    flatnonzero isZero A = .ok ((List.range (n * m)).filter fun i => !isZero (e (i / m) (i % m))) := by
  unfold flatnonzero
  rw [show A.size = n * m from h.size,
    forRange_eq (Nat.zero_le _) (fun k => (List.range k).filter fun i => !isZero (e (i / m) (i % m)))]
  · rfl
  · intro i _ hi
    rw [show A.lin i = _ from h.lin' hi, Res.ok_bind, List.range_succ, List.filter_append]
    cases hz : isZero (e (i / m) (i % m)) <;> simp [hz]

theorem accumulate_eq [Add T] (l : List T) (init : T) : accumulate l init = .ok (l.foldl (· + ·) init) := by
  unfold accumulate
  rw [forRange_eq (Nat.zero_le _) (fun k => (l.take k).foldl (· + ·) init)]
  · simp
  · simp
  · intro i _ hi
    rw [vget_lt hi, Res.ok_bind, List.take_succ_eq_append_getElem hi, List.foldl_append]; rfl

theorem innerProduct_eq [Add T] [Mul T] (l1 l2 : List T) (init : T) (h : l1.length ≤ l2.length) :
    innerProduct l1 l2 init = .ok ((List.zipWith (· * ·) l1 l2).foldl (· + ·) init) := by
  unfold innerProduct
  have hlen : (List.zipWith (· * ·) l1 l2).length = l1.length := by simp; omega
  rw [forRange_eq (Nat.zero_le _) (fun k => ((List.zipWith (· * ·) l1 l2).take k).foldl (· + ·) init)]
  · rw [List.take_of_length_le (by omega)]
  · simp
  · intro i _ hi
    rw [vget_lt hi, vget_lt (by omega), Res.ok_bind, Res.ok_bind,
      List.take_succ_eq_append_getElem (by omega), List.foldl_append]
    simp

theorem spaced_eq {n : Nat} [One T] [Add T] [Sub T] [Mul T] [NatCast T] [CDiv T] [LT T]
    [DecidableRel (α := T) (· < ·)] {same : T → T → Bool} {post : T → T} {start stop : T} (hn : n < allocMax)
    {up dn : T} (hup : start < stop → cdiv (stop - start) ((n - 1 : Nat) : T) = .ok up)
    (hdn : ¬ start < stop → cdiv (start - stop) ((n - 1 : Nat) : T) = .ok dn) :
    spaced same post start stop n = .ok (vtab n fun i =>
      if n = 1 ∨ same start stop = true then post stop
      else if start < stop then post (start + up * (i : T)) else post (start - dn * (i : T))) := by
  unfold spaced
  rw [vnew_ok hn, Res.ok_bind]
  by_cases h0 : n = 0
  · subst h0; simp [vtab]
  · rw [if_neg h0]
    by_cases h1 : n = 1
    · subst h1; simp [vtab, vset]
    · rw [if_neg h1]
      by_cases h2 : same start stop = true
      · rw [if_pos h2, vfill_const (by simp)]
        congr 1; apply vtab_congr; intro i _; rw [if_pos (Or.inr h2)]
      · rw [if_neg h2]
        by_cases h3 : start < stop
        · rw [if_pos h3, hup h3, Res.ok_bind, vfill_const (e := fun i => post (start + up * (i : T))) (by simp)]
          congr 1; apply vtab_congr; intro i _; rw [if_neg (by tauto), if_pos h3]
        · rw [if_neg h3, hdn h3, Res.ok_bind, vfill_const (e := fun i => post (start - dn * (i : T))) (by simp)]
          congr 1; apply vtab_congr; intro i _; rw [if_neg (by tauto), if_neg h3]

theorem randMatrix_eq [Zero T] {n m : Nat} (hf : Fits n m) (rng : Nat → T) :
    randMatrix rng n m = .ok (Mat.ofFn n m fun r c => rng (r * m + c)) := by
  unfold randMatrix
  rw [Mat.new_eq hf, Res.ok_bind, show (Mat.ofFn n m fun _ _ => (0 : T)).size = n * m from hf.wmul]
  exact fill_lin rfl (fun i f hi _ _ => by rw [ofFn_setLin hi, (lin_of_lt hi).2.2])

theorem randMatrixC_eq [Zero T] {R : Type} {n m : Nat} (hf : Fits n m) (mk : R → R → T) (rng : Nat → R)
    (flip : Nat → Bool) : randMatrixC mk rng flip n m = .ok (Mat.ofFn n m fun r c =>
      if flip (r * m + c) then mk (rng (2 * (r * m + c) + 1)) (rng (2 * (r * m + c)))
      else mk (rng (2 * (r * m + c))) (rng (2 * (r * m + c) + 1))) := by
  unfold randMatrixC
  rw [Mat.new_eq hf, Res.ok_bind, show (Mat.ofFn n m fun _ _ => (0 : T)).size = n * m from hf.wmul]
  exact fill_lin rfl (fun i f hi _ _ => by rw [ofFn_setLin hi, (lin_of_lt hi).2.2])

theorem randVector_eq [Zero T] {n : Nat} (hn : n < allocMax) (rng : Nat → T) :
    randVector rng n = .ok (vtab n rng) := by
  unfold randVector
  rw [vnew_ok hn, Res.ok_bind, List.length_replicate]
  exact vfill_const (by simp)

theorem randVectorC_eq [Zero T] {R : Type} {n : Nat} (hn : n < allocMax) (mk : R → R → T) (rng : Nat → R)
    (flip : Nat → Bool) : randVectorC mk rng flip n = .ok (vtab n fun i =>
      if flip i then mk (rng (2 * i + 1)) (rng (2 * i)) else mk (rng (2 * i)) (rng (2 * i + 1))) := by
  unfold randVectorC
  rw [vnew_ok hn, Res.ok_bind, List.length_replicate]
  exact vfill_const (by simp)

/-- Comparison of two sequences: the first differing position decides. -/
theorem compare_loop {K : Type} [LinearOrder K] {n : Nat} {x y : Nat → K} {body : Nat → Res (Option Int)}
    (h : ∀ i, i < n → body i = .ok (if x i < y i then some (-(i : Int)) else if y i < x i then some (i : Int) else none)) :
    ((∀ i, i < n → x i = y i) → (do let r ← forSearch 0 n body; return r.getD 0 : Res Int) = .ok 0) ∧
    (∀ k, k < n → (∀ i, i < k → x i = y i) → x k ≠ y k →
      (do let r ← forSearch 0 n body; return r.getD 0 : Res Int) = .ok (if x k < y k then -(k : Int) else k)) := by
  constructor
  · intro heq
    rw [forSearch_none (fun i _ hi => by rw [h i hi, heq i hi]; simp)]; rfl
  · intro k hk heq hne
    have hb : body k = .ok (some (if x k < y k then -(k : Int) else k)) := by
      rw [h k hk]
      rcases lt_trichotomy (x k) (y k) with h1 | h1 | h1
      · simp [h1]
      · exact absurd h1 hne
      · simp [h1, not_lt_of_gt h1]
    rw [forSearch_some (Nat.zero_le k) hk (fun i _ hi => by rw [h i (by omega), heq i hi]; simp) hb]; rfl

end Util
end Malg
