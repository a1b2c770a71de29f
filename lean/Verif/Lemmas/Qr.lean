import Verif.Lemmas.Reflect
import Verif.Lemmas.Lu
import Verif.Lemmas.MathOps
import Verif.Props.View
import Verif.Props.Arith
import Verif.Model.Qr
import Verif.Model.Field
/-!
# Running `qr_decomposition`
-/
namespace Malg
open Matrix

theorem lsum_tail {T : Type} [AddCommMonoid T] {i m : Nat} (h : i ≤ m) (g : Nat → T) :
    lsum m (fun r => if r < i then 0 else g r) = lsum (m - i) (fun k => g (i + k)) := by
  obtain ⟨k, rfl⟩ := Nat.exists_eq_add_of_le h
  rw [Nat.add_sub_cancel_left]
  clear h
  induction k with
  | zero =>
    rw [Nat.add_zero, lsum_eq_range]
    exact Finset.sum_eq_zero fun r hr => if_pos (Finset.mem_range.1 hr)
  | succ k ih =>
    rw [← Nat.add_assoc, lsum, ih, lsum, if_neg (by omega)]

namespace Lin
variable {K : Type} [Field K] [LinearOrder K] [IsStrictOrderedRing K]

theorem lsum_sq_pos {k : Nat} (hk : 0 < k) {u : Nat → K} (h0 : u 0 = 1) : lsum k (fun i => u i * u i) ≠ 0 := by
  have : (1 : K) ≤ lsum k (fun i => u i * u i) := by
    rw [lsum_eq_range]
    have := Finset.single_le_sum (f := fun i => u i * u i) (fun r _ => mul_self_nonneg _) (Finset.mem_range.2 hk)
    simpa [h0] using this
  exact ne_of_gt (lt_of_lt_of_le one_pos this)

/-- `make_householder` on a vector whose first entry and norm do not cancel. -/
theorem makeHouseholder_eq (sqrt : K → K) (copysign : K → K → K) {k : Nat} (hk : 0 < k) (hf : Fits k k) (f : Nat → K)
    (hd : f 0 + copysign (sqrt (lsum k fun i => f i * f i)) (f 0) ≠ 0) :
    makeHouseholder sqrt copysign (vtab k f) = .ok (Mat.ofFn k k fun r c => (if r = c then 1 else 0) -
      (Function.update (fun i => f i / (f 0 + copysign (sqrt (lsum k fun i => f i * f i)) (f 0))) 0 1 r *
        Function.update (fun i => f i / (f 0 + copysign (sqrt (lsum k fun i => f i * f i)) (f 0))) 0 1 c) *
      (2 / lsum k fun i => Function.update (fun i => f i / (f 0 + copysign (sqrt (lsum k fun i => f i * f i)) (f 0))) 0 1 i *
        Function.update (fun i => f i / (f 0 + copysign (sqrt (lsum k fun i => f i * f i)) (f 0))) 0 1 i)) := by
  have hka : k < allocMax := Nat.lt_of_le_of_lt (Nat.le_mul_of_pos_right k hk) hf.1
  have hv := vtab_vrep hka f
  have hf1 : Fits k 1 := hf.mono (Nat.le_refl _) hk
  have hnorm : Ops.squareNormVec sqrt (vtab k f) = .ok (sqrt (lsum k fun i => f i * f i)) := by
    unfold Ops.squareNormVec
    rw [vtab_length, accum_eq (g := fun i => f i * f i)]
    · rfl
    · intro i acc hi; rw [vget_vtab hi]; rfl
  unfold makeHouseholder
  rw [vget_vtab hk, Res.ok_bind, hnorm, Res.ok_bind]
  generalize f 0 + copysign (sqrt (lsum k fun i => f i * f i)) (f 0) = d at hd ⊢
  rw [show Ops.vdivS (vtab k f) d = .ok (vtab k fun i => f i / d) from
    Ops.mapVec_eq hv fun i _ => cdiv_ok _ hd, Res.ok_bind, vset_vtab hk, Res.ok_bind]
  have hu0 : Function.update (fun i => f i / d) 0 (1 : K) 0 = 1 := Function.update_self _ _ _
  generalize Function.update (fun i => f i / d) 0 (1 : K) = u at hu0 ⊢
  have huv := vtab_vrep hka u
  rw [vtab_length, Util.eye_eq hk hk hf, Res.ok_bind, Util.toMatrix_eq huv hf.2.1, Res.ok_bind,
    Util.toMatrix_eq huv hf.2.1, Res.ok_bind]
  simp only [if_true, Bool.false_eq_true, if_false]
  rw [Ops.mul_eq (ofFn_rep hf1 _).toRepAt (ofFn_rep hf1.symm _).toRepAt hf, Res.ok_bind]
  have hdot : Ops.dot (vtab k u) (vtab k u) = .ok (lsum k fun i => u i * u i) := by
    unfold Ops.dot
    rw [if_neg (fun h => h rfl), vtab_length, accum_eq (g := fun i => u i * u i)]
    intro i acc hi; rw [vget_vtab hi]; rfl
  rw [hdot, Res.ok_bind, cdiv_ok _ (lsum_sq_pos hk hu0), Res.ok_bind]
  rw [show Ops.mulS _ _ = .ok _ from Ops.mapMat_eq (ofFn_rep hf _) fun _ _ _ _ => rfl, Res.ok_bind]
  rw [show Ops.sub _ _ = .ok _ from Ops.zipMat_eq (ofFn_rep hf _) (ofFn_rep hf _) fun _ _ _ _ => rfl]
  congr 1
  apply ofFn_congr
  intro r c _ _
  simp only [lsum, zero_add, one_add_one_eq_two]

omit [IsStrictOrderedRing K] in
/-- If they cancel, the first division is by zero. -/
theorem makeHouseholder_ub (sqrt : K → K) (copysign : K → K → K) {k : Nat} (hk : 0 < k) (hf : Fits k k) (f : Nat → K)
    (hd : f 0 + copysign (sqrt (lsum k fun i => f i * f i)) (f 0) = 0) :
    makeHouseholder sqrt copysign (vtab k f) = .ub .divZero := by
  have hka : k < allocMax := Nat.lt_of_le_of_lt (Nat.le_mul_of_pos_right k hk) hf.1
  have hnorm : Ops.squareNormVec sqrt (vtab k f) = .ok (sqrt (lsum k fun i => f i * f i)) := by
    unfold Ops.squareNormVec
    rw [vtab_length, accum_eq (g := fun i => f i * f i)]
    · rfl
    · intro i acc hi; rw [vget_vtab hi]; rfl
  unfold makeHouseholder
  rw [vget_vtab hk, Res.ok_bind, hnorm, Res.ok_bind, hd]
  have : Ops.vdivS (vtab k f) 0 = .ub .divZero := by
    unfold Ops.vdivS Ops.mapVec
    rw [vtab_length, vnew_ok hka, Res.ok_bind]
    refine forRange_ub (j := 0) ?_ (Nat.le_refl _) hk ?_
    · intro i s _ hi
      right
      rw [vget_vtab hi, Res.ok_bind]
      simp only [cdiv_zero]; rfl
    · intro s
      rw [vget_vtab hk, Res.ok_bind]
      simp only [cdiv_zero]; rfl
  rw [this]; rfl

omit [LinearOrder K] [IsStrictOrderedRing K] in
/-- Assigning to the lower right block of an identity matrix. -/
theorem blockAssign {m i : Nat} (hf : Fits m m) (hi : i < m) (x : Nat → Nat → K) :
    ((MRef.var 0).sub ⟨i, W - 1⟩ ⟨i, W - 1⟩).assign (fun _ => (Mat.ofFn (m - i) (m - i) x).toMB) id
        (fun _ => Mat.ofFn m m fun r c => if r = c then (1 : K) else 0) =
      .ok (Store.put (fun _ => Mat.ofFn m m fun r c => if r = c then (1 : K) else 0) 0
        (Mat.ofFn m m fun r c => if i ≤ r ∧ i ≤ c then x (r - i) (c - i) else if r = c then 1 else 0)) := by
  have hm := hf.2.1
  have hok : viewOk ⟨i, W - 1⟩ ⟨i, W - 1⟩ = true := by
    simp only [viewOk, Bool.and_eq_true, decide_eq_true_eq]; omega
  have hch := (ViewChain.sub (T := K) (v := 0) (N := m) (M := m) ⟨i, W - 1⟩ ⟨i, W - 1⟩ .var hok hi.le hi.le)
  have hmin : min (W - 1) m - i = m - i := by omega
  simp only [hmin] at hch
  have hon := (hch.on hf).1
  have he : ((fun _ => Mat.ofFn m m fun r c => if r = c then (1 : K) else 0 : Store K) 0).Holds m m
    (fun r c => if r = c then (1 : K) else 0) := ofFn_holds hf _
  have hfx : Fits (m - i) (m - i) := hf.mono (by omega) (by omega)
  rw [hon.assign_eq he (x := x) rfl rfl (fun r c F hr hc _ => ofFn_at hfx hr hc)]
  congr 1
  unfold putOn
  congr 1
  apply ofFn_congr
  intro r c hr hc
  by_cases h : i ≤ r ∧ i ≤ c
  · rw [if_pos h]
    have := scatter_on (e := fun r c => if r = c then (1 : K) else 0) (F := fun r c => id (x r c)) hon.rho_inj hon.kap_inj
      (r := r - i) (c := c - i) (by omega) (by omega)
    simp only [id, show i + (r - i) = r by omega, show i + (c - i) = c by omega] at this
    exact this
  · rw [if_neg h]
    exact scatter_off fun r' c' _ _ => by simp only [id]; omega

variable {m n : Nat}

omit [LinearOrder K] [IsStrictOrderedRing K] in
theorem reflect_apply (v : Fin m → K) (r c : Fin m) :
    reflect v r c = (if r = c then 1 else 0) - (v r * v c) * (2 / (v ⬝ᵥ v)) := by
  rw [reflect, Matrix.sub_apply, Matrix.smul_apply, vecMulVec_apply, Matrix.one_apply, smul_eq_mul, mul_comm (2 / _)]

/-- The squared norm of the lower part of column `i`. -/
def tailSq (R : Matrix (Fin m) (Fin n) K) (i : Nat) (c : Fin n) : K := ∑ r : Fin m, if r.val < i then 0 else R r c * R r c

omit [LinearOrder K] [IsStrictOrderedRing K] in
theorem tailSq_eq (R : Matrix (Fin m) (Fin n) K) {i : Nat} (hi : i < m) (hin : i < n) :
    lsum (m - i) (fun k => tab R (i + k) i * tab R (i + k) i) = tailSq R i ⟨i, hin⟩ := by
  rw [← lsum_tail hi.le (fun r => tab R r i * tab R r i), lsum_eq_sum, tailSq]
  exact Finset.sum_congr rfl fun r _ => by rw [tab_lt R r.2 hin]

/-- Rows of a matrix filled up to a bound that is read from the matrix. -/
theorem fillStair {T : Type} {n m lo : Nat} (hf : Fits n m) (hlo : lo ≤ n) {e f0 : Nat → Nat → T} {B : Nat → Nat}
    (hB : ∀ r, r < n → B r ≤ m) {bound : Nat → Mat T → Nat} (hb : ∀ r f, bound r (Mat.ofFn n m f) = B r) :
    (forRange lo n (Mat.ofFn n m f0) fun r A => forRange 0 (bound r A) A fun c A => A.setAt r c (e r c)) =
      .ok (Mat.ofFn n m fun r c => if lo ≤ r ∧ c < B r then e r c else f0 r c) := by
  rw [forRange_eq hlo (fun k => Mat.ofFn n m fun r c => if lo ≤ r ∧ r < k ∧ c < B r then e r c else f0 r c)]
  · congr 1; apply ofFn_congr; intro r c hr hc; apply if_congr _ rfl rfl; omega
  · apply ofFn_congr; intro r c hr hc; rw [if_neg (by omega)]
  · intro k h1 h2
    rw [hb, forRange_eq (Nat.zero_le _) (fun l => Mat.ofFn n m fun r c =>
      if lo ≤ r ∧ (r < k ∧ c < B r ∨ r = k ∧ c < l) then e r c else f0 r c)]
    · congr 1; apply ofFn_congr; intro r c hr hc
      apply if_congr _ rfl rfl
      constructor
      · rintro ⟨h, h' | ⟨rfl, h'⟩⟩
        · exact ⟨h, by omega, h'.2⟩
        · exact ⟨h, by omega, h'⟩
      · rintro ⟨h, h', h''⟩
        refine ⟨h, ?_⟩
        by_cases hk : r = k
        · subst hk; exact Or.inr ⟨rfl, h''⟩
        · exact Or.inl ⟨by omega, h''⟩
    · apply ofFn_congr; intro r c hr hc; apply if_congr _ rfl rfl; omega
    · intro c _ hc
      rw [ofFn_setAt hf h2 (Nat.lt_of_lt_of_le hc (hB k h2))]
      congr 1; apply ofFn_congr; intro r c' hr hc'
      simp only [upd]
      by_cases hij : r = k ∧ c' = c
      · rw [if_pos hij, if_pos (by omega), hij.1, hij.2]
      · rw [if_neg hij]; apply if_congr _ rfl rfl; omega

/-- One step of the triangularisation when the pivot does not cancel: multiplication by a reflection. -/
theorem qrStep_eq (sqrt : K → K) (copysign : K → K → K) {i : Nat} (hi : i < m) (hin : i < n) (hf : Fits m m) (hfn : Fits m n)
    (h0 : Nat → Nat → K) (Q : Matrix (Fin m) (Fin m) K) (R : Matrix (Fin m) (Fin n) K)
    (hd : R ⟨i, hi⟩ ⟨i, hin⟩ + copysign (sqrt (tailSq R i ⟨i, hin⟩)) (R ⟨i, hi⟩ ⟨i, hin⟩) ≠ 0) :
    ∃ h1, qrStep sqrt copysign i (Mat.ofFn m m h0, Mat.ofFn m m (tab Q), Mat.ofFn m n (tab R)) = .ok (Mat.ofFn m m h1,
      Mat.ofFn m m (tab (Q * reflect (mirror i (fun r => R r ⟨i, hin⟩)
        (R ⟨i, hi⟩ ⟨i, hin⟩ + copysign (sqrt (tailSq R i ⟨i, hin⟩)) (R ⟨i, hi⟩ ⟨i, hin⟩))))),
      Mat.ofFn m n (tab (reflect (mirror i (fun r => R r ⟨i, hin⟩)
        (R ⟨i, hi⟩ ⟨i, hin⟩ + copysign (sqrt (tailSq R i ⟨i, hin⟩)) (R ⟨i, hi⟩ ⟨i, hin⟩))) * R))) := by
  have hm := hf.2.1
  have hma : m < allocMax := Nat.lt_of_le_of_lt (Nat.le_mul_of_pos_right m (by omega)) hf.1
  have hk : 0 < m - i := by omega
  have hfk : Fits (m - i) (m - i) := hf.mono (by omega) (by omega)
  have hR0 : tab R (i + 0) i = R ⟨i, hi⟩ ⟨i, hin⟩ := tab_lt R hi hin
  have ht := tailSq_eq R hi hin
  have hmk := makeHouseholder_eq sqrt copysign hk hfk (fun k => tab R (i + k) i)
    (by rw [hR0, ht]; exact hd)
  simp only [hR0, ht] at hmk
  generalize R ⟨i, hi⟩ ⟨i, hin⟩ + copysign (sqrt (tailSq R i ⟨i, hin⟩)) (R ⟨i, hi⟩ ⟨i, hin⟩) = d at hd hmk ⊢
  -- the mirror vector
  have hmir : ∀ r : Fin m, i ≤ r.val →
      Function.update (fun k => tab R (i + k) i / d) 0 1 (r.val - i) = mirror i (fun r => R r ⟨i, hin⟩) d r := by
    intro r hr
    rw [mirror, if_neg (by omega), Function.update_apply]
    by_cases h : r.val = i
    · rw [if_pos (by omega), if_pos h]
    · rw [if_neg (by omega), if_neg h, show i + (r.val - i) = r.val by omega, tab_lt R r.2 hin]
  have hvv : (lsum (m - i) fun k => Function.update (fun k => tab R (i + k) i / d) 0 1 k *
      Function.update (fun k => tab R (i + k) i / d) 0 1 k) =
      mirror i (fun r => R r ⟨i, hin⟩) d ⬝ᵥ mirror i (fun r => R r ⟨i, hin⟩) d := by
    have := lsum_tail hi.le (fun r => Function.update (fun k => tab R (i + k) i / d) 0 1 (r - i) *
      Function.update (fun k => tab R (i + k) i / d) 0 1 (r - i))
    simp only [Nat.add_sub_cancel_left] at this
    rw [← this, lsum_eq_sum, dotProduct]
    refine Finset.sum_congr rfl fun r _ => ?_
    by_cases h : r.val < i
    · rw [if_pos h, mirror, if_pos h, zero_mul]
    · rw [if_neg h, hmir r (by omega)]
  rw [hvv] at hmk
  generalize hu : Function.update (fun k => tab R (i + k) i / d) 0 (1 : K) = u at hmk hmir hvv
  generalize hv : mirror i (fun r => R r ⟨i, hin⟩) d = v at hmk hmir hvv ⊢
  have hv0 : ∀ r : Fin m, r.val < i → v r = 0 := fun r hr => by rw [← hv, mirror, if_pos hr]
  have hok : viewOk ⟨i, W - 1⟩ ⟨i, W - 1⟩ = true := by
    simp only [viewOk, Bool.and_eq_true, decide_eq_true_eq]; omega
  have hsz : ∀ {a b : Nat} (X Y : Mat K) (_ : X.size = a * b) (_ : 0 < a * b), Y.moveAssign X = ({ rows := X.rows, cols := X.cols, data := X.data }, { X with data := [] }) := by
    intro a b X Y h1 h2
    unfold Mat.moveAssign
    rw [if_pos (by omega)]
  -- the table of H
  have hH : ∀ x : Nat → Nat → K, (∀ r c, x r c = (if r = c then 1 else 0) - u r * u c * (2 / (v ⬝ᵥ v))) →
      toM m m (fun r c => if i ≤ r ∧ i ≤ c then x (r - i) (c - i) else if r = c then 1 else 0) = reflect v := by
    intro x hx
    funext r c
    rw [toM_apply, reflect_apply]
    by_cases h : i ≤ r.val ∧ i ≤ c.val
    · rw [if_pos h, hx, hmir r h.1, hmir c h.2]
      congr 1
      apply if_congr _ rfl rfl
      rw [Fin.ext_iff]; omega
    · rw [if_neg h]
      have : v r * v c = 0 := by
        rcases Nat.lt_or_ge r.val i with h1 | h1
        · rw [hv0 r h1, zero_mul]
        · rw [hv0 c (by omega), mul_zero]
      rw [this, zero_mul, sub_zero]
      apply if_congr _ rfl rfl
      rw [Fin.ext_iff]
  refine ⟨fun r c => if i ≤ r ∧ i ≤ c then (if r - i = c - i then (1 : K) else 0) - u (r - i) * u (c - i) * (2 / v ⬝ᵥ v)
    else if r = c then 1 else 0, ?_⟩
  unfold qrStep
  simp only [ofFn_rows]
  rw [fillStair (B := fun _ => m) hf (Nat.zero_le _) (fun _ _ => Nat.le_refl _) (fun _ _ => rfl), Res.ok_bind]
  rw [show (Mat.ofFn m m fun r c => if 0 ≤ r ∧ c < m then (if r = c then (1 : K) else 0) else h0 r c) =
    Mat.ofFn m m fun r c => if r = c then (1 : K) else 0 from
    ofFn_congr fun r c _ hc => if_pos ⟨Nat.zero_le _, hc⟩]
  rw [Util.extractColumn_eq (ofFn_rep hfn _).toRepAt (by omega) hin hi.le hma, Res.ok_bind,
    show min m (W - 1) - i = m - i by omega, hmk, Res.ok_bind, if_pos hok, blockAssign hf hi, Res.ok_bind]
  have hHM := hH _ (fun r c => rfl)
  simp only [Store.put_same]
  generalize (fun r c => if i ≤ r ∧ i ≤ c then (if r - i = c - i then (1 : K) else 0) - u (r - i) * u (c - i) * (2 / v ⬝ᵥ v)
    else if r = c then 1 else 0) = h1 at hHM ⊢
  have hHI : (Mat.ofFn m m h1).toMB.Is (reflect v) := hHM ▸ (ofFn_rep hf h1).is
  have hQI : (Mat.ofFn m m (tab Q)).toMB.Is Q := is_iff_rep.2 (ofFn_rep hf _)
  have hRI : (Mat.ofFn m n (tab R)).toMB.Is R := is_iff_rep.2 (ofFn_rep hfn _)
  rw [(C35_product hQI hHI hf).eq, Res.ok_bind, (C35_product hHI hRI hfn).eq, Res.ok_bind]
  rw [hsz (a := m) (b := m) _ _ (by rw [Mat.size, ofFn_rows, ofFn_cols, hf.wmul]) (Nat.mul_pos (by omega) (by omega)),
    hsz (a := m) (b := n) _ _ (by rw [Mat.size, ofFn_rows, ofFn_cols, hfn.wmul]) (Nat.mul_pos (by omega) (by omega))]
  rfl

omit [IsStrictOrderedRing K] in
/-- One step when the pivot cancels: division by zero. -/
theorem qrStep_ub (sqrt : K → K) (copysign : K → K → K) {i : Nat} (hi : i < m) (hin : i < n) (hf : Fits m m) (hfn : Fits m n)
    (h0 : Nat → Nat → K) (q : Mat K) (R : Matrix (Fin m) (Fin n) K)
    (hd : R ⟨i, hi⟩ ⟨i, hin⟩ + copysign (sqrt (tailSq R i ⟨i, hin⟩)) (R ⟨i, hi⟩ ⟨i, hin⟩) = 0) :
    qrStep sqrt copysign i (Mat.ofFn m m h0, q, Mat.ofFn m n (tab R)) = .ub .divZero := by
  have hm := hf.2.1
  have hma : m < allocMax := Nat.lt_of_le_of_lt (Nat.le_mul_of_pos_right m (by omega)) hf.1
  have hR0 : tab R (i + 0) i = R ⟨i, hi⟩ ⟨i, hin⟩ := tab_lt R hi hin
  have ht := tailSq_eq R hi hin
  have hmk := makeHouseholder_ub sqrt copysign (k := m - i) (by omega) (hf.mono (by omega) (by omega))
    (fun k => tab R (i + k) i) (by rw [hR0, ht]; exact hd)
  unfold qrStep
  simp only [ofFn_rows]
  rw [fillStair (B := fun _ => m) hf (Nat.zero_le _) (fun _ _ => Nat.le_refl _) (fun _ _ => rfl), Res.ok_bind,
    Util.extractColumn_eq (ofFn_rep hfn _).toRepAt (by omega) hin hi.le hma, Res.ok_bind,
    show min m (W - 1) - i = m - i by omega, hmk]
  rfl

omit [IsStrictOrderedRing K] in
/-- One step past the last row: the column is empty. -/
theorem qrStep_oob (sqrt : K → K) (copysign : K → K → K) (hin : m < n) (hm : 0 < m) (hf : Fits m m) (hfn : Fits m n)
    (h0 : Nat → Nat → K) (q : Mat K) (e : Nat → Nat → K) :
    qrStep sqrt copysign m (Mat.ofFn m m h0, q, Mat.ofFn m n e) = .ub .oob := by
  have hmW := hf.2.1
  have hma : m < allocMax := Nat.lt_of_le_of_lt (Nat.le_mul_of_pos_right m hm) hf.1
  have hW : m < W - 1 := by have := allocMax_lt_W; omega
  unfold qrStep
  simp only [ofFn_rows]
  rw [fillStair (B := fun _ => m) hf (Nat.zero_le _) (fun _ _ => Nat.le_refl _) (fun _ _ => rfl), Res.ok_bind,
    Util.extractColumn_eq (ofFn_rep hfn _).toRepAt hW hin (Nat.le_refl _) hma, Res.ok_bind,
    show min m (W - 1) - m = 0 by omega]
  rfl

theorem tailSq_nonneg (R : Matrix (Fin m) (Fin n) K) (i : Nat) (c : Fin n) : 0 ≤ tailSq R i c :=
  Finset.sum_nonneg fun r _ => by split_ifs; exacts [le_refl _, mul_self_nonneg _]

theorem tailSq_zero {R : Matrix (Fin m) (Fin n) K} {i : Nat} {c : Fin n} (h : tailSq R i c = 0) (r : Fin m) (hr : i ≤ r.val) :
    R r c = 0 := by
  have h1 := (Finset.sum_eq_zero_iff_of_nonneg (fun r _ => by
    split_ifs; exacts [le_refl _, mul_self_nonneg _])).1 h r (Finset.mem_univ r)
  rw [if_neg (by omega)] at h1
  exact mul_self_eq_zero.1 h1

/-- The sign of the pivot. -/
theorem pivot {sqrt : K → K} {copysign : K → K → K} (hs : ∀ x, 0 ≤ x → 0 ≤ sqrt x ∧ sqrt x * sqrt x = x)
    (hcs : ∀ x y, 0 ≤ x → copysign x y = x ∧ 0 ≤ y ∨ copysign x y = -x ∧ y ≤ 0) {S : K} (hS : 0 ≤ S) (a : K) :
    copysign (sqrt S) a * copysign (sqrt S) a = S ∧ (a + copysign (sqrt S) a = 0 → S = 0 ∧ a = 0) := by
  obtain ⟨h1, h2⟩ := hs S hS
  rcases hcs (sqrt S) a h1 with ⟨h3, h4⟩ | ⟨h3, h4⟩
  · rw [h3]
    refine ⟨h2, fun h => ?_⟩
    have : sqrt S = 0 := by linarith
    rw [this] at h h2
    exact ⟨by rw [← h2, mul_zero], by rw [← h, add_zero]⟩
  · rw [h3]
    refine ⟨by rw [neg_mul_neg, h2], fun h => ?_⟩
    have : sqrt S = 0 := by linarith
    rw [this] at h h2
    exact ⟨by rw [← h2, mul_zero], by rw [← h, neg_zero, add_zero]⟩

/-- The state after `i` columns. -/
def QrState (A : Matrix (Fin m) (Fin n) K) (i : Nat) (s : Mat K × Mat K × Mat K) : Prop :=
  ∃ h0 Q R, s = (Mat.ofFn m m h0, Mat.ofFn m m (tab Q), Mat.ofFn m n (tab R)) ∧ QrInv i A Q R

/-- One step: either it goes on, or the first `i + 1` columns are dependent and the program divides by zero. -/
theorem qrStep_inv {sqrt : K → K} {copysign : K → K → K} (hs : ∀ x, 0 ≤ x → 0 ≤ sqrt x ∧ sqrt x * sqrt x = x)
    (hcs : ∀ x y, 0 ≤ x → copysign x y = x ∧ 0 ≤ y ∨ copysign x y = -x ∧ y ≤ 0) {i : Nat} (hi : i < m) (hin : i < n)
    (hf : Fits m m) (hfn : Fits m n) {A : Matrix (Fin m) (Fin n) K} {s} (h : QrState A i s) :
    (∃ s', qrStep sqrt copysign i s = .ok s' ∧ QrState A (i + 1) s') ∨
      (qrStep sqrt copysign i s = .ub .divZero ∧ ∃ x : Fin n → K, x ≠ 0 ∧ (∀ j, i < j.val → x j = 0) ∧ A *ᵥ x = 0) := by
  obtain ⟨h0, Q, R, rfl, hinv⟩ := h
  have hS := tailSq_nonneg R i ⟨i, hin⟩
  obtain ⟨hsq, hz⟩ := pivot hs hcs hS (R ⟨i, hi⟩ ⟨i, hin⟩)
  by_cases hd : R ⟨i, hi⟩ ⟨i, hin⟩ + copysign (sqrt (tailSq R i ⟨i, hin⟩)) (R ⟨i, hi⟩ ⟨i, hin⟩) = 0
  · right
    refine ⟨qrStep_ub sqrt copysign hi hin hf hfn h0 _ R hd, ?_⟩
    exact hinv.dependent hi hin fun r hr => tailSq_zero (hz hd).1 r hr
  · left
    obtain ⟨h1, e⟩ := qrStep_eq sqrt copysign hi hin hf hfn h0 Q R hd
    refine ⟨_, e, h1, _, _, rfl, hinv.step hi hin hsq hd fun h0 => hd ?_⟩
    rw [h0, mul_zero] at hsq
    rw [h0, tailSq_zero hsq.symm ⟨i, hi⟩ (Nat.le_refl _), add_zero]

/-- The loop over the first `k` columns. -/
theorem qrLoop {sqrt : K → K} {copysign : K → K → K} (hs : ∀ x, 0 ≤ x → 0 ≤ sqrt x ∧ sqrt x * sqrt x = x)
    (hcs : ∀ x y, 0 ≤ x → copysign x y = x ∧ 0 ≤ y ∨ copysign x y = -x ∧ y ≤ 0) {k : Nat} (hkm : k ≤ m) (hkn : k ≤ n)
    (hf : Fits m m) (hfn : Fits m n) {A : Matrix (Fin m) (Fin n) K} {s} (h : QrState A 0 s) :
    (∃ s', forRange 0 k s (qrStep sqrt copysign) = .ok s' ∧ QrState A k s') ∨
      (forRange 0 k s (qrStep sqrt copysign) = .ub .divZero ∧
        ∃ x : Fin n → K, x ≠ 0 ∧ (∀ j, k ≤ j.val → x j = 0) ∧ A *ᵥ x = 0) := by
  refine forRange_inv_or (Nat.zero_le k) (QrState A) h fun i s _ hi hI => ?_
  rcases qrStep_inv hs hcs (by omega) (by omega) hf hfn hI with h1 | ⟨h1, x, h2, h3, h4⟩
  · exact Or.inl h1
  · exact Or.inr ⟨h1, x, h2, fun j hj => h3 j (by omega), h4⟩

omit [IsStrictOrderedRing K] in
/-- The state before the loop. -/
theorem qrStart (hm : 0 < m) (hf : Fits m m) {S : Type} {A : Mat S} {M : Matrix (Fin m) (Fin n) S} (hA : A.toMB.Is M)
    (conv : S → K) (sqrt : K → K) (copysign : K → K → K) :
    ∃ s, QrState (M.map conv) 0 s ∧ qrDecomposition sqrt copysign conv A = (do
      let (_, Q, R) ← forRange 0 (wsub n (if n = m then 1 else 0)) s (qrStep sqrt copysign)
      let R ← forRange 1 R.rows R fun r R =>
        forRange 0 (min r R.cols) R fun c R => R.setAt r c 0
      return (Q, R)) := by
  obtain ⟨e, hA, rfl⟩ := hA
  refine ⟨(Mat.ofFn m m fun _ _ => 0, Mat.ofFn m m (tab 1), Mat.ofFn m n (tab ((toM m n e).map conv))),
    ⟨_, _, _, rfl, by rw [transpose_one, Matrix.one_mul], Matrix.one_mul _, ?_, ?_⟩, ?_⟩
  · intro r c h; omega
  · intro r c h; omega
  · unfold qrDecomposition
    rw [Mat.ofMB_eq hA, Res.ok_bind]
    rw [show (Mat.ofFn m n fun r c => conv (e r c)) = Mat.ofFn m n (tab ((toM m n e).map conv)) from
      ofFn_congr fun r c hr hc => by rw [tab_lt _ hr hc, Matrix.map_apply, toM_apply]]
    simp only [ofFn_rows, ofFn_cols]
    rw [Util.eye_eq hm hm hf, Res.ok_bind, Mat.new_eq hf, Res.ok_bind]
    rw [show (Mat.ofFn m m fun r c => if r = c then (1 : K) else 0) = Mat.ofFn m m (tab 1) from
      ofFn_congr fun r c hr hc => by rw [tab_lt _ hr hc, Matrix.one_apply]; exact if_congr (by rw [Fin.mk.injEq]) rfl rfl]
    rfl

/-- `qr_decomposition` of a matrix with at least as many rows as columns. -/
theorem qr_tall {sqrt : K → K} {copysign : K → K → K} (hs : ∀ x, 0 ≤ x → 0 ≤ sqrt x ∧ sqrt x * sqrt x = x)
    (hcs : ∀ x y, 0 ≤ x → copysign x y = x ∧ 0 ≤ y ∨ copysign x y = -x ∧ y ≤ 0) (hm : 0 < m) (hnm : n ≤ m) (hf : Fits m m)
    {S : Type} {A : Mat S} {M : Matrix (Fin m) (Fin n) S} (hA : A.toMB.Is M) (conv : S → K) :
    (∃ (Q : Matrix (Fin m) (Fin m) K) (R : Matrix (Fin m) (Fin n) K),
      qrDecomposition sqrt copysign conv A = .ok (Mat.ofFn m m (tab Q), Mat.ofFn m n (tab R)) ∧
      Qᵀ * Q = 1 ∧ Q * R = M.map conv ∧ (∀ r c, c.val < r.val → R r c = 0) ∧
      (∀ r c, c.val + 1 < m → r.val = c.val → R r c ≠ 0) ∧
      ∀ x : Fin n → K, (∀ j, m ≤ j.val + 1 → x j = 0) → M.map conv *ᵥ x = 0 → x = 0) ∨
    (qrDecomposition sqrt copysign conv A = .ub .divZero ∧
      ∃ x : Fin n → K, x ≠ 0 ∧ (∀ j, m ≤ j.val + 1 → x j = 0) ∧ M.map conv *ᵥ x = 0) := by
  have hfn : Fits m n := hA.fits
  obtain ⟨s, hs0, e⟩ := qrStart hm hf hA conv sqrt copysign
  obtain ⟨k, hk, hk1, hk2, hk3⟩ : ∃ k, wsub n (if n = m then 1 else 0) = k ∧ k ≤ m ∧ k ≤ n ∧
      ∀ j, j < n → (k ≤ j ↔ m ≤ j + 1) := by
    refine ⟨n - (if n = m then 1 else 0), wsub_eq (by split_ifs <;> omega) hfn.2.2, by omega, by omega, fun j hj => ?_⟩
    split_ifs <;> omega
  rw [e, hk]
  rcases qrLoop hs hcs hk1 hk2 hf hfn hs0 with ⟨s', e1, h0, Q, R, rfl, hI⟩ | ⟨e1, x, h1, h2, h3⟩
  · left
    refine ⟨Q, R, ?_, hI.orth, hI.fact, ?_, ?_, ?_⟩
    · rw [e1, Res.ok_bind]
      simp only [ofFn_rows]
      rw [fillStair (B := fun r => min r n) hfn hm (fun _ _ => Nat.min_le_right _ _) (fun _ _ => rfl), Res.ok_bind]
      show Res.ok _ = _
      congr 2
      apply ofFn_congr
      intro r c hr hc
      split_ifs with h
      · rw [tab_lt R hr hc, hI.low]
        · show c < k
          by_contra hcon
          have := (hk3 c hc).1 (by omega)
          omega
        · show c < r
          omega
      · rfl
    · intro r c h
      refine hI.low r c ?_ h
      by_contra hcon
      have := (hk3 c c.2).1 (by omega)
      omega
    · intro r c h
      refine hI.diag r c ?_
      by_contra hcon
      have := (hk3 c c.2).1 (by omega)
      omega
    · intro x hx h
      exact hI.independent hk1 (fun j hj => hx j ((hk3 j j.2).1 hj)) h
  · right
    refine ⟨by rw [e1]; rfl, x, h1, fun j hj => h2 j ((hk3 j j.2).2 hj), h3⟩

/-- `qr_decomposition` of a matrix with more columns than rows. -/
theorem qr_wide {sqrt : K → K} {copysign : K → K → K} (hs : ∀ x, 0 ≤ x → 0 ≤ sqrt x ∧ sqrt x * sqrt x = x)
    (hcs : ∀ x y, 0 ≤ x → copysign x y = x ∧ 0 ≤ y ∨ copysign x y = -x ∧ y ≤ 0) (hm : 0 < m) (hnm : m < n) (hf : Fits m m)
    {S : Type} {A : Mat S} {M : Matrix (Fin m) (Fin n) S} (hA : A.toMB.Is M) (conv : S → K) :
    qrDecomposition sqrt copysign conv A = .ub .oob ∨ qrDecomposition sqrt copysign conv A = .ub .divZero := by
  have hfn : Fits m n := hA.fits
  obtain ⟨s, hs0, e⟩ := qrStart hm hf hA conv sqrt copysign
  have hk : wsub n (if n = m then 1 else 0) = n := by rw [if_neg (by omega), wsub_eq (by omega) hfn.2.2]; rfl
  rw [e, hk, forRange_append (mid := m) (by omega) hnm.le]
  rcases qrLoop hs hcs (Nat.le_refl m) hnm.le hf hfn hs0 with ⟨s', e1, h0, Q, R, rfl, -⟩ | ⟨e1, -⟩
  · left
    rw [e1, Res.ok_bind, forRange_lt hnm, qrStep_oob sqrt copysign hnm hm hf hfn]; rfl
  · right; rw [e1]; rfl

end Lin
end Malg
