import Verif.Model.Mixed
import Verif.Props.Arith
import Verif.Props.VecOps
import Mathlib.Data.Rat.Floor
import Mathlib.Tactic.Linarith
/-!
# C104: operands with different element types
-/
namespace Malg
open Ops
variable {T₁ T₂ R : Type}

/-- Every element converted. -/
def MB.conv {T : Type} (c : T → R) (A : MB T) : MB R :=
  { rows := A.rows, cols := A.cols, size := A.size, empty := A.empty, lin := fun i => A.lin i >>= fun x => .ok (c x),
    at_ := fun i j => A.at_ i j >>= fun x => .ok (c x) }

theorem RepAt.conv {T : Type} (c : T → R) {A : MB T} {n m : Nat} {e} (h : RepAt A n m e) :
    RepAt (A.conv c) n m (fun i j => c (e i j)) :=
  ⟨h.fits, h.rows, h.cols, h.size, fun r k hr hk => by show (A.at_ r k >>= _) = _; rw [h.get r k hr hk, Res.ok_bind]⟩

theorem Rep.conv {T : Type} (c : T → R) {A : MB T} {n m : Nat} {e} (h : Rep A n m e) :
    Rep (A.conv c) n m (fun i j => c (e i j)) :=
  ⟨h.toRepAt.conv c, fun r k hr hk => by show (A.lin (r * m + k) >>= _) = _; rw [h.lin r k hr hk, Res.ok_bind]⟩

theorem VRep.conv {T : Type} (c : T → R) {a : List T} {n : Nat} {f} (h : VRep a n f) : VRep (a.map c) n (fun i => c (f i)) := by
  refine ⟨h.1, by rw [List.length_map, h.2.1], fun i hi => ?_⟩
  have := h.get hi
  rw [vget_ok_iff] at this
  simp [this]

theorem Mixed.mul_conv [Zero R] [Add R] [Mul R] (c₁ : T₁ → R) (c₂ : T₂ → R) (A : MB T₁) (B : MB T₂) :
    Mixed.mul c₁ c₂ A B = Ops.mul (A.conv c₁) (B.conv c₂) := by
  unfold Mixed.mul Ops.mul MB.conv
  simp only [bind_assoc, Res.ok_bind]

section
variable (c₁ : T₁ → R) (c₂ : T₂ → R)

/-- C104: the sum and the difference of matrices of different element types are what one gets from copies converted to
the common type. -/
theorem C104_convert [Zero R] [Add R] [Sub R] {A : MB T₁} {B : MB T₂} {n m : Nat} {e f} (hA : Rep A n m e) (hB : Rep B n m f) :
    Mixed.add c₁ c₂ A B = (Mat.ofMB A c₁ >>= fun A' => Mat.ofMB B c₂ >>= fun B' => add A'.toMB B'.toMB) ∧
    Mixed.sub c₁ c₂ A B = (Mat.ofMB A c₁ >>= fun A' => Mat.ofMB B c₂ >>= fun B' => sub A'.toMB B'.toMB) := by
  simp only [Mat.ofMB_eq hA, Res.ok_bind, Mat.ofMB_eq hB]
  unfold Mixed.add Mixed.sub add sub
  have h1 := ofFn_rep hA.fits fun i j => c₁ (e i j)
  have h2 := ofFn_rep hA.fits fun i j => c₂ (f i j)
  constructor <;> exact (zipMat_eq hA hB fun _ _ _ _ => rfl).trans (zipMat_eq h1 h2 fun _ _ _ _ => rfl).symm

/-- C104: the same for the matrix product. -/
theorem C104_product [Zero R] [Add R] [Mul R] {A : MB T₁} {B : MB T₂} {n k m : Nat} {e f} (hA : Rep A n k e) (hB : Rep B k m f)
    (hf : Fits n m) :
    Mixed.mul c₁ c₂ A B = (Mat.ofMB A c₁ >>= fun A' => Mat.ofMB B c₂ >>= fun B' => mul A'.toMB B'.toMB) := by
  rw [Mat.ofMB_eq hA, Res.ok_bind, Mat.ofMB_eq hB, Res.ok_bind, Mixed.mul_conv, mul_eq (hA.conv c₁).toRepAt (hB.conv c₂).toRepAt hf,
    mul_eq (ofFn_rep hA.fits _).toRepAt (ofFn_rep hB.fits _).toRepAt hf]

/-- C104: the same for a matrix and a number. -/
theorem C104_scalar [Zero R] [Add R] [Sub R] [Mul R] [CDiv R] {A : MB T₁} {n m : Nat} {e} (hA : Rep A n m e) (b : T₂) :
    Mixed.addS c₁ c₂ A b = (Mat.ofMB A c₁ >>= fun A' => addS A'.toMB (c₂ b)) ∧
    Mixed.subS c₁ c₂ A b = (Mat.ofMB A c₁ >>= fun A' => subS A'.toMB (c₂ b)) ∧
    Mixed.mulS c₁ c₂ A b = (Mat.ofMB A c₁ >>= fun A' => mulS A'.toMB (c₂ b)) ∧
    Mixed.smul c₂ c₁ b A = (Mat.ofMB A c₁ >>= fun A' => smul (c₂ b) A'.toMB) ∧
    (∀ g : Nat → Nat → R, (∀ i j, i < n → j < m → cdiv (c₁ (e i j)) (c₂ b) = .ok (g i j)) →
      Mixed.divS c₁ c₂ A b = (Mat.ofMB A c₁ >>= fun A' => divS A'.toMB (c₂ b))) := by
  rw [Mat.ofMB_eq hA, Res.ok_bind, Res.ok_bind, Res.ok_bind, Res.ok_bind, Res.ok_bind]
  unfold Mixed.addS Mixed.subS Mixed.mulS Mixed.smul Mixed.divS addS subS smul mulS divS
  have h1 := ofFn_rep hA.fits fun i j => c₁ (e i j)
  refine ⟨?_, ?_, ?_, ?_, fun g hg => ?_⟩
  · exact (mapMat_eq (g := fun i j => c₁ (e i j) + c₂ b) hA fun _ _ _ _ => rfl).trans
      (mapMat_eq h1 fun _ _ _ _ => by rfl).symm
  · exact (mapMat_eq (g := fun i j => c₁ (e i j) - c₂ b) hA fun _ _ _ _ => rfl).trans
      (mapMat_eq h1 fun _ _ _ _ => by rfl).symm
  · exact (mapMat_eq (g := fun i j => c₁ (e i j) * c₂ b) hA fun _ _ _ _ => rfl).trans
      (mapMat_eq h1 fun _ _ _ _ => by rfl).symm
  · exact (mapMat_eq (g := fun i j => c₁ (e i j) * c₂ b) hA fun _ _ _ _ => rfl).trans
      (mapMat_eq h1 fun _ _ _ _ => by rfl).symm
  · rw [mapMat_eq hA hg, mapMat_eq h1 hg]

/-- C104: the same for vectors, for a matrix and a vector, and for dot products. -/
theorem C104_vectors [Zero R] [Add R] [Sub R] [Mul R] {a : List T₁} {b : List T₂} {n : Nat} {f g} (ha : VRep a n f) (hb : VRep b n g) :
    Mixed.vadd c₁ c₂ a b = vadd (a.map c₁) (b.map c₂) ∧ Mixed.vsub c₁ c₂ a b = vsub (a.map c₁) (b.map c₂) ∧
    Mixed.vmul c₁ c₂ a b = vmul (a.map c₁) (b.map c₂) ∧ Mixed.dot c₁ c₂ a b = dot (a.map c₁) (b.map c₂) ∧
    ∀ {A : MB T₁} {k e}, Rep A k n e → k < allocMax →
      Mixed.mulVec c₁ c₂ A b = (Mat.ofMB A c₁ >>= fun A' => mulVec A'.toMB (b.map c₂)) := by
  have ha' := ha.conv c₁
  have hb' := hb.conv c₂
  unfold Mixed.vadd Mixed.vsub Mixed.vmul vadd vsub vmul
  refine ⟨?_, ?_, ?_, ?_, fun {A k e} hA hk => ?_⟩
  · exact (zipVec_eq (g := fun i => c₁ (f i) + c₂ (g i)) ha hb fun _ _ => rfl).trans
      (zipVec_eq ha' hb' fun _ _ => by rfl).symm
  · exact (zipVec_eq (g := fun i => c₁ (f i) - c₂ (g i)) ha hb fun _ _ => rfl).trans
      (zipVec_eq ha' hb' fun _ _ => by rfl).symm
  · exact (zipVec_eq (g := fun i => c₁ (f i) * c₂ (g i)) ha hb fun _ _ => rfl).trans
      (zipVec_eq ha' hb' fun _ _ => by rfl).symm
  · rw [C38_dot ha' hb']
    unfold Mixed.dot
    rw [if_neg (by rw [ha.2.1, hb.2.1]; simp), ha.2.1]
    apply accum_eq
    intro i acc hi
    rw [ha.get hi, hb.get hi]; rfl
  · rw [Mat.ofMB_eq hA, Res.ok_bind, mulVec_eq (ofFn_rep hA.fits _).toRepAt hk fun i hi => hb'.get hi,
      ← mulVec_eq (hA.conv c₁).toRepAt hk fun i hi => hb'.get hi]
    have : ∀ i, vget (b.map c₂) i = (vget b i >>= fun y => .ok (c₂ y)) := by
      intro i
      unfold vget
      rw [List.getElem?_map]
      cases b[i]? <;> rfl
    unfold Mixed.mulVec mulVec MB.conv
    simp only [bind_assoc, Res.ok_bind, this]

/-- C104: the same for a vector and a number. -/
theorem C104_vector_scalar [Zero R] [Add R] [Sub R] [Mul R] [CDiv R] {a : List T₁} {n : Nat} {f} (ha : VRep a n f) (b : T₂) :
    Mixed.vaddS c₁ c₂ a b = vaddS (a.map c₁) (c₂ b) ∧ Mixed.vsubS c₁ c₂ a b = vsubS (a.map c₁) (c₂ b) ∧
    Mixed.vmulS c₁ c₂ a b = vmulS (a.map c₁) (c₂ b) ∧
    (∀ g : Nat → R, (∀ i, i < n → cdiv (c₁ (f i)) (c₂ b) = .ok (g i)) → Mixed.vdivS c₁ c₂ a b = vdivS (a.map c₁) (c₂ b)) := by
  have ha' := ha.conv c₁
  unfold Mixed.vaddS Mixed.vsubS Mixed.vmulS Mixed.vdivS vaddS vsubS vmulS vdivS
  refine ⟨?_, ?_, ?_, fun g hg => by rw [mapVec_eq ha hg, mapVec_eq ha' hg]⟩
  · exact (mapVec_eq (g := fun i => c₁ (f i) + c₂ b) ha fun _ _ => rfl).trans (mapVec_eq ha' fun _ _ => by rfl).symm
  · exact (mapVec_eq (g := fun i => c₁ (f i) - c₂ b) ha fun _ _ => rfl).trans (mapVec_eq ha' fun _ _ => by rfl).symm
  · exact (mapVec_eq (g := fun i => c₁ (f i) * c₂ b) ha fun _ _ => rfl).trans (mapVec_eq ha' fun _ _ => by rfl).symm

/-- C104: the same for the comparisons of matrices. -/
theorem C104_compare [Zero R] [DecidableEq R] [LT R] [LE R] [DecidableRel (α := R) (· < ·)] [DecidableRel (α := R) (· ≤ ·)] {A : MB T₁}
    {B : MB T₂} {n m : Nat} {e f} (hA : Rep A n m e) (hB : Rep B n m f) :
    Mixed.eq c₁ c₂ A B = (Mat.ofMB A c₁ >>= fun A' => Mat.ofMB B c₂ >>= fun B' => cmp eqExact A'.toMB B'.toMB) ∧
    Mixed.ne c₁ c₂ A B = (Mat.ofMB A c₁ >>= fun A' => Mat.ofMB B c₂ >>= fun B' => cmp neExact A'.toMB B'.toMB) ∧
    Mixed.gt c₁ c₂ A B = (Mat.ofMB A c₁ >>= fun A' => Mat.ofMB B c₂ >>= fun B' => gt A'.toMB B'.toMB) ∧
    Mixed.ge c₁ c₂ A B = (Mat.ofMB A c₁ >>= fun A' => Mat.ofMB B c₂ >>= fun B' => ge A'.toMB B'.toMB) ∧
    Mixed.lt c₁ c₂ A B = (Mat.ofMB A c₁ >>= fun A' => Mat.ofMB B c₂ >>= fun B' => lt A'.toMB B'.toMB) ∧
    Mixed.le c₁ c₂ A B = (Mat.ofMB A c₁ >>= fun A' => Mat.ofMB B c₂ >>= fun B' => le A'.toMB B'.toMB) := by
  simp only [Mat.ofMB_eq hA, Res.ok_bind, Mat.ofMB_eq hB]
  unfold Mixed.eq Mixed.ne Mixed.gt Mixed.ge Mixed.lt Mixed.le Ops.cmp gt ge lt le
  have h1 := ofFn_rep hA.fits fun i j => c₁ (e i j)
  have h2 := ofFn_rep hA.fits fun i j => c₂ (f i j)
  refine ⟨?_, ?_, ?_, ?_, ?_, ?_⟩ <;>
    exact (zipMat_eq hA hB fun _ _ _ _ => rfl).trans (zipMat_eq h1 h2 fun _ _ _ _ => rfl).symm

/-- A test of the converted elements is the test of the converted matrix. -/
theorem Mixed.map_test {A : MB T₁} {n m : Nat} {e} (hA : Rep A n m e) (φ : R → Bool) :
    mapMat false (fun x => .ok (φ (c₁ x))) A = mapMat false (fun x => .ok (φ x)) (Mat.ofFn n m fun i j => c₁ (e i j)).toMB := by
  rw [mapMat_eq (g := fun i j => φ (c₁ (e i j))) hA fun _ _ _ _ => rfl,
    mapMat_eq (g := fun i j => φ (c₁ (e i j))) (ofFn_rep hA.fits fun i j => c₁ (e i j)) fun _ _ _ _ => rfl]

theorem Mixed.vmap_test {a : List T₁} {n : Nat} {f} (ha : VRep a n f) (φ : R → Bool) :
    mapVec false (fun x => .ok (φ (c₁ x))) a = mapVec false (fun x => .ok (φ x)) (a.map c₁) := by
  rw [mapVec_eq (g := fun i => φ (c₁ (f i))) ha fun _ _ => rfl,
    mapVec_eq (g := fun i => φ (c₁ (f i))) (ha.conv c₁) fun _ _ => rfl]

/-- C104: of a matrix and a number. -/
theorem C104_compare_scalar [Zero R] [DecidableEq R] [LT R] [LE R] [DecidableRel (α := R) (· < ·)] [DecidableRel (α := R) (· ≤ ·)] {A : MB T₁}
    {n m : Nat} {e} (hA : Rep A n m e) (b : T₂) :
    Mixed.eqS c₁ c₂ A b = (Mat.ofMB A c₁ >>= fun A' => cmpS eqExact A'.toMB (c₂ b)) ∧
    Mixed.neS c₁ c₂ A b = (Mat.ofMB A c₁ >>= fun A' => cmpS neExact A'.toMB (c₂ b)) ∧
    Mixed.gtS c₁ c₂ A b = (Mat.ofMB A c₁ >>= fun A' => gtS A'.toMB (c₂ b)) ∧
    Mixed.geS c₁ c₂ A b = (Mat.ofMB A c₁ >>= fun A' => geS A'.toMB (c₂ b)) ∧
    Mixed.ltS c₁ c₂ A b = (Mat.ofMB A c₁ >>= fun A' => ltS A'.toMB (c₂ b)) ∧
    Mixed.leS c₁ c₂ A b = (Mat.ofMB A c₁ >>= fun A' => leS A'.toMB (c₂ b)) := by
  simp only [Mat.ofMB_eq hA, Res.ok_bind]
  unfold Mixed.eqS Mixed.neS Mixed.gtS Mixed.geS Mixed.ltS Mixed.leS Ops.cmpS gtS geS ltS leS
  exact ⟨Mixed.map_test c₁ hA fun x => decide (x = c₂ b), Mixed.map_test c₁ hA fun x => decide (x ≠ c₂ b),
    Mixed.map_test c₁ hA fun x => decide (c₂ b < x), Mixed.map_test c₁ hA fun x => decide (c₂ b ≤ x),
    Mixed.map_test c₁ hA fun x => decide (x < c₂ b), Mixed.map_test c₁ hA fun x => decide (x ≤ c₂ b)⟩

/-- C104: and of vectors, with vectors and with numbers. -/
theorem C104_compare_vectors [DecidableEq R] {a : List T₁} {b : List T₂} {n : Nat} {f g} (ha : VRep a n f) (hb : VRep b n g) (s : T₂) :
    Mixed.veq c₁ c₂ a b = cmpVec eqExact (a.map c₁) (b.map c₂) ∧ Mixed.vne c₁ c₂ a b = cmpVec neExact (a.map c₁) (b.map c₂) ∧
    Mixed.veqS c₁ c₂ a s = cmpVecS eqExact (a.map c₁) (c₂ s) ∧ Mixed.vneS c₁ c₂ a s = cmpVecS neExact (a.map c₁) (c₂ s) := by
  have ha' := ha.conv c₁
  have hb' := hb.conv c₂
  unfold Mixed.veq Mixed.vne Mixed.veqS Mixed.vneS cmpVec cmpVecS
  exact ⟨(zipVec_eq ha hb fun _ _ => rfl).trans (zipVec_eq ha' hb' fun _ _ => rfl).symm,
    (zipVec_eq ha hb fun _ _ => rfl).trans (zipVec_eq ha' hb' fun _ _ => rfl).symm,
    Mixed.vmap_test c₁ ha fun x => decide (x = c₂ s), Mixed.vmap_test c₁ ha fun x => decide (x ≠ c₂ s)⟩

/-- C104: shapes that do not match throw, whatever the types. -/
theorem C104_mismatch [Zero R] [Add R] [Sub R] [Mul R] [DecidableEq R] [LT R] [LE R] [DecidableRel (α := R) (· < ·)]
    [DecidableRel (α := R) (· ≤ ·)] (A : MB T₁) (B : MB T₂) (a : List T₁) (b : List T₂) (back : R → Res T₁) :
    (A.rows ≠ B.rows ∨ A.cols ≠ B.cols → Mixed.add c₁ c₂ A B = .throw .invalidArgument ∧ Mixed.sub c₁ c₂ A B = .throw .invalidArgument ∧
      Mixed.eq c₁ c₂ A B = .throw .invalidArgument ∧ Mixed.ne c₁ c₂ A B = .throw .invalidArgument ∧
      Mixed.gt c₁ c₂ A B = .throw .invalidArgument ∧ Mixed.ge c₁ c₂ A B = .throw .invalidArgument ∧
      Mixed.lt c₁ c₂ A B = .throw .invalidArgument ∧ Mixed.le c₁ c₂ A B = .throw .invalidArgument) ∧
    (A.cols ≠ B.rows → Mixed.mul c₁ c₂ A B = .throw .invalidArgument) ∧
    (a.length ≠ b.length → Mixed.vadd c₁ c₂ a b = .throw .invalidArgument ∧ Mixed.vsub c₁ c₂ a b = .throw .invalidArgument ∧
      Mixed.vmul c₁ c₂ a b = .throw .invalidArgument ∧ Mixed.dot c₁ c₂ a b = .throw .invalidArgument ∧
      Mixed.veq c₁ c₂ a b = .throw .invalidArgument ∧ Mixed.vne c₁ c₂ a b = .throw .invalidArgument ∧
      ∀ (s : VStore T₁) (i : Nat), s i = a → Mixed.vaddAssign c₁ c₂ back i b s = .throw .invalidArgument ∧
        Mixed.vsubAssign c₁ c₂ back i b s = .throw .invalidArgument) := by
  refine ⟨fun h => ?_, fun h => if_pos h, fun h => ?_⟩
  · refine ⟨?_, ?_, ?_, ?_, ?_, ?_, ?_, ?_⟩ <;> exact zipMat_throw h
  · refine ⟨if_pos h, if_pos h, if_pos h, if_pos h, if_pos h, if_pos h, ?_⟩
    rintro s i rfl
    exact ⟨if_pos h, if_pos h⟩

end

/-- C104: for integer elements the results are the exact ones, converted to the common type. -/
theorem C104_integers [Ring R] {A B : MB ℤ} {n m : Nat} {M N : Matrix (Fin n) (Fin m) ℤ} (hA : A.Is M) (hB : B.Is N) :
    Yields (Mixed.add Int.cast Int.cast A B) ((M + N).map (Int.cast : ℤ → R)) ∧
    Yields (Mixed.sub Int.cast Int.cast A B) ((M - N).map (Int.cast : ℤ → R)) ∧
    ∀ {k : Nat} {C : MB ℤ} {P : Matrix (Fin m) (Fin k) ℤ}, C.Is P → Fits n k →
      Yields (Mixed.mul Int.cast Int.cast A C) ((M * P).map (Int.cast : ℤ → R)) := by
  obtain ⟨e, hA, rfl⟩ := hA
  obtain ⟨f, hB, rfl⟩ := hB
  refine ⟨?_, ?_, ?_⟩
  · refine (Returns.of_eq hA.fits (zipMat_eq hA hB fun _ _ _ _ => rfl)).yields.congr ?_
    funext i j; simp [toM]
  · refine (Returns.of_eq hA.fits (zipMat_eq hA hB fun _ _ _ _ => rfl)).yields.congr ?_
    funext i j; simp [toM]
  · rintro k C P ⟨g, hC, rfl⟩ hf
    rw [Mixed.mul_conv]
    refine (C35_entries (hA.conv _).toRepAt (hC.conv _).toRepAt hf).yields.congr ?_
    funext i j
    rw [toM_apply, lsum_eq_sum, Matrix.map_apply, Matrix.mul_apply, Int.cast_sum]
    refine Finset.sum_congr rfl fun l _ => ?_
    rw [Int.cast_mul]; rfl

/-- C104 (partial): so a result in an unsigned type of `w` bits has the exact value if that is one of its values. Missing:
negative results and large ones (`C104_sign_false`). -/
theorem C104_unsigned_partial {w : Nat} {z : ℤ} (h0 : 0 ≤ z) (h1 : z < 2 ^ w) : (((z : ℤ) : ZMod (2 ^ w)).val : ℤ) = z := by
  have : NeZero (2 ^ w) := ⟨by positivity⟩
  rw [ZMod.val_intCast]
  push_cast
  exact Int.emod_eq_of_lt h0 h1

/-- C104 is false for negative numbers next to unsigned ones: `[-1] + [0u]` is `[4294967295]`, equal to `[-1]` according to
`==`, but `[-1] < [0u]` does not hold. -/
theorem C104_sign_false :
    Mixed.add (T₁ := ℤ) (T₂ := ZMod (2 ^ 32)) Int.cast id (⟨1, 1, [-1]⟩ : Mat ℤ).toMB (⟨1, 1, [0]⟩ : Mat (ZMod (2 ^ 32))).toMB =
      .ok ⟨1, 1, [4294967295]⟩ ∧
    Mixed.eq (T₁ := ℤ) (T₂ := ZMod (2 ^ 32)) Int.cast id (⟨1, 1, [-1]⟩ : Mat ℤ).toMB
      (⟨1, 1, [4294967295]⟩ : Mat (ZMod (2 ^ 32))).toMB = .ok ⟨1, 1, [true]⟩ ∧
    Mixed.lt (T₁ := ℤ) (T₂ := ZMod (2 ^ 32)) (fun x => ((x : ZMod (2 ^ 32)).val : ℕ)) ZMod.val (⟨1, 1, [-1]⟩ : Mat ℤ).toMB
      (⟨1, 1, [0]⟩ : Mat (ZMod (2 ^ 32))).toMB = .ok ⟨1, 1, [false]⟩ := by
  decide +kernel

section
variable (c₁ : T₁ → R) (c₂ : T₂ → R) (back : R → Res T₁)

/-- C104: `A += B` and `A -= B` on a matrix or view leave the results converted back to the element type of the target, and
nothing else changes. -/
theorem C104_assign [Add R] [Sub R] {v N M n k : Nat} {m : MRef (Store T₁) T₁} {ρ κ : Nat → Nat}
    (hm : ViewChain v N M m n k ρ κ) {s : Store T₁} {e : Nat → Nat → T₁} (he : (s v).Holds N M e) {B : MB T₂} {f} (hB : Rep B n k f)
    (g : Nat → Nat → T₁) :
    ((∀ r c, r < n → c < k → back (c₁ (e (ρ r) (κ c)) + c₂ (f r c)) = .ok (g r c)) →
      ∃ s', Mixed.addAssign c₁ c₂ back m B s = .ok s' ∧ Overwritten s s' v N M e n k ρ κ g) ∧
    ((∀ r c, r < n → c < k → back (c₁ (e (ρ r) (κ c)) - c₂ (f r c)) = .ok (g r c)) →
      ∃ s', Mixed.subAssign c₁ c₂ back m B s = .ok s' ∧ Overwritten s s' v N M e n k ρ κ g) := by
  have h := (hm.on he.fits).1
  have hv := h.reads s e he
  refine ⟨fun hg => ⟨_, ?_, putOn_overwritten h he.fits _ _ g⟩, fun hg => ⟨_, ?_, putOn_overwritten h he.fits _ _ g⟩⟩
  · unfold Mixed.addAssign
    rw [if_neg (by rw [hv.rows, hB.rows]; simp), if_neg (by rw [hv.cols, hB.cols]; simp), hv.size]
    have := lin_loop h he (x := g) (g := fun i s => do
      let x ← (m.view s).lin i
      let y ← B.lin i
      back (c₁ x + c₂ y)) (fun r c F hr hc _ hF => by
        rw [(h.put_read he.fits).lin r c hr hc, hF r c hr hc (by omega), Res.ok_bind, hB.lin r c hr hc, Res.ok_bind, hg r c hr hc])
    simpa only [bind_assoc, pure_bind, Res.ok_bind] using this
  · unfold Mixed.subAssign
    rw [if_neg (by rw [hv.rows, hB.rows]; simp), if_neg (by rw [hv.cols, hB.cols]; simp), hv.size]
    have := lin_loop h he (x := g) (g := fun i s => do
      let x ← (m.view s).lin i
      let y ← B.lin i
      back (c₁ x - c₂ y)) (fun r c F hr hc _ hF => by
        rw [(h.put_read he.fits).lin r c hr hc, hF r c hr hc (by omega), Res.ok_bind, hB.lin r c hr hc, Res.ok_bind, hg r c hr hc])
    simpa only [bind_assoc, pure_bind, Res.ok_bind] using this

/-- C104: the same for `A *= b` and `A /= b` with a number. -/
theorem C104_scalar_assign [Mul R] [CDiv R] {v N M n k : Nat} {m : MRef (Store T₁) T₁} {ρ κ : Nat → Nat}
    (hm : ViewChain v N M m n k ρ κ) {s : Store T₁} {e : Nat → Nat → T₁} (he : (s v).Holds N M e) (b : T₂) (g : Nat → Nat → T₁) :
    ((∀ r c, r < n → c < k → back (c₁ (e (ρ r) (κ c)) * c₂ b) = .ok (g r c)) →
      ∃ s', Mixed.mulSAssign c₁ c₂ back m b s = .ok s' ∧ Overwritten s s' v N M e n k ρ κ g) ∧
    ((∀ r c, r < n → c < k → (cdiv (c₁ (e (ρ r) (κ c))) (c₂ b) >>= back) = .ok (g r c)) →
      ∃ s', Mixed.divSAssign c₁ c₂ back m b s = .ok s' ∧ Overwritten s s' v N M e n k ρ κ g) := by
  have h := (hm.on he.fits).1
  have hv := h.reads s e he
  refine ⟨fun hg => ⟨_, ?_, putOn_overwritten h he.fits _ _ g⟩, fun hg => ⟨_, ?_, putOn_overwritten h he.fits _ _ g⟩⟩
  · unfold Mixed.mulSAssign
    rw [hv.size]
    have := lin_loop h he (x := g) (g := fun i s => do
      let x ← (m.view s).lin i
      back (c₁ x * c₂ b)) (fun r c F hr hc _ hF => by
        rw [(h.put_read he.fits).lin r c hr hc, hF r c hr hc (by omega), Res.ok_bind, hg r c hr hc])
    simpa only [bind_assoc, pure_bind, Res.ok_bind] using this
  · unfold Mixed.divSAssign
    rw [hv.size]
    have := lin_loop h he (x := g) (g := fun i s => do
      let x ← (m.view s).lin i
      let q ← cdiv (c₁ x) (c₂ b)
      back q) (fun r c F hr hc _ hF => by
        rw [(h.put_read he.fits).lin r c hr hc, hF r c hr hc (by omega), Res.ok_bind, hg r c hr hc])
    simpa only [bind_assoc, pure_bind, Res.ok_bind] using this

/-- C104: and for `A *= B` with a square `B` (for the others see C36). -/
theorem C104_product_assign [Zero R] [Add R] [Mul R] {v N M n k : Nat} {m : MRef (Store T₁) T₁} {ρ κ : Nat → Nat}
    (hm : ViewChain v N M m n k ρ κ) {s : Store T₁} {e : Nat → Nat → T₁} (he : (s v).Holds N M e) {B : MB T₂} {f}
    (hB : RepAt B k k f) (g : Nat → Nat → T₁)
    (hg : ∀ r c, r < n → c < k → back (lsum k fun i => c₁ (e (ρ r) (κ i)) * c₂ (f i c)) = .ok (g r c)) :
    ∃ s', Mixed.mulAssign c₁ c₂ back m B s = .ok s' ∧ Overwritten s s' v N M e n k ρ κ g := by
  obtain ⟨h, hn, hk⟩ := hm.on he.fits
  have hv := h.reads s e he
  have hf : Fits n k := he.fits.mono hn hk
  refine ⟨_, ?_, putOn_overwritten h he.fits _ _ g⟩
  unfold Mixed.mulAssign
  have hl := mul_loop (hv.toRepAt.conv c₁) (hB.conv c₂) hf (Nat.le_refl k)
  simp only [MB.conv, bind_assoc, Res.ok_bind] at hl
  rw [if_neg (by rw [hv.cols, hB.rows]; simp), hv.rows, hv.cols, hB.cols, hB.rows, hv.size, Mat.new_eq hf, Res.ok_bind, hl, Res.ok_bind]
  have := lin_loop h he (x := g) (g := fun i _ => do
    let x ← Mat.lin (Mat.ofFn n k fun r c => if c < k then lsum k (fun i => c₁ (e (ρ r) (κ i)) * c₂ (f i c)) else 0) i
    back x) (fun r c F hr hc _ _ => by
      rw [ofFn_lin (lin_lt hr hc), lin_div hc, lin_mod hc, if_pos hc, Res.ok_bind, hg r c hr hc])
  simpa only [bind_assoc, pure_bind, Res.ok_bind] using this

theorem Mixed.vassign_loop {op : T₁ → T₂ → Res T₁} {a n : Nat} {s : VStore T₁} {f : Nat → T₁} (ha : VRep (s a) n f) {b : List T₂}
    {g : Nat → T₂} (hb : VRep b n g) {h : Nat → T₁} (hop : ∀ i, i < n → op (f i) (g i) = .ok (h i)) :
    ∃ s', forRange 0 n s (fun i s => do
        let x ← vget (s a) i
        let y ← vget b i
        let z ← op x y
        let v ← vset (s a) i z
        return VStore.put s a v) = .ok s' ∧ VRep (s' a) n h ∧ ∀ w, w ≠ a → s' w = s w := by
  rw [forRange_eq (Nat.zero_le n) (fun k => VStore.put s a (vtab n fun i => if i < k then h i else f i))]
  · refine ⟨_, rfl, ?_, fun w hw => if_neg hw⟩
    show VRep (if a = a then _ else _) _ _
    rw [if_pos rfl]
    rw [vtab_congr (g := h) (fun i hi => if_pos hi)]
    exact vtab_vrep ha.1 _
  · funext w
    by_cases h : w = a
    · simp [VStore.put, h, ha.eq]
    · simp [VStore.put, h]
  · intro i _ hi
    have h1 : ∀ x, VStore.put s a x a = x := fun x => if_pos rfl
    rw [h1, vget_vtab hi, Res.ok_bind, hb.get hi, Res.ok_bind, if_neg (lt_irrefl i), hop i hi, Res.ok_bind, vset_vtab hi, Res.ok_bind]
    show Res.ok _ = _
    congr 1
    funext w
    by_cases h : w = a
    · subst h
      simp only [VStore.put, if_true]
      apply vtab_congr; intro j hj
      by_cases h3 : j = i
      · subst h3; simp
      · rw [Function.update_of_ne h3]
        by_cases h4 : j < i
        · rw [if_pos h4, if_pos (by omega)]
        · rw [if_neg h4, if_neg (by omega)]
    · simp [VStore.put, h]

/-- C104: `a += b` and `a -= b` on vectors: the results converted back, in `a` only. -/
theorem C104_vector_assign [Add R] [Sub R] {a n : Nat} {s : VStore T₁} {f : Nat → T₁} (ha : VRep (s a) n f) {b : List T₂} {g : Nat → T₂}
    (hb : VRep b n g) (h : Nat → T₁) :
    ((∀ i, i < n → back (c₁ (f i) + c₂ (g i)) = .ok (h i)) →
      ∃ s', Mixed.vaddAssign c₁ c₂ back a b s = .ok s' ∧ VRep (s' a) n h ∧ ∀ w, w ≠ a → s' w = s w) ∧
    ((∀ i, i < n → back (c₁ (f i) - c₂ (g i)) = .ok (h i)) →
      ∃ s', Mixed.vsubAssign c₁ c₂ back a b s = .ok s' ∧ VRep (s' a) n h ∧ ∀ w, w ≠ a → s' w = s w) := by
  unfold Mixed.vaddAssign Mixed.vsubAssign
  have hc : ¬ (s a).length ≠ b.length := by rw [ha.2.1, hb.2.1]; simp
  rw [if_neg hc, if_neg hc, ha.2.1]
  exact ⟨fun hh => Mixed.vassign_loop (op := fun x y => back (c₁ x + c₂ y)) ha hb hh,
    fun hh => Mixed.vassign_loop (op := fun x y => back (c₁ x - c₂ y)) ha hb hh⟩

end

theorem trunc_nonneg {q : ℚ} (h : 0 ≤ q) : q.num.tdiv q.den = ⌊q⌋ := by
  rw [Int.tdiv_eq_ediv_of_nonneg (Rat.num_nonneg.2 h), Rat.floor_def']

/-- Cutting off the fraction. -/
theorem trunc_iff (q : ℚ) (z : ℤ) : q.num.tdiv q.den = z ↔ |(z : ℚ)| ≤ |q| ∧ |q| < |(z : ℚ)| + 1 ∧ 0 ≤ z * q := by
  have pos : ∀ (q : ℚ) (z : ℤ), 0 ≤ q → (q.num.tdiv q.den = z ↔ |(z : ℚ)| ≤ |q| ∧ |q| < |(z : ℚ)| + 1 ∧ 0 ≤ z * q) := by
    intro q z h
    rw [trunc_nonneg h, Int.floor_eq_iff, abs_of_nonneg h]
    constructor
    · rintro ⟨h1, h2⟩
      have hz : (0 : ℚ) ≤ z := by
        have : (-1 : ℚ) < z := by linarith
        have : -1 < z := by exact_mod_cast this
        exact_mod_cast (by omega : 0 ≤ z)
      rw [abs_of_nonneg hz]
      exact ⟨h1, h2, mul_nonneg hz h⟩
    · rintro ⟨h1, h2, h3⟩
      rcases h.eq_or_lt with h0 | h0
      · rw [← h0] at h1 ⊢
        have := abs_eq_zero.1 (le_antisymm h1 (abs_nonneg _))
        rw [this]; simp
      · have hz : (0 : ℚ) ≤ z := nonneg_of_mul_nonneg_left h3 h0
        rw [abs_of_nonneg hz] at h1 h2
        exact ⟨h1, h2⟩
  rcases le_total 0 q with h | h
  · exact pos q z h
  · have := pos (-q) (-z) (by linarith)
    rw [Rat.num_neg_eq_neg_num, Rat.den_neg_eq_den, Int.neg_tdiv, neg_inj] at this
    rw [this]
    push_cast
    rw [abs_neg, abs_neg, neg_mul_neg]

/-- C104: a floating point result assigned to an `int` of `w` bits loses its fraction: the integer is not larger in absolute value,
differs by less than one and does not change the sign. It is undefined exactly if no `int` is like that. -/
theorem C104_truncates (w : Nat) (q : ℚ) :
    (∀ z, Mixed.truncTo w q = .ok z ↔ (|(z : ℚ)| ≤ |q| ∧ |q| < |(z : ℚ)| + 1 ∧ 0 ≤ z * q) ∧ -2 ^ (w - 1) ≤ z ∧ z < 2 ^ (w - 1)) ∧
    ((∀ z, Mixed.truncTo w q ≠ .ok z) → Mixed.truncTo w q = .ub .badCast) := by
  unfold Mixed.truncTo
  constructor
  · intro z
    dsimp only
    split_ifs with h
    · rw [Res.ok.injEq, ← trunc_iff]
      exact ⟨fun e => ⟨e, e ▸ h⟩, fun e => e.1⟩
    · rw [← trunc_iff]
      refine ⟨(nomatch ·), fun e => absurd (e.1 ▸ e.2) h⟩
  · intro h
    dsimp only at h ⊢
    split_ifs with h1
    · rw [if_pos h1] at h; exact absurd rfl (h _)
    · rfl

/-- C104: an unsigned result assigned to a signed element gives the exact number whenever the signed type has it. -/
theorem C104_toSigned {w : Nat} (hw : 1 ≤ w) {z : ℤ} (h0 : -2 ^ (w - 1) ≤ z) (h1 : z < 2 ^ (w - 1)) :
    Mixed.toSigned w (z : ZMod (2 ^ w)) = .ok z := by
  have : NeZero (2 ^ w) := ⟨by positivity⟩
  unfold Mixed.toSigned
  rw [ZMod.val_intCast]
  congr 1
  have e : (2 : ℤ) ^ w = 2 * 2 ^ (w - 1) := by rw [← pow_succ', Nat.sub_add_cancel hw]
  rw [Int.emod_bmod]
  apply Int.bmod_eq_of_le
  · push_cast; rw [e]; omega
  · push_cast; rw [e]; omega

/-- C104: a signed matrix plus or minus an unsigned one in place, where the conversion to unsigned and back wraps around twice: exact
whenever the exact results are numbers of the signed type. -/
theorem C104_signed_assign {w : Nat} (hw : 1 ≤ w) {v N M n k : Nat} {m : MRef (Store ℤ) ℤ} {ρ κ : Nat → Nat}
    (hm : ViewChain v N M m n k ρ κ) {s : Store ℤ} {e : Nat → Nat → ℤ} (he : (s v).Holds N M e) {B : MB (ZMod (2 ^ w))} {f : Nat → Nat → ℤ}
    (hB : Rep B n k fun i j => (f i j : ZMod (2 ^ w))) :
    ((∀ r c, r < n → c < k → -2 ^ (w - 1) ≤ e (ρ r) (κ c) + f r c ∧ e (ρ r) (κ c) + f r c < 2 ^ (w - 1)) →
      ∃ s', Mixed.addAssign Int.cast id (Mixed.toSigned w) m B s = .ok s' ∧
        Overwritten s s' v N M e n k ρ κ fun r c => e (ρ r) (κ c) + f r c) ∧
    ((∀ r c, r < n → c < k → -2 ^ (w - 1) ≤ e (ρ r) (κ c) - f r c ∧ e (ρ r) (κ c) - f r c < 2 ^ (w - 1)) →
      ∃ s', Mixed.subAssign Int.cast id (Mixed.toSigned w) m B s = .ok s' ∧
        Overwritten s s' v N M e n k ρ κ fun r c => e (ρ r) (κ c) - f r c) := by
  refine ⟨fun h => (C104_assign Int.cast id (Mixed.toSigned w) hm he hB _).1 fun r c hr hc => ?_, fun h => (C104_assign Int.cast id (Mixed.toSigned w) hm he hB _).2 fun r c hr hc => ?_⟩
  · rw [id, ← Int.cast_add]; exact C104_toSigned hw (h r c hr hc).1 (h r c hr hc).2
  · rw [id, ← Int.cast_sub]; exact C104_toSigned hw (h r c hr hc).1 (h r c hr hc).2

example : Mixed.truncTo 32 (-5/2) = .ok (-2) ∧ Mixed.truncTo 32 (5/2) = .ok 2 ∧ Mixed.truncTo 8 (257/2) = .ub .badCast := by decide +kernel

/-- C104: in place is not the same as out of place. With an `int` matrix on the left, `A + B` is `[1.5]` and `A * 0.5` is
`[0.5]`, but `A += B` leaves `[1]` and `A *= 0.5` leaves `[0]`; a result that is no `int` is undefined. -/
theorem C104_compound_false : ∃ (A : Mat ℤ) (B : Mat ℚ), A.WF ∧ B.WF ∧
    Mixed.add Int.cast id A.toMB B.toMB = .ok (⟨1, 1, [3/2]⟩ : Mat ℚ) ∧
    (Mixed.addAssign Int.cast id (Mixed.truncTo 32) (MRef.var 0) B.toMB (fun _ => A) >>= fun s => .ok (s 0)) = .ok ⟨1, 1, [1]⟩ ∧
    Mixed.mulS Int.cast id A.toMB (1/2 : ℚ) = .ok ⟨1, 1, [1/2]⟩ ∧
    (Mixed.mulSAssign Int.cast id (Mixed.truncTo 32) (MRef.var 0) (1/2 : ℚ) (fun _ => A) >>= fun s => .ok (s 0)) = .ok ⟨1, 1, [0]⟩ ∧
    (Mixed.mulSAssign Int.cast id (Mixed.truncTo 32) (MRef.var 0) (2147483648 : ℚ) (fun _ => A) >>= fun s => .ok (s 0)) =
      .ub .badCast :=
  ⟨⟨1, 1, [1]⟩, ⟨1, 1, [1/2]⟩, by decide +kernel⟩

example : Mixed.mul Int.cast id (⟨2, 2, [1, 2, 3, 4]⟩ : Mat ℤ).toMB (⟨2, 1, [1/2, 1/4]⟩ : Mat ℚ).toMB = .ok ⟨2, 1, [1, 5/2]⟩ := by
  decide +kernel
/-- `unsigned` next to `int`: the exact results `5` and `-1`; the second one is taken modulo `2^32` and, assigned back to an
`int`, is `-1` again. -/
example : Mixed.add id Int.cast (⟨1, 2, [2, 1]⟩ : Mat (ZMod (2 ^ 32))).toMB (⟨1, 2, [3, -2]⟩ : Mat ℤ).toMB =
      .ok ⟨1, 2, [5, 4294967295]⟩ ∧
    (Mixed.addAssign Int.cast id (Mixed.toSigned 32) (MRef.var 0) (⟨1, 1, [1]⟩ : Mat (ZMod (2 ^ 32))).toMB
      (fun _ => (⟨1, 1, [-2]⟩ : Mat ℤ)) >>= fun s => .ok (s 0)) = .ok ⟨1, 1, [-1]⟩ := by decide +kernel
example : Mixed.dot Int.cast id [1, 2] [(1/2 : ℚ), 3] = .ok (13/2) := by decide +kernel
example : Mixed.vaddS Int.cast id [1, 2] (1/2 : ℚ) = .ok [3/2, 5/2] ∧ Mixed.smul id Int.cast (1/2 : ℚ) (⟨1, 2, [1, 3]⟩ : Mat ℤ).toMB = .ok ⟨1, 2, [1/2, 3/2]⟩ ∧
    Mixed.geS Int.cast id (⟨1, 3, [0, 1, 2]⟩ : Mat ℤ).toMB (1/2 : ℚ) = .ok ⟨1, 3, [false, true, true]⟩ ∧
    (Mixed.vaddAssign Int.cast id (Mixed.truncTo 32) 0 [(1/2 : ℚ), -5/2] (fun _ => [1, 1]) >>= fun s => .ok (s 0)) = .ok [1, -1] := by
  decide +kernel

end Malg
