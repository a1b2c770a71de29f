import Verif.Lemmas.Radix
import Verif.Props.FloatLaws
import Verif.Props.FloatSim
import Verif.Props.FloatNorm
import Verif.Props.FloatLu
/-!
# Property C114: floating point operations are correctly rounded and keep the order
-/
namespace Malg
open Ops Lin Control

section
variable {K : Type} [Field K] [LinearOrder K] [IsStrictOrderedRing K] [FloorRing K] {p : ℕ} {emin : ℤ} (hp : 1 ≤ p)

include hp in
theorem Fl.add_mono {x x' y y' : Fl K p emin} (h : x ≤ x') (h' : y ≤ y') : x + y ≤ x' + y' := rnd_mono hp emin (add_le_add h h')

include hp in
theorem Fl.sub_mono {x x' y y' : Fl K p emin} (h : x ≤ x') (h' : y ≤ y') : x - y' ≤ x' - y := rnd_mono hp emin (sub_le_sub h h')

include hp in
theorem Fl.mul_mono {x x' y y' : Fl K p emin} (h0 : 0 ≤ x) (h : x ≤ x') (h0' : 0 ≤ y) (h' : y ≤ y') : x * y ≤ x' * y' :=
  rnd_mono hp emin (mul_le_mul h h' h0' (le_trans (show (0 : K) ≤ x.val from h0) h))

theorem Fl.mul_nonneg {x y : Fl K p emin} (h : 0 ≤ x) (h' : 0 ≤ y) : 0 ≤ x * y := rnd_nonneg (_root_.mul_nonneg (show (0 : K) ≤ x.val from h) h')
theorem Fl.add_nonneg {x y : Fl K p emin} (h : 0 ≤ x) (h' : 0 ≤ y) : 0 ≤ x + y := rnd_nonneg (_root_.add_nonneg (show (0 : K) ≤ x.val from h) h')
theorem Fl.le_refl (x : Fl K p emin) : x ≤ x := _root_.le_refl x.val
theorem Fl.le_trans {x y z : Fl K p emin} (h : x ≤ y) (h' : y ≤ z) : x ≤ z := _root_.le_trans (α := K) h h'

include hp in
theorem Fl.lsum_mono {k : Nat} {f g : Nat → Fl K p emin} (h : ∀ i, i < k → f i ≤ g i) : lsum k f ≤ lsum k g := by
  induction k with
  | zero => exact Fl.le_refl _
  | succ k ih => exact Fl.add_mono hp (ih fun i hi => h i (by omega)) (h k (by omega))

theorem Fl.lsum_nonneg {k : Nat} {f : Nat → Fl K p emin} (h : ∀ i, i < k → 0 ≤ f i) : 0 ≤ lsum k f := by
  induction k with
  | zero => exact Fl.le_refl _
  | succ k ih => exact Fl.add_nonneg (ih fun i hi => h i (by omega)) (h k (by omega))

include hp in
theorem Fl.le_lsum {k : Nat} {f : Nat → Fl K p emin} (h : ∀ i, i < k → 0 ≤ f i) {i : Nat} (hi : i < k) : f i ≤ lsum k f := by
  induction k with
  | zero => omega
  | succ k ih =>
    by_cases hk : i = k
    · subst hk
      have h1 := Fl.lsum_nonneg (k := i) (f := f) fun j hj => h j (by omega)
      have := rnd_mono hp emin (le_add_of_nonneg_left (a := (f i).val) h1)
      rwa [rnd_exact hp (f i).isFl] at this
    · have h1 := ih (fun j hj => h j (by omega)) (by omega)
      have h2 := rnd_mono hp emin (le_add_of_nonneg_right (a := (lsum k f).val) (h k (by omega)))
      rw [rnd_exact hp (lsum k f).isFl] at h2
      exact Fl.le_trans h1 h2

/-- `x` is the number of the format nearest to the exact value `r`. -/
def Nearest (x : Fl K p emin) (r : K) : Prop := ∀ y : Fl K p emin, |x.val - r| ≤ |y.val - r|

include hp in
theorem nearest_of (r : K) : Nearest (Fl.of p emin r) r := fun y => rnd_nearest hp r y.isFl

include hp in
/-- C114: every element of a sum, a difference, a multiple or a quotient is the number of the format nearest to the exact result. -/
theorem C114_nearest {A B : MB (Fl K p emin)} {n m : Nat} {M N : Matrix (Fin n) (Fin m) (Fl K p emin)} (hA : A.Is M) (hB : B.Is N)
    (s : Fl K p emin) :
    (∃ X, Yields (add A B) X ∧ ∀ i j, Nearest (X i j) ((M i j).val + (N i j).val)) ∧
    (∃ X, Yields (sub A B) X ∧ ∀ i j, Nearest (X i j) ((M i j).val - (N i j).val)) ∧
    (∃ X, Yields (mulS A s) X ∧ ∀ i j, Nearest (X i j) ((M i j).val * s.val)) ∧
    (s.val ≠ 0 → ∃ X, Yields (divS A s) X ∧ ∀ i j, Nearest (X i j) ((M i j).val / s.val)) := by
  obtain ⟨e, hA, rfl⟩ := hA
  obtain ⟨f, hB, rfl⟩ := hB
  refine ⟨⟨_, (C33_add_sub hA hB).1.yields, fun i j => nearest_of hp _⟩, ⟨_, (C33_add_sub hA hB).2.yields, fun i j => nearest_of hp _⟩,
    ⟨_, (C33_scalar hA s).2.2.1.yields, fun i j => nearest_of hp _⟩, fun hs => ?_⟩
  exact ⟨_, (C33_div hA s (g := fun r c => Fl.of p emin ((e r c).val / s.val)) fun r c _ _ => if_neg hs).yields, fun i j => nearest_of hp _⟩

include hp in
/-- C114: sums and differences keep the order of the operands, element by element. -/
theorem C114_sum {A A' B B' : MB (Fl K p emin)} {n m : Nat} {M M' N N' : Matrix (Fin n) (Fin m) (Fl K p emin)} (hA : A.Is M) (hA' : A'.Is M')
    (hB : B.Is N) (hB' : B'.Is N') (h : ∀ i j, M i j ≤ M' i j) (h' : ∀ i j, N i j ≤ N' i j) :
    (∃ X X' : Matrix (Fin n) (Fin m) (Fl K p emin), Yields (add A B) X ∧ Yields (add A' B') X' ∧ ∀ i j, X i j ≤ X' i j) ∧
    (∃ X X' : Matrix (Fin n) (Fin m) (Fl K p emin), Yields (sub A B') X ∧ Yields (sub A' B) X' ∧ ∀ i j, X i j ≤ X' i j) := by
  obtain ⟨e, hA, rfl⟩ := hA
  obtain ⟨e', hA', rfl⟩ := hA'
  obtain ⟨f, hB, rfl⟩ := hB
  obtain ⟨f', hB', rfl⟩ := hB'
  exact ⟨⟨_, _, (C33_add_sub hA hB).1.yields, (C33_add_sub hA' hB').1.yields, fun i j => Fl.add_mono hp (h i j) (h' i j)⟩,
    ⟨_, _, (C33_add_sub hA hB').2.yields, (C33_add_sub hA' hB).2.yields, fun i j => Fl.sub_mono hp (h i j) (h' i j)⟩⟩

include hp in
/-- C114: products of matrices without negative elements have none and grow with the factors, whatever is rounded on the way. -/
theorem C114_product {A A' B B' : MB (Fl K p emin)} {n k m : Nat} {M M' : Matrix (Fin n) (Fin k) (Fl K p emin)}
    {N N' : Matrix (Fin k) (Fin m) (Fl K p emin)} (hA : A.Is M) (hA' : A'.Is M') (hB : B.Is N) (hB' : B'.Is N') (hf : Fits n m)
    (h0 : ∀ i j, 0 ≤ M i j) (h : ∀ i j, M i j ≤ M' i j) (h0' : ∀ i j, 0 ≤ N i j) (h' : ∀ i j, N i j ≤ N' i j) :
    ∃ X X' : Matrix (Fin n) (Fin m) (Fl K p emin), Yields (mul A B) X ∧ Yields (mul A' B') X' ∧ (∀ i j, 0 ≤ X i j) ∧ (∀ i j, X i j ≤ X' i j) ∧
      ∀ i l j, M i l * N l j ≤ X i j := by
  obtain ⟨e, hA, rfl⟩ := hA
  obtain ⟨e', hA', rfl⟩ := hA'
  obtain ⟨f, hB, rfl⟩ := hB
  obtain ⟨f', hB', rfl⟩ := hB'
  refine ⟨_, _, (C35_entries hA.toRepAt hB.toRepAt hf).yields, (C35_entries hA'.toRepAt hB'.toRepAt hf).yields, fun i j => ?_, fun i j => ?_,
    fun i l j => ?_⟩
  · exact Fl.lsum_nonneg fun l hl => Fl.mul_nonneg (h0 i ⟨l, hl⟩) (h0' ⟨l, hl⟩ j)
  · exact Fl.lsum_mono hp fun l hl => Fl.mul_mono hp (h0 i ⟨l, hl⟩) (h i ⟨l, hl⟩) (h0' ⟨l, hl⟩ j) (h' ⟨l, hl⟩ j)
  · exact Fl.le_lsum hp (f := fun l => e i l * f l j) (fun l hl => Fl.mul_nonneg (h0 i ⟨l, hl⟩) (h0' ⟨l, hl⟩ j)) l.2

include hp in
/-- C114: so do their powers. -/
theorem C114_power (he : emin ≤ 0) {A A' : MB (Fl K p emin)} {n : Nat} {M M' : Matrix (Fin n) (Fin n) (Fl K p emin)} (hA : A.Is M)
    (hA' : A'.Is M') (hn : 0 < n) (h0 : ∀ i j, 0 ≤ M i j) (h : ∀ i j, M i j ≤ M' i j) (N : Nat) :
    ∃ X X' : Matrix (Fin n) (Fin n) (Fl K p emin), Yields (powm A N) X ∧ Yields (powm A' N) X' ∧ (∀ i j, 0 ≤ X i j) ∧ ∀ i j, X i j ≤ X' i j := by
  have hf := hA.fits
  obtain ⟨e, hA, rfl⟩ := hA
  obtain ⟨e', hA', rfl⟩ := hA'
  have key : ∀ N, ∃ E E', powm A N = .ok (Mat.ofFn n n E) ∧ powm A' N = .ok (Mat.ofFn n n E') ∧
      (∀ i j, i < n → j < n → 0 ≤ E i j) ∧ ∀ i j, i < n → j < n → E i j ≤ E' i j := by
    intro N
    unfold powm
    rw [hA.rows, hA.cols, hA'.rows, hA'.cols, Util.eye_eq hn hn hf, Res.ok_bind, Res.ok_bind]
    induction N with
    | zero =>
      refine ⟨_, _, rfl, rfl, fun i j _ _ => ?_, fun i j _ _ => Fl.le_refl _⟩
      split
      · show (0 : K) ≤ (1 : Fl K p emin).val
        rw [(C84_float hp he).1]; exact zero_le_one
      · exact Fl.le_refl _
    | succ N ih =>
      obtain ⟨E, E', h1, h2, h3, h4⟩ := ih
      rw [forRange_succ_last (Nat.zero_le N), forRange_succ_last (Nat.zero_le N), h1, h2, Res.ok_bind, Res.ok_bind, mulAssign_self hf hA.toRepAt,
        mulAssign_self hf hA'.toRepAt]
      refine ⟨_, _, rfl, rfl, fun i j hi hj => ?_, fun i j hi hj => ?_⟩
      · exact Fl.lsum_nonneg fun l hl => Fl.mul_nonneg (h3 i l hi hl) (h0 ⟨l, hl⟩ ⟨j, hj⟩)
      · exact Fl.lsum_mono hp fun l hl => Fl.mul_mono hp (h3 i l hi hl) (h4 i l hi hl) (h0 ⟨l, hl⟩ ⟨j, hj⟩) (h ⟨l, hl⟩ ⟨j, hj⟩)
  obtain ⟨E, E', h1, h2, h3, h4⟩ := key N
  exact ⟨_, _, Yields.of_eq hf h1, Yields.of_eq hf h2, fun i j => h3 i j i.2 j.2, fun i j => h4 i j i.2 j.2⟩

include hp in
/-- C114: sums and scalar products of vectors. -/
theorem C114_vectors {a a' b b' : List (Fl K p emin)} {n : Nat} {f f' g g' : Nat → Fl K p emin} (ha : VRep a n f) (ha' : VRep a' n f')
    (hb : VRep b n g) (hb' : VRep b' n g') (h : ∀ i, i < n → f i ≤ f' i) (h' : ∀ i, i < n → g i ≤ g' i) :
    (∃ s s', Ops.sum a = .ok s ∧ Ops.sum a' = .ok s' ∧ s ≤ s' ∧ ((∀ i, i < n → 0 ≤ f i) → ∀ i, i < n → f i ≤ s)) ∧
    ((∀ i, i < n → 0 ≤ f i) → (∀ i, i < n → 0 ≤ g i) → ∃ s s', dot a b = .ok s ∧ dot a' b' = .ok s' ∧ 0 ≤ s ∧ s ≤ s') := by
  refine ⟨⟨_, _, C41_sum ha, C41_sum ha', Fl.lsum_mono hp h, fun h0 i hi => Fl.le_lsum hp h0 hi⟩, fun h0 h1 => ?_⟩
  exact ⟨_, _, C38_dot ha hb, C38_dot ha' hb', Fl.lsum_nonneg fun i hi => Fl.mul_nonneg (h0 i hi) (h1 i hi),
    Fl.lsum_mono hp fun i hi => Fl.mul_mono hp (h0 i hi) (h i hi) (h1 i hi) (h' i hi)⟩

include hp in
/-- C114: a system without negative coefficients, started in a state without negative entries and with such inputs, has no negative states
and outputs, and they grow with the initial state and the inputs. -/
theorem C114_positive_system {n m q : Nat} {sys : DiscreteStateSpace (Fl K p emin)} {a b c d : Nat → Nat → Fl K p emin}
    (hA : RepAt sys.A.toMB n n a) (hB : RepAt sys.B.toMB n m b) (hC : RepAt sys.C.toMB q n c) (hD : RepAt sys.D.toMB q m d)
    (hn : n < allocMax) (hm : m < allocMax) (hq : q < allocMax)
    (a0 : ∀ i j, i < n → j < n → 0 ≤ a i j) (b0 : ∀ i j, i < n → j < m → 0 ≤ b i j) (c0 : ∀ i j, i < q → j < n → 0 ≤ c i j)
    (d0 : ∀ i j, i < q → j < m → 0 ≤ d i j) {toSize : Fl K p emin → Res Nat} {N k : Nat} {r st : Fl K p emin}
    (hr : cdiv st sys.sampleTime = .ok r) (hk : toSize r = .ok k) {w w' : Nat → Nat → Fl K p emin} {x0 x0' : Nat → Fl K p emin}
    (w0 : ∀ i j, i < N → j < m → 0 ≤ w i j) (hw : ∀ i j, i < N → j < m → w i j ≤ w' i j)
    (h0 : ∀ j, j < n → 0 ≤ x0 j) (hx : ∀ j, j < n → x0 j ≤ x0' j) :
    ∃ (t : List (Fl K p emin)) (x y x' y' : Nat → Nat → Fl K p emin), simulate toSize sys (vtab N fun j => vtab m (w j)) st (vtab n x0) =
        .ok (t, vtab (min N k + 1) fun i => vtab n (x i), vtab (min N k) fun i => vtab q (y i)) ∧
      simulate toSize sys (vtab N fun j => vtab m (w' j)) st (vtab n x0') =
        .ok (t, vtab (min N k + 1) fun i => vtab n (x' i), vtab (min N k) fun i => vtab q (y' i)) ∧
      (∀ i j, i ≤ min N k → j < n → 0 ≤ x i j ∧ x i j ≤ x' i j) ∧ ∀ i j, i < min N k → j < q → 0 ≤ y i j ∧ y i j ≤ y' i j := by
  have key : ∀ s, s ≤ N → ∀ j, j < n → 0 ≤ stateSeq n m a b x0 w s j ∧ stateSeq n m a b x0 w s j ≤ stateSeq n m a b x0' w' s j := by
    intro s
    induction s with
    | zero => exact fun _ j hj => ⟨h0 j hj, hx j hj⟩
    | succ s ih =>
      intro hs j hj
      have ih := ih (by omega)
      constructor
      · exact Fl.add_nonneg (Fl.lsum_nonneg fun l hl => Fl.mul_nonneg (a0 j l hj hl) (ih l hl).1)
          (Fl.lsum_nonneg fun l hl => Fl.mul_nonneg (b0 j l hj hl) (w0 s l (by omega) hl))
      · exact Fl.add_mono hp
          (Fl.lsum_mono hp fun l hl => Fl.mul_mono hp (a0 j l hj hl) (Fl.le_refl _) (ih l hl).1 (ih l hl).2)
          (Fl.lsum_mono hp fun l hl => Fl.mul_mono hp (b0 j l hj hl) (Fl.le_refl _) (w0 s l (by omega) hl) (hw s l (by omega) hl))
  refine ⟨_, _, _, _, _, simulate_exec hA hB hC hD hn hm hq w x0 hr hk, simulate_exec hA hB hC hD hn hm hq w' x0' hr hk,
    fun i j hi hj => key i (by omega) j hj, fun i j hi hj => ⟨?_, ?_⟩⟩
  · exact Fl.add_nonneg (Fl.lsum_nonneg fun l hl => Fl.mul_nonneg (c0 j l hj hl) (key i (by omega) l hl).1)
      (Fl.lsum_nonneg fun l hl => Fl.mul_nonneg (d0 j l hj hl) (w0 i l (by omega) hl))
  · exact Fl.add_mono hp
      (Fl.lsum_mono hp fun l hl => Fl.mul_mono hp (c0 j l hj hl) (Fl.le_refl _) (key i (by omega) l hl).1 (key i (by omega) l hl).2)
      (Fl.lsum_mono hp fun l hl => Fl.mul_mono hp (d0 j l hj hl) (Fl.le_refl _) (w0 i l (by omega) hl) (hw i l (by omega) hl))

end

/-- C114: `square_norm` of a vector grows with the absolute values of its elements. -/
theorem C114_norm {p : ℕ} {emin : ℤ} (hp : 1 ≤ p) {v v' : List (Fl ℝ p emin)} {n : Nat} {f f' : Nat → Fl ℝ p emin} (hv : VRep v n f)
    (hv' : VRep v' n f') (h : ∀ i, i < n → |(f i).val| ≤ |(f' i).val|) :
    ∃ s s', squareNormVec Fl.sqrt v = .ok s ∧ squareNormVec Fl.sqrt v' = .ok s' ∧ 0 ≤ s ∧ s ≤ s' := by
  have e : ∀ {w : List (Fl ℝ p emin)} {g : Nat → Fl ℝ p emin}, VRep w n g →
      squareNormVec Fl.sqrt w = .ok (Fl.sqrt (lsum n fun i => g i * g i)) := by
    intro w g hw
    unfold squareNormVec
    rw [hw.2.1, accum_eq (g := fun i => g i * g i) (fun i acc hi => by rw [hw.get hi]; rfl)]
    rfl
  refine ⟨_, _, e hv, e hv', rnd_nonneg (Real.sqrt_nonneg _), rnd_mono hp emin (Real.sqrt_le_sqrt ?_)⟩
  refine Fl.lsum_mono hp (f := fun i => f i * f i) (g := fun i => f' i * f' i) fun i hi => ?_
  exact rnd_mono hp emin (abs_le_iff_mul_self_le.1 (h i hi))

/-- The order is kept, but not strictly: adding zero and adding one to `2^53` give the same. -/
theorem C114_not_strict : ∃ A A' B : Mat Double, A.WF ∧ A'.WF ∧ B.WF ∧ A.data.map Fl.val = [0] ∧ A'.data.map Fl.val = [1] ∧
    add A.toMB B.toMB = add A'.toMB B.toMB ∧ add A.toMB B.toMB = .ok B := by
  refine ⟨⟨1, 1, doubles [0]⟩, ⟨1, 1, doubles [1]⟩, ⟨1, 1, doubles [2 ^ 53]⟩, ⟨rfl, ?_, ?_, ?_⟩, ⟨rfl, ?_, ?_, ?_⟩, ⟨rfl, ?_, ?_, ?_⟩,
    ?_, ?_, ?_, ?_⟩ <;> decide +kernel

/-- Without the condition on signs products do not keep the order: `[-1] ≤ [1]`, but `[-1]*[-1] = [1] > [-1] = [1]*[-1]`. -/
example : mul (⟨1, 1, doubles [-1]⟩ : Mat Double).toMB (⟨1, 1, doubles [-1]⟩ : Mat Double).toMB = .ok ⟨1, 1, doubles [1]⟩ ∧
    mul (⟨1, 1, doubles [1]⟩ : Mat Double).toMB (⟨1, 1, doubles [-1]⟩ : Mat Double).toMB = .ok ⟨1, 1, doubles [-1]⟩ := by decide +kernel
/-- 1/10 + 2/10 is the number nearest to the sum of the two doubles, which is not the one nearest to 3/10. -/
example : add (⟨1, 1, doubles [1 / 10]⟩ : Mat Double).toMB (⟨1, 1, doubles [2 / 10]⟩ : Mat Double).toMB =
      .ok ⟨1, 1, doubles [(doubles [1 / 10, 2 / 10]).foldr (fun x s => x.val + s) 0]⟩ ∧
    add (⟨1, 1, doubles [1 / 10]⟩ : Mat Double).toMB (⟨1, 1, doubles [2 / 10]⟩ : Mat Double).toMB ≠ .ok ⟨1, 1, doubles [3 / 10]⟩ := by
  decide +kernel

end Malg
