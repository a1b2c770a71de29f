import Verif.Props.Zeros
import Verif.Props.FloatDet
import Mathlib.LinearAlgebra.Matrix.Permutation
import Mathlib.GroupTheory.Perm.Fin
/-!
# Property C146: matrices with one entry in every row and column
-/
namespace Malg
open Ops Lin Feq

/-- What numbers must satisfy: `Z` are the zeros, `E` the numbers that can be entries. -/
structure Sparse {T : Type} [Zero T] [One T] [Sub T] [Mul T] [Neg T] [CDiv T] (isz : T → Bool) (Z E : T → Prop) : Prop where
  zero : ∀ {x}, Z x → isz x = true
  entry : ∀ {x}, E x → isz x = false
  divisor : ∀ {x}, isz x = false → Divisor x
  ratio : ∀ {x y}, Z x → E y → Z (quo x y)
  keep : ∀ {r x y}, Z r → Z y ∨ E y → E x → x - r * y = x
  gone : ∀ {r x y}, Z r → Z y ∨ E y → Z x → Z (x - r * y)
  neg_one : ∀ x : T, x * -1 = -x
  neg_mul : ∀ x y : T, -x * y = -(x * y)
  neg_neg : ∀ x : T, - -x = x

/-- `x` or `-x`. -/
def withSign {T : Type} [Neg T] (s : ℤˣ) (x : T) : T := if s = 1 then x else -x

/-- The entries of row `i` of `M` are zeros except for the one in column `σ i`. -/
def Monomial {T : Type} (Z E : T → Prop) {n : Nat} (σ : Equiv.Perm (Fin n)) (M : Matrix (Fin n) (Fin n) T) : Prop :=
  ∀ i j, (σ i = j → E (M i j)) ∧ (σ i ≠ j → Z (M i j))

section
variable {T : Type} [Zero T] [One T] [Add T] [Sub T] [Mul T] [Neg T] [CDiv T] {isz : T → Bool} {Z E : T → Prop} (S : Sparse isz Z E)
include S

omit [Add T] in
theorem Sparse.withSign_neg (s : ℤˣ) (x : T) : withSign (-s) x = -withSign s x := by
  unfold withSign
  rcases Int.units_eq_one_or s with h | h <;> subst h
  · rw [if_neg (by decide), if_pos rfl]
  · rw [if_pos (by decide), if_neg (by decide), S.neg_neg]

omit [Add T] in
theorem Sparse.withSign_mul (s : ℤˣ) (x y : T) : withSign s x * y = withSign s (x * y) := by
  unfold withSign
  split
  · rfl
  · rw [S.neg_mul]

omit [Add T] in
/-- Eliminating with a row that has nothing to eliminate. -/
theorem Sparse.elim {n c : Nat} (hc : c < n) {v : Fin n → T} (hv : ∀ j, E (v j)) {π : Equiv.Perm (Fin n)} (hπ : π ⟨c, hc⟩ = ⟨c, hc⟩) {f : Nat → Nat → T}
    (h : ∀ i j : Fin n, (π i = j → f i j = v j) ∧ (π i ≠ j → Z (f i j))) (i j : Fin n) :
    (π i = j → elimT f c (fun r => quo (f r c) (f c c)) i j = v j) ∧ (π i ≠ j → Z (elimT f c (fun r => quo (f r c) (f c c)) i j)) := by
  unfold elimT
  split
  · rename_i hij
    have h1 : f c c = v ⟨c, hc⟩ := (h ⟨c, hc⟩ ⟨c, hc⟩).1 hπ
    have h2 : π i ≠ ⟨c, hc⟩ := fun h3 => by
      have h4 : i = ⟨c, hc⟩ := π.injective (h3.trans hπ.symm)
      rw [h4] at hij
      exact absurd hij.1 (lt_irrefl c)
    have h3 : Z (quo (f i c) (f c c)) := S.ratio ((h i ⟨c, hc⟩).2 h2) (h1 ▸ hv _)
    have h4 : Z (f c j) ∨ E (f c j) := by
      by_cases h5 : π ⟨c, hc⟩ = j
      · exact .inr (by rw [(h ⟨c, hc⟩ j).1 h5]; exact hv j)
      · exact .inl ((h ⟨c, hc⟩ j).2 h5)
    refine ⟨fun h5 => ?_, fun h5 => S.gone h3 h4 ((h i j).2 h5)⟩
    dsimp only
    rw [S.keep h3 h4 (by rw [(h i j).1 h5]; exact hv j), (h i j).1 h5]
  · exact h i j

/-- C146: the determinant of a matrix with more than four rows that has one entry in every row and column is the product of the entries from the first column to
the last one, with the sign of the permutation. -/
theorem C146_monomial {A : MB T} {n : Nat} {M : Matrix (Fin n) (Fin n) T} (hA : A.Is M) (hn : 4 < n) {σ : Equiv.Perm (Fin n)} (hM : Monomial Z E σ M) :
    determinant isz A = .ok (withSign σ.sign ((List.ofFn fun j => M (σ.symm j) j).foldl (· * ·) 1)) := by
  obtain ⟨e, hA, rfl⟩ := hA
  have hf := hA.fits
  set v : Fin n → T := fun j => toM n n e (σ.symm j) j with hv
  have hvE : ∀ j, E (v j) := fun j => (hM (σ.symm j) j).1 (σ.apply_symm_apply j)
  have key : ∀ c, c ≤ n → ∃ (f : Nat → Nat → T) (π : Equiv.Perm (Fin n)) (s : ℤˣ),
      forRange 0 c (⟨Mat.ofFn n n e, 1, false⟩ : ElimState T) (fun c s => elimStep isz n c s) =
        .ok ⟨Mat.ofFn n n f, withSign s (((List.ofFn v).take c).foldl (· * ·) 1), false⟩ ∧
      (∀ i j : Fin n, (π i = j → f i j = v j) ∧ (π i ≠ j → Z (f i j))) ∧ (∀ i : Fin n, i.1 < c → π i = i) ∧ σ.sign = π.sign * s := by
    intro c
    induction c with
    | zero =>
      intro _
      refine ⟨e, σ, 1, rfl, fun i j => ⟨fun h => ?_, fun h => (hM i j).2 h⟩, fun i hi => absurd hi (Nat.not_lt_zero _), (mul_one _).symm⟩
      rw [hv]
      dsimp only
      rw [← h, Equiv.symm_apply_apply]
      rfl
    | succ c ih =>
      intro hc
      have hc : c < n := hc
      obtain ⟨f, π, s, h1, h2, h3, h4⟩ := ih (by omega)
      have htake : (List.ofFn v).take (c + 1) = (List.ofFn v).take c ++ [v ⟨c, hc⟩] := by
        rw [List.take_add_one]
        congr 1
        rw [List.getElem?_ofFn, dif_pos hc]
        rfl
      rcases elimStep_cases isz (fun x hx => S.divisor hx) hf hc f (withSign s (((List.ofFn v).take c).foldl (· * ·) 1)) with ⟨g1, g2⟩ | ⟨g1, g2, -⟩ | ⟨g1, k, g2, g3, g4, -, g5⟩
      · have hπ : π ⟨c, hc⟩ = ⟨c, hc⟩ := by
          by_contra hne
          have := S.zero ((h2 ⟨c, hc⟩ ⟨c, hc⟩).2 hne)
          rw [g1] at this; cases this
        refine ⟨_, π, s, ?_, S.elim hc hvE hπ h2, fun i hi => ?_, h4⟩
        · rw [forRange_succ_last (Nat.zero_le c), h1, Res.ok_bind, g2, htake, List.foldl_append, show f c c = v ⟨c, hc⟩ from (h2 ⟨c, hc⟩ ⟨c, hc⟩).1 hπ, S.withSign_mul]
          rfl
        · rcases Nat.lt_or_ge i.1 c with h | h
          · exact h3 i h
          · obtain rfl : i = ⟨c, hc⟩ := Fin.ext (show i.1 = c by omega)
            exact hπ
      · exfalso
        obtain ⟨r, hr⟩ := π.surjective ⟨c, hc⟩
        have hE : isz (f r c) = false := S.entry (by rw [(h2 r ⟨c, hc⟩).1 hr]; exact hvE _)
        rcases Nat.lt_trichotomy r.1 c with h | h | h
        · rw [h3 r h] at hr
          rw [hr] at h
          exact absurd h (lt_irrefl _)
        · rw [h, g1] at hE; cases hE
        · rw [g2 r h r.2] at hE; cases hE
      · have hk : π ⟨k, g3⟩ = ⟨c, hc⟩ := by
          by_contra hne
          have := S.zero ((h2 ⟨k, g3⟩ ⟨c, hc⟩).2 hne)
          rw [g4] at this; cases this
        set τ := Equiv.swap (⟨c, hc⟩ : Fin n) ⟨k, g3⟩ with hτ
        have hne : (⟨c, hc⟩ : Fin n) ≠ ⟨k, g3⟩ := fun h => absurd (congrArg Fin.val h) (by dsimp only; omega)
        have hsw : ∀ i j : Fin n, swapT f c k i j = f (τ i) j := by
          intro i j
          unfold swapT
          rw [hτ, Equiv.swap_apply_def]
          by_cases hi : i.1 = c
          · rw [if_pos hi, if_pos (Fin.ext hi)]
          · rw [if_neg hi, if_neg (fun h => hi (congrArg Fin.val h))]
            by_cases hi' : i.1 = k
            · rw [if_pos hi', if_pos (Fin.ext hi')]
            · rw [if_neg hi', if_neg (fun h => hi' (congrArg Fin.val h))]
        have h2' : ∀ i j : Fin n, ((π * τ) i = j → swapT f c k i j = v j) ∧ ((π * τ) i ≠ j → Z (swapT f c k i j)) := by
          intro i j
          rw [hsw, Equiv.Perm.mul_apply]
          exact h2 (τ i) j
        have hπ : (π * τ) ⟨c, hc⟩ = ⟨c, hc⟩ := by rw [Equiv.Perm.mul_apply, hτ, Equiv.swap_apply_left, hk]
        refine ⟨_, π * τ, -s, ?_, S.elim hc hvE hπ h2', fun i hi => ?_, ?_⟩
        · rw [forRange_succ_last (Nat.zero_le c), h1, Res.ok_bind, g5, htake, List.foldl_append,
            show swapT f c k c c = v ⟨c, hc⟩ from (h2' ⟨c, hc⟩ ⟨c, hc⟩).1 hπ, S.neg_one, ← S.withSign_neg, S.withSign_mul]
          rfl
        · rcases Nat.lt_or_ge i.1 c with h | h
          · rw [Equiv.Perm.mul_apply, hτ, Equiv.swap_apply_of_ne_of_ne, h3 i h]
            · exact fun h' => absurd (congrArg Fin.val h') (by dsimp only; omega)
            · exact fun h' => absurd (congrArg Fin.val h') (by dsimp only; omega)
          · obtain rfl : i = ⟨c, hc⟩ := Fin.ext (show i.1 = c by omega)
            exact hπ
        · rw [Equiv.Perm.sign_mul, hτ, Equiv.Perm.sign_swap hne, h4]
          simp
  obtain ⟨f, π, s, h1, -, h3, h4⟩ := key n le_rfl
  have hπ : π = 1 := Equiv.ext fun i => h3 i i.2
  rw [hπ, Equiv.Perm.sign_one, one_mul] at h4
  unfold determinant
  rw [isSquare_eq hA.toRepAt, hA.cols, beq_self_eq_true, Bool.not_true, if_neg Bool.false_ne_true]
  rw [if_neg (by omega), if_neg (by omega), if_neg (by omega), if_neg (by omega), Mat.ofMB_eq hA, Res.ok_bind]
  dsimp only [id]
  have h2 : (Mat.ofFn n n e).cols = n := rfl
  rw [h1, h4, List.take_of_length_le (by rw [List.length_ofFn])]
  rfl
end

/-! ## The numbers -/

/-- C146: exact numbers. -/
theorem C146_field {K : Type} [Field K] [DecidableEq K] {isz : K → Bool} (hz : ∀ x, isz x = true ↔ x = 0) : Sparse isz (fun x : K => x = 0) fun x => x ≠ 0 where
  zero h := (hz _).2 h
  entry h := by rw [← Bool.not_eq_true, hz]; exact h
  divisor {x} h y := by
    have hx : x ≠ 0 := fun h0 => by rw [(hz x).2 h0] at h; cases h
    unfold quo; rw [cdiv_ok y hx]
  ratio {x y} h hy := by unfold quo; rw [cdiv_ok x hy, h]; exact zero_div y
  keep h _ _ := by rw [h, zero_mul, sub_zero]
  gone h _ h' := by rw [h, h', zero_mul, sub_zero]
  neg_one x := mul_neg_one x
  neg_mul x y := neg_mul x y
  neg_neg x := neg_neg x

section
variable {K : Type} [Field K] [LinearOrder K] [IsStrictOrderedRing K] [FloorRing K] {p : ℕ} {emin : ℤ} {emax : ℕ}

/-- C146: floating point numbers. -/
theorem C146_float (hp : 1 ≤ p) (he : emin ≤ 0) {isz : Fl K p emin → Bool} (hz : ∀ x, isz x = true ↔ x.val = 0) :
    Sparse isz (fun x : Fl K p emin => x.val = 0) fun x => x.val ≠ 0 := by
  have v1 : (1 : Fl K p emin).val = 1 := (C84_float (K := K) (p := p) (emin := emin) hp he).1
  have vm : ∀ x y : Fl K p emin, (x * y).val = rnd p emin (x.val * y.val) := fun _ _ => rfl
  have vs : ∀ x y : Fl K p emin, (x - y).val = rnd p emin (x.val - y.val) := fun _ _ => rfl
  have vn : ∀ x : Fl K p emin, (-x).val = -x.val := fun _ => rfl
  have vd : ∀ x y : Fl K p emin, y.val ≠ 0 → cdiv x y = .ok (Fl.of p emin (x.val / y.val)) := fun _ _ h => if_neg h
  refine ⟨fun h => (hz _).2 h, fun h => by rw [← Bool.not_eq_true, hz]; exact h, fun {x} h y => ?_, fun {x y} h hy => ?_, fun {r x y} h _ _ => ?_,
    fun {r x y} h _ h' => ?_, fun x => Fl.ext ?_, fun x y => Fl.ext ?_, fun x => Fl.ext ?_⟩
  · have hx : x.val ≠ 0 := fun h0 => by rw [(hz x).2 h0] at h; cases h
    unfold quo; rw [vd _ _ hx]
  · unfold quo; rw [vd _ _ hy]
    show rnd p emin (x.val / y.val) = 0
    rw [h, zero_div, rnd_zero']
  · exact Fl.ext (by rw [vs, vm, h, zero_mul, rnd_zero', sub_zero, rnd_exact hp x.isFl])
  · rw [vs, vm, h, h', zero_mul, rnd_zero', sub_zero, rnd_zero']
  · rw [vm, vn, vn, v1, mul_neg_one, ← vn, rnd_exact hp (-x).isFl]
  · rw [vm, vn, vn, vm, neg_mul, rnd_neg]
  · rw [vn, vn, neg_neg]

namespace Ieee

/-- Finite numbers that are zero (`b`) or not. -/
def FinIs (b : Bool) : Ieee K p emin emax → Prop
  | nan => False
  | inf _ => False
  | fin x _ _ _ => (x.val = 0) = (b = true)

theorem fin_congr {x y : Fl K p emin} {a b : Bool} (h : x = y) (h' : a = b) {hz hx} :
    (fin x a hz hx : Ieee K p emin emax) = fin y b (h ▸ h' ▸ hz) (h ▸ hx) := by
  subst h; subst h'; rfl

theorem mk_not (s : Bool) (r : K) : (mk (!s) (-r) : Ieee K p emin emax) = -mk s r := by
  have hv : Fl.of p emin (-r) = -Fl.of p emin r := Fl.ext (rnd_neg p emin r)
  have hn : (-Fl.of p emin r).val = -(Fl.of p emin r).val := rfl
  unfold mk
  by_cases h : |(Fl.of p emin r).val| < 2 ^ emax
  · rw [dif_pos h, dif_pos (by rw [hv, hn, abs_neg]; exact h)]
    refine fin_congr hv ?_
    rw [hv, hn]
    by_cases h0 : (Fl.of p emin r).val = 0
    · simp [h0]
    · simp [h0]
  · rw [dif_neg h, dif_neg (by rw [hv, hn, abs_neg]; exact h)]; rfl

theorem mk_same {x : Fl K p emin} {z : Bool} {hz hx} (hp : 1 ≤ p) {s : Bool} (hs : x.val = 0 → s = z) :
    (mk s x.val : Ieee K p emin emax) = fin x z hz hx := by
  have hv : Fl.of p emin x.val = x := Fl.ext (rnd_exact hp x.isFl)
  unfold mk
  rw [dif_pos (by rw [hv]; exact hx)]
  refine fin_congr hv ?_
  rw [hv]
  by_cases h0 : x.val = 0
  · simp [h0, hs h0]
  · have : z = false := by
      cases z
      · rfl
      · exact absurd (hz rfl) h0
    simp [h0, this]

theorem one_fin (hp : 1 ≤ p) (he : emin ≤ 0) (hx : 1 ≤ emax) :
    ∃ h h', (1 : Ieee K p emin emax) = fin 1 false h h' := by
  have h1 : |(1 : Fl K p emin).val| < 2 ^ emax := by
    rw [Fl.one_val hp he, abs_one]; exact one_lt_pow₀ one_lt_two (by omega)
  refine ⟨by simp, h1, ?_⟩
  show mk false 1 = _
  unfold mk
  rw [dif_pos (show |(Fl.of p emin (1 : K)).val| < 2 ^ emax from h1)]
  exact fin_congr rfl (by simp)

theorem sign_neg {x : Fl K p emin} {z : Bool} {hz hx} :
    (-(fin x z hz hx : Ieee K p emin emax)).sign = !(fin x z hz hx : Ieee K p emin emax).sign := by
  show ((!z && decide (x.val = 0)) || decide (-x.val < 0)) = !(z || decide (x.val < 0))
  rcases lt_trichotomy x.val 0 with h | h | h
  · have : z = false := by
      cases z
      · rfl
      · exact absurd (hz rfl) h.ne
    simp [h, h.ne, this, h.le]
  · simp [h]
  · have : z = false := by
      cases z
      · rfl
      · exact absurd (hz rfl) h.ne'
    simp [h, h.ne', this, h.le]

theorem neg_mul' (a b : Ieee K p emin emax) : -a * b = -(a * b) := by
  match a, b with
  | nan, b => rfl
  | inf s, nan => rfl
  | inf s, inf t => show inf _ = inf _; rw [Bool.not_xor]
  | inf s, fin y z hz hx =>
    show (if y.val = 0 then nan else inf _) = -(if y.val = 0 then nan else inf _)
    split
    · rfl
    · show inf _ = inf _; rw [Bool.not_xor]
  | fin x z hz hx, nan => rfl
  | fin x z hz hx, inf t =>
    show (if -x.val = 0 then nan else inf ((-(fin x z hz hx : Ieee K p emin emax)).sign ^^ t)) = -(if x.val = 0 then nan else inf _)
    rw [sign_neg]
    by_cases h : x.val = 0
    · rw [if_pos h, if_pos (by rw [h, neg_zero])]; rfl
    · rw [if_neg h, if_neg (by simpa using h)]; show inf _ = inf _; rw [Bool.not_xor]
  | fin x z hz hx, fin y z' hz' hx' =>
    show mk ((-(fin x z hz hx : Ieee K p emin emax)).sign ^^ _) (-x.val * y.val) = -mk _ _
    rw [sign_neg, ← mk_not, Bool.not_xor, neg_mul]

theorem neg_neg' (a : Ieee K p emin emax) : - -a = a := by
  match a with
  | nan => rfl
  | inf s => show inf _ = inf _; rw [Bool.not_not]
  | fin x z hz hx =>
    refine fin_congr (Fl.ext (neg_neg _)) ?_
    show (!(!z && decide (x.val = 0)) && decide (-x.val = 0)) = z
    by_cases h : x.val = 0
    · simp [h]
    · have : z = false := by
        cases z
        · rfl
        · exact absurd (hz rfl) h
      simp [h, this]

theorem mul_neg_one' (hp : 1 ≤ p) (he : emin ≤ 0) (hx1 : 1 ≤ emax) (a : Ieee K p emin emax) : a * -1 = -a := by
  obtain ⟨h, h', e⟩ := one_fin (K := K) hp he hx1
  rw [e]
  have hs : (-(fin 1 false h h' : Ieee K p emin emax)).sign = true := by
    rw [sign_neg]
    show (!(false || decide ((1 : Fl K p emin).val < 0))) = true
    rw [Fl.one_val hp he]; simp [zero_le_one]
  have hv : (-(1 : Fl K p emin)).val = -1 := by
    show -(1 : Fl K p emin).val = -1
    rw [Fl.one_val hp he]
  match a with
  | nan => rfl
  | inf s =>
    show (if (-(1 : Fl K p emin)).val = 0 then nan else inf (s ^^ (-(fin 1 false h h' : Ieee K p emin emax)).sign)) = inf _
    rw [hs, hv, if_neg (by simp), Bool.xor_true]
  | fin x z hz hx =>
    show mk (_ ^^ (-(fin 1 false h h' : Ieee K p emin emax)).sign) (x.val * (-(1 : Fl K p emin)).val) = -(fin x z hz hx)
    rw [hs, hv, Bool.xor_true, mul_neg_one, mk_not, mk_same (hz := hz) (hx := hx) hp]
    intro h0
    show (z || decide (x.val < 0)) = z
    simp [h0]

theorem mk_zero (s : Bool) : FinIs true (mk s 0 : Ieee K p emin emax) := by
  have h : (Fl.of p emin (0 : K)).val = 0 := rnd_zero' ..
  unfold mk
  rw [dif_pos (by rw [h, abs_zero]; exact pow_pos zero_lt_two _)]
  show ((Fl.of p emin (0 : K)).val = 0) = (true = true)
  simp [h]

theorem mul_zero_is {r y : Ieee K p emin emax} (hr : FinIs true r) (hy : FinIs true y ∨ FinIs false y) :
    ∃ w z hz hx, r * y = fin w z hz hx ∧ w.val = 0 := by
  match r, y with
  | fin x z hz hx, fin y z' hz' hx' =>
    have h0 : x.val = 0 := by simpa [FinIs] using hr
    have h1 : fin x z hz hx * fin y z' hz' hx' = (mk ((fin x z hz hx : Ieee K p emin emax).sign ^^ (fin y z' hz' hx' : Ieee K p emin emax).sign) 0) := by
      show mk _ (x.val * y.val) = _
      rw [h0, zero_mul]
    rw [h1]
    have h2 := mk_zero (K := K) (p := p) (emin := emin) (emax := emax) ((fin x z hz hx : Ieee K p emin emax).sign ^^ (fin y z' hz' hx' : Ieee K p emin emax).sign)
    match mk ((fin x z hz hx : Ieee K p emin emax).sign ^^ (fin y z' hz' hx' : Ieee K p emin emax).sign) 0, h2 with
    | fin w z hz hx, h2 => exact ⟨w, z, hz, hx, rfl, by simpa [FinIs] using h2⟩
  | fin _ _ _ _, nan => simp [FinIs] at hy
  | fin _ _ _ _, inf _ => simp [FinIs] at hy
end Ieee

/-- `double` itself: the zeros are `0` and `-0`, the entries the other finite numbers. -/
theorem C146_ieee (hp : 1 ≤ p) (he : emin ≤ 0) (hx1 : 1 ≤ emax) {t : Ieee K p emin emax} (ht : Ieee.Tol t) :
    Sparse (approxZero Ieee.abs t) (Ieee.FinIs true) (Ieee.FinIs false) where
  zero {x} h := (Ieee.approxZero_iff hp ht x).2 (.inl (by
    match x with
    | .fin x z hz hx => exact ⟨rfl, show x.val = 0 by simpa [Ieee.FinIs] using h⟩))
  entry {x} h := by
    rw [Bool.eq_false_iff]
    intro h'
    rcases (Ieee.approxZero_iff hp ht x).1 h' with h' | ⟨s, h'⟩
    · match x with
      | .fin x z hz hx => exact absurd h'.2 (show ¬ x.val = 0 by simpa [Ieee.FinIs] using h)
    · subst h'; exact h
  divisor {x} _ := fun a => rfl
  ratio {x y} h h' := by
    match x, y with
    | .fin x z hz hx, .fin y z' hz' hx' =>
      have h0 : x.val = 0 := by simpa [Ieee.FinIs] using h
      have h1 : y.val ≠ 0 := by simpa [Ieee.FinIs] using h'
      show Ieee.FinIs true (if y.val = 0 then _ else Ieee.mk _ (x.val / y.val))
      rw [if_neg h1, h0, zero_div]
      exact Ieee.mk_zero _
  keep {r x y} hr hy hx := by
    obtain ⟨w, z, hz, hxw, e, h0⟩ := Ieee.mul_zero_is hr hy
    rw [e]
    match x with
    | .fin x z' hz' hx' =>
      have h1 : x.val ≠ 0 := by simpa [Ieee.FinIs] using hx
      have hm : ∀ s, Ieee.mk s (x.val + -w.val) = Ieee.fin x z' hz' hx' := by
        intro s
        rw [h0, neg_zero, add_zero]
        exact Ieee.mk_same hp fun h => absurd h h1
      exact hm _
  gone {r x y} hr hy hx := by
    obtain ⟨w, z, hz, hxw, e, h0⟩ := Ieee.mul_zero_is hr hy
    rw [e]
    match x with
    | .fin x z' hz' hx' =>
      have h1 : x.val = 0 := by simpa [Ieee.FinIs] using hx
      have hm : ∀ s, Ieee.FinIs true (Ieee.mk s (x.val + -w.val) : Ieee K p emin emax) := by
        intro s
        rw [h0, neg_zero, add_zero, h1]
        exact Ieee.mk_zero _
      exact hm _
  neg_one := Ieee.mul_neg_one' hp he hx1
  neg_mul := Ieee.neg_mul'
  neg_neg := Ieee.neg_neg'

/-- C146: so the determinant of a permutation matrix of doubles with more than four rows is 1 or -1, whatever the permutation. -/
theorem C146_double (hp : 1 ≤ p) (he : emin ≤ 0) (hx1 : 1 ≤ emax) {t : Ieee K p emin emax} (ht : Ieee.Tol t) {A : MB (Ieee K p emin emax)} {n : Nat}
    {M : Matrix (Fin n) (Fin n) (Ieee K p emin emax)} (hA : A.Is M) (hn : 4 < n) {σ : Equiv.Perm (Fin n)} (hM : ∀ i j, M i j = if σ i = j then 1 else 0) :
    determinant (approxZero Ieee.abs t) A = .ok (if σ.sign = 1 then 1 else -1) := by
  obtain ⟨h, h', e⟩ := Ieee.one_fin (K := K) hp he hx1
  have v1 := Fl.one_val (K := K) hp he
  rw [C146_monomial (C146_ieee hp he hx1 ht) hA hn (σ := σ) fun i j => ⟨fun hs => by
      rw [hM, if_pos hs, e]; show ((1 : Fl K p emin).val = 0) = (false = true); simp [v1], fun hs => by
      rw [hM, if_neg hs]; show ((0 : Fl K p emin).val = 0) = (true = true); exact eq_true rfl ▸ (by simp)⟩]
  have h11 : (1 : Ieee K p emin emax) * 1 = 1 := by
    rw [e]
    show Ieee.mk _ ((1 : Fl K p emin).val * (1 : Fl K p emin).val) = _
    rw [show (1 : Fl K p emin).val * (1 : Fl K p emin).val = (1 : Fl K p emin).val by rw [v1, mul_one]]
    exact Ieee.mk_same hp fun h0 => by rw [v1] at h0; exact absurd h0 one_ne_zero
  have h1 : ∀ l : List (Ieee K p emin emax), (∀ x ∈ l, x = 1) → l.foldl (· * ·) 1 = 1 := by
    intro l hl
    induction l with
    | nil => rfl
    | cons a l ih =>
      rw [List.foldl_cons, hl a (by simp), h11]
      exact ih fun x hx => hl x (by simp [hx])
  rw [h1 _ fun x hx => by
    obtain ⟨j, rfl⟩ := List.mem_ofFn.1 hx
    rw [hM, if_pos (σ.apply_symm_apply j)]]
  rfl

theorem lsum_one_term (hp : 1 ≤ p) {t : Nat → Fl K p emin} {k m : Nat} (hm : m < k) (h : ∀ i, i < k → i ≠ m → (t i).val = 0) : lsum k t = t m := by
  have h0 : ∀ k, k ≤ m → (∀ i, i < k → (t i).val = 0) → (lsum k t).val = 0 := by
    intro k hk h
    induction k with
    | zero => rfl
    | succ k ih =>
      show rnd p emin ((lsum k t).val + (t k).val) = 0
      rw [ih (by omega) fun i hi => h i (by omega), h k (by omega), add_zero, rnd_zero']
  induction k with
  | zero => omega
  | succ k ih =>
    apply Fl.ext
    show rnd p emin ((lsum k t).val + (t k).val) = _
    by_cases hk : m = k
    · subst hk
      rw [h0 m le_rfl fun i hi => h i (by omega) (by omega), zero_add, rnd_exact hp (t m).isFl]
    · rw [ih (by omega) fun i hi => h i (by omega), h k (by omega) (Ne.symm hk), add_zero, rnd_exact hp (t m).isFl]

/-- C146: a product with a matrix that has one entry in every row and column rounds every element once. -/
theorem C146_product (hp : 1 ≤ p) {A B : MB (Fl K p emin)} {n m : Nat} {M : Matrix (Fin n) (Fin n) (Fl K p emin)} (hA : A.Is M)
    {σ : Equiv.Perm (Fin n)} (hM : Monomial (fun x : Fl K p emin => x.val = 0) (fun x => x.val ≠ 0) σ M) (hf : Fits n m) :
    (∀ N : Matrix (Fin n) (Fin m) (Fl K p emin), B.Is N → Yields (mul A B) (Matrix.of fun i j => M i (σ i) * N (σ i) j)) ∧
    ∀ N : Matrix (Fin m) (Fin n) (Fl K p emin), B.Is N → Yields (mul B A) (Matrix.of fun i j => N i (σ.symm j) * M (σ.symm j) j) := by
  obtain ⟨e, hA, rfl⟩ := hA
  have hz : ∀ {i j : Nat} (hi : i < n) (hj : j < n), (σ ⟨i, hi⟩).1 ≠ j → (e i j).val = 0 := fun {i j} hi hj h =>
    (hM ⟨i, hi⟩ ⟨j, hj⟩).2 fun h' => h (by rw [h'])
  constructor
  · rintro N ⟨f, hB, rfl⟩
    refine (C35_entries hA.toRepAt hB.toRepAt hf).yields.congr ?_
    funext i j
    show lsum n (fun l => e i l * f l j) = e i (σ i) * f (σ i) j
    refine lsum_one_term hp (t := fun l => e i l * f l j) (σ i).2 fun l hl h => ?_
    show rnd p emin ((e i l).val * (f l j).val) = 0
    rw [hz i.2 hl (Ne.symm h), zero_mul, rnd_zero']
  · rintro N ⟨f, hB, rfl⟩
    refine (C35_entries hB.toRepAt hA.toRepAt hf.symm).yields.congr ?_
    funext i j
    show lsum n (fun l => f i l * e l j) = f i (σ.symm j) * e (σ.symm j) j
    refine lsum_one_term hp (t := fun l => f i l * e l j) (σ.symm j).2 fun l hl h => ?_
    show rnd p emin ((f i l).val * (e l j).val) = 0
    rw [hz hl j.2 fun h' => h (by
      have : σ ⟨l, hl⟩ = j := Fin.ext h'
      rw [← this, σ.symm_apply_apply]), mul_zero, rnd_zero']

/-- `M` is the matrix of the permutation `σ`. -/
def IsPerm {n : Nat} (σ : Equiv.Perm (Fin n)) (M : Matrix (Fin n) (Fin n) (Fl K p emin)) : Prop :=
  ∀ i j, (M i j).val = if σ i = j then 1 else 0

theorem IsPerm.monomial {n : Nat} {σ : Equiv.Perm (Fin n)} {M : Matrix (Fin n) (Fin n) (Fl K p emin)} (h : IsPerm σ M) :
    Monomial (fun x : Fl K p emin => x.val = 0) (fun x => x.val ≠ 0) σ M := fun i j =>
  ⟨fun hs => show (M i j).val ≠ 0 by rw [h i j, if_pos hs]; exact one_ne_zero, fun hs => show (M i j).val = 0 by rw [h i j, if_neg hs]⟩

/-- C146: a product with a permutation matrix moves the rows or the columns of the other operand and changes none of the numbers. -/
theorem C146_shuffle (hp : 1 ≤ p) {A B : MB (Fl K p emin)} {n m : Nat} {M : Matrix (Fin n) (Fin n) (Fl K p emin)} (hA : A.Is M)
    {σ : Equiv.Perm (Fin n)} (hM : IsPerm σ M) (hf : Fits n m) :
    (∀ N : Matrix (Fin n) (Fin m) (Fl K p emin), B.Is N → Yields (mul A B) (Matrix.of fun i j => N (σ i) j)) ∧
    ∀ N : Matrix (Fin m) (Fin n) (Fl K p emin), B.Is N → Yields (mul B A) (Matrix.of fun i j => N i (σ.symm j)) := by
  obtain ⟨h1, h2⟩ := C146_product hp hA hM.monomial hf
  refine ⟨fun N hN => (h1 N hN).congr ?_, fun N hN => (h2 N hN).congr ?_⟩
  · funext i j
    apply Fl.ext
    show rnd p emin ((M i (σ i)).val * (N (σ i) j).val) = _
    rw [hM, if_pos rfl, one_mul, rnd_exact hp (N _ _).isFl]; rfl
  · funext i j
    apply Fl.ext
    show rnd p emin ((N i (σ.symm j)).val * (M (σ.symm j) j).val) = _
    rw [hM, if_pos (σ.apply_symm_apply j), mul_one, rnd_exact hp (N _ _).isFl]; rfl

/-- C146: the determinant of a permutation matrix of any size is the sign of the permutation. -/
theorem C146_permutation (hp : 5 ≤ p) (he : emin ≤ 0) {isz : Fl K p emin → Bool} (hz : ∀ x, isz x = true ↔ x.val = 0) {A : MB (Fl K p emin)} {n : Nat}
    {M : Matrix (Fin n) (Fin n) (Fl K p emin)} (hA : A.Is M) {σ : Equiv.Perm (Fin n)} (hM : IsPerm σ M) :
    ∃ d, determinant isz A = .ok d ∧ d.val = ((σ.sign : ℤ) : K) := by
  by_cases hn : n ≤ 4
  · obtain ⟨d, h1, h2⟩ := C85_determinant (Z := σ.permMatrix ℤ) (m := 1) (by omega) he isz hA
      (fun i j => by
        rw [hM i j, Equiv.Perm.permMatrix, PEquiv.toMatrix_apply]
        simp [Equiv.toPEquiv, eq_comm]) hn le_rfl
      (fun i j => by
        rw [Equiv.Perm.permMatrix, PEquiv.toMatrix_apply]
        split <;> simp)
      (by
        have h1 : (n.factorial : ℤ) ≤ 24 := by exact_mod_cast Nat.factorial_le hn
        have h2 : (2 : ℤ) ^ 5 ≤ 2 ^ p := pow_le_pow_right₀ (by norm_num) hp
        rw [one_pow, mul_one]; linarith)
    exact ⟨d, h1, by rw [h2, Matrix.det_permutation]; simp⟩
  · refine ⟨_, C146_monomial (C146_float (by omega) he hz) hA (by omega) hM.monomial, ?_⟩
    have h1 : ∀ l : List (Fl K p emin), (∀ x ∈ l, x = 1) → l.foldl (· * ·) 1 = 1 := by
      intro l hl
      induction l with
      | nil => rfl
      | cons a l ih =>
        rw [List.foldl_cons, hl a (by simp), show (1 : Fl K p emin) * 1 = 1 from Fl.ext (by
          show rnd p emin ((1 : Fl K p emin).val * (1 : Fl K p emin).val) = _
          rw [Fl.one_val (by omega) he, mul_one]; exact Fl.one_val (by omega) he)]
        exact ih fun x hx => hl x (by simp [hx])
    rw [h1 _ fun x hx => by
      obtain ⟨j, rfl⟩ := List.mem_ofFn.1 hx
      apply Fl.ext
      rw [hM, if_pos (σ.apply_symm_apply j), Fl.one_val (by omega) he]]
    rcases Int.units_eq_one_or σ.sign with h | h <;> rw [h]
    · show (if (1 : ℤˣ) = 1 then (1 : Fl K p emin) else -1).val = _
      rw [if_pos rfl, Fl.one_val (by omega) he]; simp
    · show (if (-1 : ℤˣ) = 1 then (1 : Fl K p emin) else -1).val = _
      rw [if_neg (by decide)]
      show -(1 : Fl K p emin).val = _
      rw [Fl.one_val (by omega) he]; simp

/-- C146: `inverse` of a permutation matrix up to 4×4 is its transpose. -/
theorem C146_inverse_partial (hp : 5 ≤ p) (he : emin ≤ 0) {tol : Fl K p emin} (ht : |tol.val| ≤ 1 / 4) {A : MB (Fl K p emin)} {n : Nat}
    {M : Matrix (Fin n) (Fin n) (Fl K p emin)} (hA : A.Is M) {σ : Equiv.Perm (Fin n)} (hM : IsPerm σ M) (hn : n ≤ 4) :
    Yields (inverse (approxZero Fl.abs tol) A) M.transpose := by
  have hZ : ∀ i j, σ.permMatrix ℤ i j = if σ i = j then 1 else 0 := fun i j => by
    rw [Equiv.Perm.permMatrix, PEquiv.toMatrix_apply]
    simp [Equiv.toPEquiv, eq_comm]
  have hd : (σ.permMatrix ℤ).det ≠ 0 := by
    rw [Matrix.det_permutation]; simp
  obtain ⟨M', h1, h2⟩ := (C85_inverse (Z := σ.permMatrix ℤ) (m := 1) (by omega) he ht hA
      (fun i j => by rw [hM i j, hZ]; simp) hn le_rfl
      (fun i j => by rw [hZ]; split <;> simp)
      (by
        have h1 : (n.factorial : ℤ) ≤ 24 := by exact_mod_cast Nat.factorial_le hn
        have h2 : (2 : ℤ) ^ 5 ≤ 2 ^ p := pow_le_pow_right₀ (by norm_num) hp
        rw [one_pow, mul_one]; linarith)).2 hd
  have hi : ((σ.permMatrix ℤ).map (Int.cast : ℤ → K))⁻¹ = ((σ.permMatrix ℤ).map (Int.cast : ℤ → K)).transpose := by
    refine Matrix.inv_eq_right_inv ?_
    ext i j
    rw [Matrix.mul_apply, Finset.sum_eq_single (σ i)]
    · simp only [Matrix.map_apply, Matrix.transpose_apply, hZ, Matrix.one_apply]
      by_cases h : i = j
      · subst h; simp
      · rw [if_neg (fun h' => h (σ.injective h'.symm) : ¬ σ j = σ i), if_neg h]; simp
    · intro l _ hl
      simp only [Matrix.map_apply, hZ]
      rw [if_neg (Ne.symm hl)]; simp
    · intro h; exact absurd (Finset.mem_univ _) h
  refine h1.congr ?_
  funext i j
  apply Fl.ext
  rw [h2, hi]
  show rnd p emin ((σ.permMatrix ℤ j i : ℤ) : K) = (M j i).val
  rw [hZ, hM]
  split
  · rw [Int.cast_one]; exact Fl.one_val (K := K) (p := p) (by omega) he
  · rw [Int.cast_zero, rnd_zero']
end

/-! ## Cases -/

/-- A rotation of six rows is odd. -/
example {A : MB IDouble} (hA : A.Is (Matrix.of fun i j : Fin 6 => if i + 1 = j then (1 : IDouble) else 0)) : determinant dIsZero A = .ok (-1) := by
  rw [C146_double (by decide) (by decide) (by decide) dtol_ok hA (by decide) (σ := finRotate 6) fun i j => by rw [finRotate_apply]; rfl, sign_finRotate,
    if_neg (by decide)]

/-- The matrix with `v j` in column `j` and row `r j`. -/
def onePerColumn (n : Nat) (r : Nat → Nat) (v : Nat → IDouble) : Mat IDouble := Mat.ofFn n n fun i j => if i = r j then v j else 0

set_option maxRecDepth 100000 in
/-- The numbers 2, 3, 5, 7, 11 along a cycle of five, an even permutation, and with the first two rows exchanged. -/
example : determinant dIsZero (onePerColumn 5 (fun j => (j + 1) % 5) fun j => dbl ([2, 3, 5, 7, 11].getD j 0)).toMB = .ok (dbl 2310) ∧
    determinant dIsZero (onePerColumn 5 (fun j => [0, 1, 3, 4, 2].getD j 0) fun j => dbl ([2, 3, 5, 7, 11].getD j 0)).toMB = .ok (dbl 2310) ∧
    determinant dIsZero (onePerColumn 5 (fun j => [1, 0, 3, 4, 2].getD j 0) fun j => dbl ([2, 3, 5, 7, 11].getD j 0)).toMB = .ok (dbl (-2310)) := by
  decide +kernel

set_option maxRecDepth 100000 in
/-- C146 is about matrices with more than four rows: the product of the entries is formed in another order for 3×3, and the numbers differ. The formula of `C146_monomial` would
give `2^600 * 2^600 * 2^-600`, which overflows; the result is `2^600` -/
theorem C146_order_false : determinant dIsZero (onePerColumn 3 id fun j => dbl ([2 ^ 600, 2 ^ 600, 1 / 2 ^ 600].getD j 0)).toMB ≠
    .ok ([dbl (2 ^ 600), dbl (2 ^ 600), dbl (1 / 2 ^ 600)].foldl (· * ·) 1) := by
  decide +kernel

set_option maxRecDepth 100000 in
/-- C146 needs finite numbers: a product that exchanges `+inf` and 1 gives NaN and `+inf`. -/
theorem C146_infinite_false : mul (onePerColumn 2 (fun j => 1 - j) fun _ => dbl 1).toMB (⟨2, 1, [.inf false, dbl 1]⟩ : Mat IDouble).toMB =
    .ok ⟨2, 1, [.nan, .inf false]⟩ := by
  decide +kernel
end Malg
