import Verif.Props.Zeros
import Verif.Props.FloatC2d
import Verif.Props.FloatOrder
/-!
# Property C145 (and C114): `expm` and `c2d` keep zeros and signs
-/
namespace Malg
open Ops Lin Control

/-- What sets of numbers (`P`), of tables of terms (`Q`) and of tables of sums (`R`) must satisfy so that `expm` does not leave them. -/
structure ExpClosed {T : Type} [Zero T] [One T] [Add T] [Mul T] [NatCast T] [CDiv T] (n : Nat) (half : T) (P : T → Prop)
    (Q R : (Nat → Nat → T) → Prop) : Prop where
  unit : P 1
  half : P half
  times : ∀ {x y}, P x → P y → P (x * y)
  inv : ∀ {k : Nat} {z : T}, cdiv 1 ((k + 1 : Nat) : T) = .ok z → P z
  zero : Q fun _ _ => 0
  one : Q fun r c => if r = c then 1 else 0
  mul : ∀ {f g}, Q f → Q g → Q fun r c => lsum n fun k => f r k * g k c
  scale : ∀ {f x}, P x → Q f → Q fun r c => f r c * x
  add : ∀ {f g}, Q f → Q g → Q fun r c => f r c + g r c
  start : R fun r c => if r = c then 1 else 0
  append : ∀ {f g}, R f → Q g → R fun r c => f r c + g r c
  square : ∀ {f}, R f → R fun r c => lsum n fun k => f r k * f k c

section
variable {T : Type} [Zero T] [One T] [Add T] [Mul T] [NatCast T] [CDiv T] {n : Nat} {half : T} {P : T → Prop} {Q R : (Nat → Nat → T) → Prop}

theorem ExpClosed.batch (S : ExpClosed n half P Q R) {isz : T → Bool} (hf : Fits n n) {sc em ea : Nat → Nat → T} (hs : Q sc) (hm : Q em) (ha : Q ea) {f : T} (hP : P f)
    {start b : Nat} {r : Mat T × Mat T × T × Bool} (h : expmBatch isz (Mat.ofFn n n sc) (start + 1) b (Mat.ofFn n n em) (Mat.ofFn n n ea) f = .ok r) :
    (∃ m, r.1 = Mat.ofFn n n m ∧ Q m) ∧ (∃ a, r.2.1 = Mat.ofFn n n a ∧ Q a) ∧ P r.2.2.1 := by
  unfold expmBatch at h
  induction b generalizing r with
  | zero => cases h; exact ⟨⟨_, rfl, hm⟩, ⟨_, rfl, ha⟩, hP⟩
  | succ b ih =>
    rw [forRange_succ_last (Nat.zero_le b)] at h
    obtain ⟨⟨m', a', f', st⟩, h1, h2⟩ := Res.bind_eq_ok.1 h
    obtain ⟨⟨m, rfl, hm'⟩, ⟨a, rfl, ha'⟩, hf'⟩ := ih h1
    cases st
    · rw [if_neg Bool.false_ne_true] at h2
      obtain ⟨q, h3, h4⟩ := Res.bind_eq_ok.1 h2
      have hq : P (f' * q) := S.times hf' (S.inv (k := start + b) (by rwa [show start + b + 1 = start + 1 + b by omega]))
      dsimp only at h4
      split at h4
      · cases h4; exact ⟨⟨_, rfl, hm'⟩, ⟨_, rfl, ha'⟩, hq⟩
      · rw [mul_eq (ofFn_rep hf m).toRepAt (ofFn_rep hf sc).toRepAt hf, Res.ok_bind] at h4
        rw [show Ops.mulS (Mat.ofFn n n fun r c => lsum n fun k => m r k * sc k c).toMB (f' * q) =
            .ok (Mat.ofFn n n fun r c => (lsum n fun k => m r k * sc k c) * (f' * q)) from
            mapMat_eq (ofFn_rep hf _) fun _ _ _ _ => rfl, Res.ok_bind, addAssign_self (ofFn_rep hf _), Res.ok_bind] at h4
        cases h4
        exact ⟨⟨_, rfl, S.mul hm' hs⟩, ⟨_, rfl, S.add ha' (S.scale hq (S.mul hm' hs))⟩, hq⟩
    · rw [if_pos rfl] at h2
      cases h2
      exact ⟨⟨_, rfl, hm'⟩, ⟨_, rfl, ha'⟩, hf'⟩

theorem ExpClosed.sq (S : ExpClosed n half P Q R) {E : Nat → Nat → T} (h : R E) (k : Nat) : R (expSq n E k) := by
  induction k with
  | zero => exact h
  | succ k ih => exact S.square ih

variable [Sub T] [Neg T] [Max T] [LT T] [DecidableRel (α := T) (· < ·)]

theorem ExpClosed.expm (S : ExpClosed n half P Q R) {isz : T → Bool} {absf sqrt : T → T} {A : MB T} {e : Nat → Nat → T} (h : Rep A n n e) (he : Q e) {accuracy : T}
    {fuel : Nat} {X : Mat T} (hr : expm isz absf sqrt half A accuracy fuel = .ok X) : ∃ g, X = Mat.ofFn n n g ∧ R g := by
  have hf := h.fits
  unfold Lin.expm at hr
  obtain ⟨⟨k, sc⟩, hlog, hr⟩ := Res.bind_eq_ok.1 hr
  have hsc : P sc := by
    unfold log2Ceil at hlog
    obtain ⟨v, -, h1⟩ := Res.bind_eq_ok.1 hlog
    refine (whileFuel_inv_ok (fun p : Nat × T => P p.2) S.unit (fun p q hp hq => ?_) h1).1
    split at hq
    · cases hq; exact S.times hp S.half
    · cases hq
  dsimp only at hr
  rw [show Ops.mulS A sc = .ok (Mat.ofFn n n fun r c => e r c * sc) from mapMat_eq h fun _ _ _ _ => rfl, Res.ok_bind, h.rows, h.cols, hf.wmul] at hr
  by_cases hn : n = 0
  · subst hn; cases hr
  have hn : 0 < n := by omega
  rw [Util.eye_eq hn hn hf, Res.ok_bind, Res.ok_bind] at hr
  obtain ⟨s, h2, h3⟩ := Res.bind_eq_ok.1 hr
  have key := (whileFuel_inv_ok (fun s : ExpmState T => (∃ st, s.start = st + 1) ∧ (∃ m, s.mtk = Mat.ofFn n n m ∧ Q m) ∧ (∃ r, s.ret = Mat.ofFn n n r ∧ R r) ∧ P s.facInv)
    ⟨⟨0, rfl⟩, ⟨_, rfl, S.one⟩, ⟨_, rfl, S.start⟩, S.unit⟩ ?_ h2).1
  · obtain ⟨-, -, ⟨r, h4, h5⟩, -⟩ := key
    rw [h4, squarings_tab hf] at h3
    exact ⟨_, (Res.ok.inj h3).symm, S.sq h5 k⟩
  · rintro s s' ⟨⟨st, hst⟩, ⟨m, hm, qm⟩, ⟨r, hr', qr⟩, hP⟩ hstep
    split at hstep
    · rw [Mat.new_eq hf, Res.ok_bind, hst, hm] at hstep
      obtain ⟨⟨m', a', f', b'⟩, hb, hstep⟩ := Res.bind_eq_ok.1 hstep
      obtain ⟨⟨m2, h4, h5⟩, ⟨a2, h6, h7⟩, h8⟩ := S.batch hf (S.scale hsc he) qm S.zero hP hb
      dsimp only at h4 h6 h8
      subst h4 h6
      dsimp only at hstep
      rw [hr', addAssign_self (ofFn_rep hf _), Res.ok_bind] at hstep
      obtain ⟨_, _, hstep⟩ := Res.bind_eq_ok.1 hstep
      obtain ⟨_, _, hstep⟩ := Res.bind_eq_ok.1 hstep
      obtain ⟨_, _, hstep⟩ := Res.bind_eq_ok.1 hstep
      obtain ⟨_, _, hstep⟩ := Res.bind_eq_ok.1 hstep
      obtain ⟨_, _, hstep⟩ := Res.bind_eq_ok.1 hstep
      cases hstep
      exact ⟨⟨st + n * n, by dsimp only; omega⟩, ⟨_, rfl, h5⟩, ⟨_, rfl, S.append qr h7⟩, h8⟩
    · cases hstep

/-- C145: the exponential of a matrix with a transitive pattern of zeros (triangular, diagonal, block triangular, …) has this pattern, whatever its tests for
the end of the series decide. -/
theorem C145_expm {Z : T → Prop} (S : Absorbing Z) {isz : T → Bool} {absf sqrt : T → T} {A : MB T} {M : Matrix (Fin n) (Fin n) T} (hA : A.Is M)
    {P : Nat → Nat → Prop} (hM : ZeroOn Z P M) (hP : ∀ i j, P i j → i ≠ j ∧ ∀ k, k < n → P i k ∨ P k j) {accuracy : T} {fuel : Nat} {X : Mat T}
    (hr : expm isz absf sqrt half A accuracy fuel = .ok X) : ∃ Y : Matrix (Fin n) (Fin n) T, X.WF ∧ X.toMB.Is Y ∧ ZeroOn Z P Y := by
  obtain ⟨e, hA, rfl⟩ := hA
  have one : ∀ i j, i < n → j < n → P i j → Z (if i = j then 1 else 0) := fun i j _ _ h => by rw [if_neg (hP i j h).1]; exact S.zero
  have mul : ∀ {f g : Nat → Nat → T}, (∀ i j, i < n → j < n → P i j → Z (f i j)) → (∀ i j, i < n → j < n → P i j → Z (g i j)) →
      ∀ i j, i < n → j < n → P i j → Z (lsum n fun k => f i k * g k j) := fun hf hg i j hi hj h =>
    S.lsum fun k hk => S.mul (((hP i j h).2 k hk).imp (hf i k hi hk) (hg k j hk hj))
  have C : ExpClosed n half (fun _ => True) (fun g => ∀ i j, i < n → j < n → P i j → Z (g i j)) (fun g => ∀ i j, i < n → j < n → P i j → Z (g i j)) :=
    ⟨trivial, trivial, fun _ _ => trivial, fun _ => trivial, fun _ _ _ _ _ => S.zero, one, mul, fun _ hf i j hi hj h => S.left (hf i j hi hj h) _,
      fun hf hg i j hi hj h => S.add (hf i j hi hj h) (hg i j hi hj h), one, fun hf hg i j hi hj h => S.add (hf i j hi hj h) (hg i j hi hj h), fun hf => mul hf hf⟩
  obtain ⟨g, rfl, hg⟩ := C.expm hA (fun i j hi hj => hM ⟨i, hi⟩ ⟨j, hj⟩) hr
  obtain ⟨B, hB, hB'⟩ := Yields.of_eq hA.fits (rfl : Res.ok (Mat.ofFn n n g) = _)
  obtain rfl := Res.ok.inj hB
  exact ⟨_, hB'.1, hB'.2, fun i j => hg i j i.2 j.2⟩

/-- C145: discretisation of systems with up to five states keeps the pattern of zeros of `A`, and every pattern of `B` that fits to it: what an input does not
reach in continuous time it does not reach in discrete time. -/
theorem C145_c2d_partial {Z : T → Prop} (S : Absorbing Z) {isz : T → Bool} (hz : ∀ x, isz x = false → Divisor x) {absf sqrt : T → T} {accuracy : T} {fuel : Nat}
    {sys : StateSpace T} {m p : Nat} {A : Matrix (Fin n) (Fin n) T} {B : Matrix (Fin n) (Fin m) T} {C : Matrix (Fin p) (Fin n) T} {D : Matrix (Fin p) (Fin m) T}
    (h : sys.Is A B C D) (hn : 0 < n) (hm : 0 < m) (hp : 0 < p) (h5 : n ≤ 5) {P Q : Nat → Nat → Prop} (hA : ZeroOn Z P A)
    (hP : ∀ i j, P i j → i ≠ j ∧ ∀ k, k < n → P i k ∨ P k j) (hB : ZeroOn Z Q B) (hQ : ∀ i j, Q i j → ∀ k, k < n → P i k ∨ Q k j) {dt : T} {d : DiscreteStateSpace T}
    (hd : c2d isz (fun X => expm isz absf sqrt half X accuracy fuel) sys dt = .ok d) :
    ∃ (A' : Matrix (Fin n) (Fin n) T) (B' : Matrix (Fin n) (Fin m) T), d.toStateSpace.Is A' B' C D ∧ ZeroOn Z P A' ∧ ZeroOn Z Q B' := by
  obtain ⟨a, ha, hAe⟩ := h.a
  have hf := ha.fits
  have hAt : mulS sys.A.toMB dt = .ok (Mat.ofFn n n fun r c => a r c * dt) := mapMat_eq ha fun _ _ _ _ => rfl
  have hd0 := hd
  unfold c2d at hd
  rw [hAt, Res.ok_bind] at hd
  obtain ⟨E, hE, hd⟩ := Res.bind_eq_ok.1 hd
  obtain ⟨V, hV, hd⟩ := Res.bind_eq_ok.1 hd
  obtain ⟨I, hI, hd⟩ := Res.bind_eq_ok.1 hd
  obtain ⟨F, hF, hd⟩ := Res.bind_eq_ok.1 hd
  obtain ⟨G, hG, hd⟩ := Res.bind_eq_ok.1 hd
  obtain ⟨Y, wY, hY, hYP⟩ := C145_expm S (ofFn_rep hf fun r c => a r c * dt).is (P := P) (fun i j hij => S.left (by
    have := hA i j hij; rw [← hAe] at this; exact this) _) hP hE
  have hAr : sys.A.rows = n := ha.rows
  have hV0 : V ≠ Mat.empty0 := by
    rintro rfl
    have mE : (Mat.empty0.moveAssign E).1 = E := moveAssign_fst (by rw [Is.size hY]; exact Nat.mul_pos hn hn)
    rw [hAr, show Util.identity n (1 : T) = .ok (Mat.ofFn n n fun r c => if r = c then 1 else 0) from Util.eye_eq hn hn hf 1] at hI
    obtain rfl := Res.ok.inj hI
    obtain ⟨y, rY, -⟩ := hY
    rw [mE, show sub E.toMB (Mat.ofFn n n fun r c => if r = c then (1 : T) else 0).toMB = .ok (Mat.ofFn n n fun r c => y r c - if r = c then 1 else 0) from
      zipMat_eq rY (ofFn_rep hf _) fun _ _ _ _ => rfl] at hF
    obtain rfl := Res.ok.inj hF
    unfold Ops.mul at hG
    rw [if_pos (by show (0 : Nat) ≠ n; omega)] at hG
    cases hG
  obtain ⟨W, wW, hW, hWP⟩ := C145_inverse_partial S hz h.a h5 hA hP hV hV0
  obtain ⟨d', y, w, b, rfl, rfl, rfl, h1, h2, -⟩ := c2d_tables isz (ex := fun X => expm isz absf sqrt half X accuracy fuel) h hn hm hp (by rw [hAt, Res.ok_bind]; exact ⟨E, hE, wY, hY⟩) ⟨V, hV, wW, hW⟩
  rw [hd0] at h1
  obtain rfl := Res.ok.inj h1
  refine ⟨_, _, h2, hYP, fun i j hij => S.lsum fun k hk => S.mul ?_⟩
  refine (hQ i j hij k hk).imp (fun hik => S.lsum fun l hl => S.mul ?_) (hB ⟨k, hk⟩ j)
  refine ((hP i k hik).2 l hl).imp (hWP i ⟨l, hl⟩) fun hlk => S.sub (hYP ⟨l, hl⟩ ⟨k, hk⟩ hlk) ?_
  rw [if_neg (hP l k hlk).1]
  exact S.zero
end

section
variable {K : Type} [Field K] [LinearOrder K] [IsStrictOrderedRing K] [FloorRing K] {p : ℕ} {emin : ℤ}

/-- C114: the exponential of a matrix without negative entries has no negative entries, and its diagonal is not below one. -/
theorem C114_expm (hp : 1 ≤ p) (he : emin ≤ 0) {isz : Fl K p emin → Bool} {absf sqrt : Fl K p emin → Fl K p emin} {half : Fl K p emin} (hh : 0 ≤ half)
    {A : MB (Fl K p emin)} {n : Nat} {M : Matrix (Fin n) (Fin n) (Fl K p emin)} (hA : A.Is M) (hM : ∀ i j, 0 ≤ M i j) {accuracy : Fl K p emin} {fuel : Nat}
    {X : Mat (Fl K p emin)} (hr : expm isz absf sqrt half A accuracy fuel = .ok X) :
    ∃ Y : Matrix (Fin n) (Fin n) (Fl K p emin), X.toMB.Is Y ∧ (∀ i j, 0 ≤ Y i j) ∧ ∀ i, 1 ≤ Y i i := by
  obtain ⟨e, hA, rfl⟩ := hA
  have v1 : (1 : Fl K p emin).val = 1 := (C84_float (K := K) (p := p) (emin := emin) hp he).1
  have h01 : (0 : Fl K p emin) ≤ 1 := by show (0 : K) ≤ (1 : Fl K p emin).val; rw [v1]; exact zero_le_one
  have one : ∀ i j, i < n → j < n → (0 : Fl K p emin) ≤ if i = j then 1 else 0 := fun i j _ _ => by
    split
    · exact h01
    · exact Fl.le_refl _
  have mul : ∀ {f g : Nat → Nat → Fl K p emin}, (∀ i j, i < n → j < n → 0 ≤ f i j) → (∀ i j, i < n → j < n → 0 ≤ g i j) →
      ∀ i j, i < n → j < n → 0 ≤ lsum n fun k => f i k * g k j := fun hf hg i j hi hj =>
    Fl.lsum_nonneg fun k hk => Fl.mul_nonneg (hf i k hi hk) (hg k j hk hj)
  have C : ExpClosed n half (fun x => 0 ≤ x) (fun g => ∀ i j, i < n → j < n → 0 ≤ g i j)
      (fun g => (∀ i j, i < n → j < n → 0 ≤ g i j) ∧ ∀ i, i < n → 1 ≤ g i i) := by
    refine ⟨h01, hh, Fl.mul_nonneg, ?_, fun _ _ _ _ => Fl.le_refl _, one, mul, fun hx hf i j hi hj => Fl.mul_nonneg (hf i j hi hj) hx,
      fun hf hg i j hi hj => Fl.add_nonneg (hf i j hi hj) (hg i j hi hj), ⟨one, fun i _ => by dsimp only; rw [if_pos rfl]; exact Fl.le_refl _⟩, ?_, ?_⟩
    · intro k z hz
      have hz' : (if ((k + 1 : Nat) : Fl K p emin).val = 0 then Res.ub .divZero else .ok (Fl.of p emin ((1 : Fl K p emin).val / ((k + 1 : Nat) : Fl K p emin).val))) = .ok z := hz
      split at hz'
      · cases hz'
      · obtain rfl := Res.ok.inj hz'
        refine rnd_nonneg ?_
        rw [v1]
        exact div_nonneg zero_le_one (rnd_nonneg (Nat.cast_nonneg _))
    · rintro f g ⟨hf, hf'⟩ hg
      refine ⟨fun i j hi hj => Fl.add_nonneg (hf i j hi hj) (hg i j hi hj), fun i hi => ?_⟩
      have h2 := rnd_mono hp emin (le_add_of_nonneg_right (a := (f i i).val) (hg i i hi hi))
      rw [rnd_exact hp (f i i).isFl] at h2
      exact Fl.le_trans (hf' i hi) h2
    · rintro f ⟨hf, hf'⟩
      refine ⟨mul hf hf, fun i hi => ?_⟩
      have h2 := Fl.le_lsum hp (f := fun k => f i k * f k i) (fun k hk => Fl.mul_nonneg (hf i k hi hk) (hf k i hk hi)) hi
      refine Fl.le_trans ?_ h2
      have h3 : (1 : Fl K p emin) * 1 ≤ f i i * f i i := Fl.mul_mono hp h01 (hf' i hi) h01 (hf' i hi)
      refine Fl.le_trans ?_ h3
      show (1 : Fl K p emin).val ≤ rnd p emin ((1 : Fl K p emin).val * (1 : Fl K p emin).val)
      have h4 : (1 : Fl K p emin).val * (1 : Fl K p emin).val = (1 : Fl K p emin).val := by rw [v1, mul_one]
      rw [h4, rnd_exact hp (1 : Fl K p emin).isFl]
  obtain ⟨g, rfl, hg, hg'⟩ := C.expm hA (fun i j hi hj => hM ⟨i, hi⟩ ⟨j, hj⟩) hr
  exact ⟨_, (ofFn_rep hA.fits g).is, fun i j => hg i j i.2 j.2, fun i => hg' i i.2⟩
end

open Ieee in
set_option maxRecDepth 100000 in
example : (do let E ← expm dIsZero Ieee.abs Ieee.sqrt dhalf (⟨2, 2, [1 / 3, 2, 0, 1 / 7].map dbl⟩ : Mat IDouble).toMB (dbl (1 / 100000)) 1076
              let x ← E.at_ 1 0; let y ← E.at_ 0 1; Res.ok (x, decide (y = 0))) = .ok (0, false) := by decide +kernel

/-- The second state is driven by the first one and by the second input, the first state only by the first input. -/
def chain2 : StateSpace IDouble := ⟨⟨2, 2, [-1 / 3, 0, 1, -1 / 5].map dbl⟩, ⟨2, 2, [1 / 10, 0, 0, 1].map dbl⟩, ⟨1, 2, [1, 0].map dbl⟩, ⟨1, 2, [0, 0].map dbl⟩⟩

set_option maxRecDepth 100000 in
example : (do let d ← c2d dIsZero (fun X => expm dIsZero Ieee.abs Ieee.sqrt dhalf X (dbl (1 / 100000)) 1076) chain2 (dbl (1 / 16))
              let x ← d.A.at_ 0 1; let y ← d.B.at_ 0 1; let z ← d.B.at_ 1 0
              Res.ok (decide (x.val = 0), decide (y.val = 0), decide (z.val = 0))) = .ok (true, true, false) := by decide +kernel
/-- C145: the products of a matrix with its transpose are symmetric to the last digit: multiplication commutes, and the terms are added in the same order. -/
theorem C145_gram {T : Type} [Zero T] [Add T] [Mul T] (hc : ∀ x y : T, x * y = y * x) {A : MB T} {n m : Nat} {M : Matrix (Fin n) (Fin m) T} (hA : A.Is M) :
    ∃ B, transpose A = .ok B ∧ B.toMB.Is M.transpose ∧
      (Fits m m → ∃ G : Matrix (Fin m) (Fin m) T, Yields (mul B.toMB A) G ∧ G.transpose = G) ∧
      (Fits n n → ∃ H : Matrix (Fin n) (Fin n) T, Yields (mul A B.toMB) H ∧ H.transpose = H) := by
  obtain ⟨e, hA, rfl⟩ := hA
  have hB := ofFn_rep hA.fits.swap (fun r c => e c r)
  refine ⟨_, transpose_eq hA.toRepAt, ⟨_, hB, rfl⟩, fun hf => ⟨_, (C35_entries hB.toRepAt hA.toRepAt hf).yields, ?_⟩,
    fun hf => ⟨_, (C35_entries hA.toRepAt hB.toRepAt hf).yields, ?_⟩⟩
  · funext i j
    exact lsum_congr fun l _ => hc _ _
  · funext i j
    exact lsum_congr fun l _ => hc _ _

namespace Ieee
variable {K : Type} [Field K] [LinearOrder K] [IsStrictOrderedRing K] [FloorRing K] {p : ℕ} {emin : ℤ} {emax : ℕ}

/-- The doubles commute as well, with their infinities and NaN. -/
theorem mul_swap (a b : Ieee K p emin emax) : a * b = b * a := by
  match a, b with
  | nan, nan => rfl
  | nan, inf _ => rfl
  | nan, fin .. => rfl
  | inf _, nan => rfl
  | fin .., nan => rfl
  | inf s, inf t => show inf _ = inf _; rw [Bool.xor_comm]
  | inf s, fin y z hz hx =>
    show (if y.val = 0 then nan else inf _) = (if y.val = 0 then nan else inf _)
    rw [Bool.xor_comm]
  | fin y z hz hx, inf s =>
    show (if y.val = 0 then nan else inf _) = (if y.val = 0 then nan else inf _)
    rw [Bool.xor_comm]
  | fin x _ _ _, fin y _ _ _ =>
    show mk _ (x.val * y.val) = mk _ (y.val * x.val)
    rw [mul_comm, Bool.xor_comm]
end Ieee

set_option maxRecDepth 100000 in
/-- The laws of exact numbers go further: `A * P * transpose(A)` is symmetric if `P` is. In doubles it is not, here the places (0, 1) and (1, 0) differ. -/
theorem C145_covariance_false : (do
    let X ← mul (⟨2, 2, [dbl (1 / 10), dbl (1 / 10), dbl (1 / 10), dbl (2 / 10)]⟩ : Mat IDouble).toMB (⟨2, 2, [dbl (1 / 10), dbl (3 / 10), dbl (3 / 10), dbl (1 / 10)]⟩ : Mat IDouble).toMB
    let T ← transpose (⟨2, 2, [dbl (1 / 10), dbl (1 / 10), dbl (1 / 10), dbl (2 / 10)]⟩ : Mat IDouble).toMB
    let Y ← mul X.toMB T.toMB
    let a ← Y.at_ 0 1
    let b ← Y.at_ 1 0
    return decide (a = b)) = .ok false := by
  decide +kernel
end Malg
