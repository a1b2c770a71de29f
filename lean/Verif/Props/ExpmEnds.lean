import Verif.Lemmas.Finish
import Verif.Props.FloatExpm
import Verif.Props.FloatNorm
import Verif.Model.Feq
import Verif.Props.Special
/-!
# Property C125: `expm` comes to an end

Over the exact reals it need not (C76). In floating point the inverse factorials underflow, which ends the series, and so do the halvings of the
scale. Division never fails there, so that the outcome is a matrix of the same size or an exception.
-/
namespace Malg
open Ops Lin

section
variable {T : Type} [Zero T] [One T] [Add T] [Sub T] [Mul T] [Neg T] [NatCast T] [CDiv T] [Max T] [LT T] [DecidableRel (α := T) (· < ·)]

omit [Sub T] [Neg T] [NatCast T] [CDiv T] in
theorem log2Ceil_ends {absf : T → T} {half : T} {A : MB T} (hA : A.Ends) {K : Nat} (hK : ∀ x : T, ¬ 1 < x * (· * half)^[K] 1) {fuel : Nat}
    (hf : K < fuel) : Ends (log2Ceil absf half A fuel) := by
  refine (infNorm_ends absf hA).bind fun N => ?_
  refine Ends.while (fun q : Nat × T => q.2 = (· * half)^[q.1] 1 ∧ q.1 ≤ K) (fun q => K - q.1) (fun q _ => Ends.ite (Ends.ok _) (Ends.ok _)) ?_
    ⟨rfl, Nat.zero_le _⟩ (by simpa using hf)
  rintro ⟨k, sc⟩ q' ⟨h1, h2⟩ hs
  dsimp only at h1 h2 hs
  split at hs
  · rename_i hc
    injection hs with hs
    injection hs with hs
    subst hs
    have : k ≠ K := by
      rintro rfl
      rw [h1] at hc
      exact hK N hc
    exact ⟨⟨by dsimp only; rw [Function.iterate_succ_apply', h1], by dsimp only; omega⟩, by dsimp only; omega⟩
  · cases hs

omit [Sub T] [Neg T] [Max T] [LT T] [DecidableRel (α := T) (· < ·)] in
theorem expmBatch_ends (hdiv : ∀ x y : T, Ends (cdiv x y)) (isz : T → Bool) (scaled : Mat T) (start batch : Nat) (mtk acc : Mat T) (f : T) :
    Ends (expmBatch isz scaled start batch mtk acc f) :=
  Ends.loop (fun _ s => Ends.ite (Ends.ok _) <| (hdiv _ _).bind fun _ => Ends.ite (Ends.pure _) <|
    (mul_ends s.1.ends scaled.ends).bind fun m => (mapMat_ends (fun _ => Ends.ok _) m.ends).bind fun x =>
      (addAssign_ends x.ends).bind fun _ => Ends.pure _) _ _ _

omit [Sub T] [Neg T] [Max T] [LT T] [DecidableRel (α := T) (· < ·)] in
/-- The inverse factorials in a pass of the inner loop do not depend on the matrix. -/
theorem expmBatch_fac {isz : T → Bool} {scaled mtk acc m' a' : Mat T} {p b : Nat} {f : T} {st : Bool} (hp : ∀ j, j ≤ p → isz (invFac T j) = false)
    (h : expmBatch isz scaled (1 + p) b mtk acc (invFac T p) = .ok (m', a', f, st)) :
    (f = invFac T (p + b) ∧ ∀ j, j ≤ p + b → isz (invFac T j) = false) ∨ isz f = true := by
  have key := forRange_inv_ok (Nat.zero_le b) (fun i (s : Mat T × Mat T × T × Bool) =>
    (s.2.2.2 = false ∧ s.2.2.1 = invFac T (p + i) ∧ ∀ j, j ≤ p + i → isz (invFac T j) = false) ∨ (s.2.2.2 = true ∧ isz s.2.2.1 = true))
    (.inl ⟨rfl, rfl, hp⟩) ?_ h
  · rcases key with ⟨-, h1, h2⟩ | ⟨-, h1⟩
    · exact .inl ⟨h1, h2⟩
    · exact .inr h1
  · rintro i ⟨m, a, f, st⟩ s' - - hI hs
    dsimp only at hI hs
    rcases hI with ⟨rfl, rfl, hz⟩ | ⟨rfl, hz⟩
    · rw [if_neg Bool.false_ne_true] at hs
      obtain ⟨q, hq, hs⟩ := Res.bind_eq_ok.1 hs
      have hq' : quo (1 : T) ((p + i + 1 : Nat) : T) = q := by
        unfold quo; rw [show p + i + 1 = 1 + p + i by omega, hq]
      have hfac : invFac T (p + i) * q = invFac T (p + i + 1) := by rw [← hq']; rfl
      rw [hfac] at hs
      cases hi : isz (invFac T (p + i + 1))
      · rw [hi, if_neg Bool.false_ne_true] at hs
        obtain ⟨_, -, hs⟩ := Res.bind_eq_ok.1 hs
        obtain ⟨_, -, hs⟩ := Res.bind_eq_ok.1 hs
        obtain ⟨_, -, hs⟩ := Res.bind_eq_ok.1 hs
        injection hs with hs
        subst hs
        refine .inl ⟨rfl, rfl, fun j hj => ?_⟩
        rcases Nat.lt_or_ge j (p + i + 1) with h | h
        · exact hz j (by omega)
        · obtain rfl : j = p + i + 1 := by omega
          exact hi
      · rw [hi, if_pos rfl] at hs
        injection hs with hs
        subst hs
        exact .inr ⟨rfl, hi⟩
    · rw [if_pos rfl] at hs
      injection hs with hs
      subst hs
      exact .inr ⟨rfl, hz⟩

/-- C125: if the inverse factorials reach zero at `J!` and the scale reaches zero after `K` halvings, then `expm` ends on every square matrix: `K + 1`
rounds of the one loop and `J + 1` rounds of the other suffice. -/
theorem C125_ends (hdiv : ∀ x y : T, Ends (cdiv x y)) {isz : T → Bool} {J : Nat} (hJ : isz (invFac T J) = true) {half : T} {K : Nat}
    (hK : ∀ x : T, ¬ 1 < x * (· * half)^[K] 1) {A : MB T} (hA : A.Ends) {n : Nat} {M : Matrix (Fin n) (Fin n) T} (h : A.Is M)
    (absf sqrt : T → T) (accuracy : T) {fuel : Nat} (hf : K < fuel ∧ J < fuel) : Ends (expm isz absf sqrt half A accuracy fuel) := by
  have hfit := h.fits
  obtain ⟨e, h, rfl⟩ := h
  unfold expm
  refine (log2Ceil_ends hA hK hf.1).bind fun q => ?_
  obtain ⟨k, sc⟩ := q
  refine (mapMat_ends (fun _ => Ends.ok _) hA).bind fun scaled => ?_
  rw [h.rows, h.cols, hfit.wmul]
  by_cases hn : n = 0
  · subst hn; exact nofun
  have hnn : 0 < n * n := Nat.mul_pos (by omega) (by omega)
  refine (eye_ends _ _ _).bind fun mtk => (eye_ends _ _ _).bind fun ret => Ends.bind ?_ fun s => ?_
  · refine Ends.while (fun s : ExpmState T => isz s.facInv = true ∨
        ∃ p, s.start = 1 + p ∧ s.facInv = invFac T p ∧ ∀ j, j ≤ p → isz (invFac T j) = false)
      (fun s => if isz s.facInv then 0 else J + 1 - s.start) (fun s _ => ?_) ?_ ?_ ?_
    · refine Ends.ite ?_ (Ends.pure _)
      refine (Mat.new_ends _ _ _).bind fun acc => (expmBatch_ends hdiv _ _ _ _ _ _ _).bind fun r => ?_
      obtain ⟨mtk, acc, f, st⟩ := r
      refine (addAssign_ends acc.ends).bind fun ret => (mul_ends acc.ends acc.ends).bind fun N => (mul_ends ret.ends ret.ends).bind fun d =>
        (mapMat_ends (fun _ => Ends.ok _) d.ends).bind fun d => (div_ends hdiv isz N.ends d.ends).bind fun r => (squareNorm_ends sqrt r.ends).bind fun _ => Ends.pure _
    · intro s s' hI hs
      split at hs
      · rename_i hc
        have hz : isz s.facInv = false := hc.2
        rw [hz] at hI
        obtain ⟨p, h1, h2, h3⟩ := hI.resolve_left Bool.false_ne_true
        have hpJ : p < J := by
          by_contra hc
          have := h3 J (by omega)
          rw [hJ] at this; cases this
        obtain ⟨acc, -, hs⟩ := Res.bind_eq_ok.1 hs
        rw [h1, h2] at hs
        obtain ⟨⟨m', a', f, st⟩, hb, hs⟩ := Res.bind_eq_ok.1 hs
        obtain ⟨_, -, hs⟩ := Res.bind_eq_ok.1 hs
        obtain ⟨_, -, hs⟩ := Res.bind_eq_ok.1 hs
        obtain ⟨_, -, hs⟩ := Res.bind_eq_ok.1 hs
        obtain ⟨_, -, hs⟩ := Res.bind_eq_ok.1 hs
        obtain ⟨_, -, hs⟩ := Res.bind_eq_ok.1 hs
        obtain ⟨_, -, hs⟩ := Res.bind_eq_ok.1 hs
        injection hs with hs
        injection hs with hs
        subst hs
        dsimp only
        rw [hz, if_neg Bool.false_ne_true, h1]
        rcases expmBatch_fac h3 hb with ⟨g1, g2⟩ | g
        · refine ⟨.inr ⟨p + n * n, by omega, g1, g2⟩, ?_⟩
          rw [g1, g2 _ le_rfl, if_neg Bool.false_ne_true]
          omega
        · refine ⟨.inl g, ?_⟩
          rw [g, if_pos rfl]
          omega
      · cases hs
    · dsimp only
      cases h1 : isz (1 : T)
      · refine .inr ⟨0, rfl, rfl, fun j hj => ?_⟩
        obtain rfl : j = 0 := by omega
        exact h1
      · exact .inl rfl
    · dsimp only
      split
      · omega
      · have := hf.2; omega
  · exact Ends.loop (σ := Mat T) (fun _ R => mul_ends R.ends R.ends) _ _ _

end

/-! ## The outcome -/

/-- The call returns something with `P`, throws `std::invalid_argument`, or runs out of fuel; nothing undefined happens. -/
def Fair {α : Type} (P : α → Prop) (r : Res α) : Prop := (∃ a, r = .ok a ∧ P a) ∨ r = .throw .invalidArgument ∨ r = .diverge

theorem Fair.ok {α : Type} {P : α → Prop} {a : α} (h : P a) : Fair P (Res.ok a) := .inl ⟨a, rfl, h⟩

theorem Fair.bind {α β : Type} {P : α → Prop} {Q : β → Prop} {x : Res α} {f : α → Res β} (h : Fair P x) (hf : ∀ a, P a → Fair Q (f a)) : Fair Q (x >>= f) := by
  rcases h with ⟨a, rfl, ha⟩ | rfl | rfl
  · exact hf a ha
  · exact .inr (.inl rfl)
  · exact .inr (.inr rfl)

theorem Fair.while {σ : Type} {step : σ → Res (Option σ)} {I : σ → Prop} (h : ∀ s, I s → Fair (fun o => ∀ s', o = some s' → I s') (step s)) (fuel : Nat) {s : σ}
    (hs : I s) : Fair I (whileFuel step fuel s) := by
  induction fuel generalizing s with
  | zero => exact .inr (.inr rfl)
  | succ fuel ih =>
    rw [whileFuel]
    refine (h s hs).bind fun o ho => ?_
    cases o with
    | none => exact Fair.ok hs
    | some s' => exact ih (ho s' rfl)

section
variable {T : Type} [Zero T] [One T] [Add T] [Sub T] [Mul T] [Neg T] [CDiv T] (hdiv : ∀ y : T, Divisor y) (isz : T → Bool)

omit [Zero T] [One T] [Add T] [Sub T] [Mul T] [Neg T] [CDiv T] in
theorem pivotRow_total {N c : Nat} (hf : Fits N N) (hc : c < N) (e : Nat → Nat → T) :
    pivotRow isz (Mat.ofFn N N e) c = .ok none ∨ ∃ k, pivotRow isz (Mat.ofFn N N e) c = .ok (some k) ∧ k < N := by
  unfold pivotRow
  by_cases h : ∃ k, c < k ∧ k < N ∧ isz (e k c) = false
  · classical
    right
    obtain ⟨h1, h2, h3⟩ := Nat.find_spec h
    refine ⟨Nat.find h, forSearch_some h1 h2 (fun i hi1 hi2 => ?_) ?_, h2⟩
    · rw [ofFn_at hf (by omega) hc, Res.ok_bind]
      have := Nat.find_min h hi2
      have h0 : isz (e i c) = true := by by_contra h'; exact this ⟨by omega, by omega, by simpa using h'⟩
      rw [if_pos h0]; rfl
    · rw [ofFn_at hf h2 hc, Res.ok_bind, if_neg (by rw [h3]; exact Bool.false_ne_true)]; rfl
  · left
    refine forSearch_none fun i h1 h2 => ?_
    have h2' : i < N := h2
    have h0 : isz (e i c) = true := by by_contra h'; exact h ⟨i, by omega, h2', by simpa using h'⟩
    rw [ofFn_at hf h2' hc, Res.ok_bind, if_pos h0]; rfl

include hdiv

omit [Add T] in
theorem elimStep_total {N c : Nat} (hf : Fits N N) (hc : c < N) (e : Nat → Nat → T) (d : T) (st : Bool) :
    ∃ e' d' st', elimStep isz N c ⟨Mat.ofFn N N e, d, st⟩ = .ok ⟨Mat.ofFn N N e', d', st'⟩ := by
  unfold elimStep
  cases st
  · rw [if_neg (by simp)]
    dsimp only
    rw [ofFn_at hf hc hc, Res.ok_bind]
    cases h0 : isz (e c c)
    · rw [if_neg Bool.false_ne_true]
      refine ⟨elimT e c fun r => quo (e r c) (e c c), d * e c c, false, ?_⟩
      show ((Mat.ofFn N N e).at_ c c >>= _) = _
      rw [ofFn_at hf hc hc, Res.ok_bind, eliminate_eq hf hc (q := fun r => quo (e r c) (e c c)) (fun r _ _ => hdiv _ _)]
      rfl
    · rw [if_pos rfl]
      rcases pivotRow_total isz hf hc e with h1 | ⟨k, h1, h3⟩
      · rw [h1]
        exact ⟨e, _, _, rfl⟩
      · rw [h1, Res.ok_bind]
        have hsw := swapRows_self hf (e := e) hc h3
        change _ = Res.ok (Mat.ofFn N N (swapT e c k)) at hsw
        simp only [hsw, Res.ok_bind]
        refine ⟨elimT (swapT e c k) c fun r => quo (swapT e c k r c) (swapT e c k c c), d * -1 * swapT e c k c c, false, ?_⟩
        show ((Mat.ofFn N N (swapT e c k)).at_ c c >>= _) = _
        rw [ofFn_at hf hc hc, Res.ok_bind,
          eliminate_eq hf hc (q := fun r => quo (swapT e c k r c) (swapT e c k c c)) (fun r _ _ => hdiv _ _)]
        rfl
  · rw [if_pos rfl]
    exact ⟨e, d, true, rfl⟩

/-- C125: if division is defined for all operands, as in IEEE arithmetic, `determinant` returns for every square matrix. -/
theorem C125_determinant {A : MB T} {N : Nat} {M : Matrix (Fin N) (Fin N) T} (h : A.Is M) : ∃ d, determinant isz A = .ok d := by
  obtain ⟨e, h, rfl⟩ := h
  by_cases hN : N ≤ 4
  · exact ⟨_, determinant_closed isz h hN⟩
  unfold determinant
  rw [isSquare_eq h.toRepAt, h.cols, beq_self_eq_true, Bool.not_true, if_neg Bool.false_ne_true]
  rw [if_neg (by omega), if_neg (by omega), if_neg (by omega), if_neg (by omega), Mat.ofMB_eq h, Res.ok_bind]
  obtain ⟨s, h1, -⟩ := forRange_inv (Nat.zero_le N) (fun _ (s : ElimState T) => ∃ e' d' st', s = ⟨Mat.ofFn N N e', d', st'⟩)
    (s := ⟨Mat.ofFn N N fun r c => id (e r c), 1, false⟩) (body := fun c s => elimStep isz N c s) ⟨_, _, _, rfl⟩ (by
      rintro c s - hc ⟨e', d', st', rfl⟩
      obtain ⟨e'', d'', st'', h2⟩ := elimStep_total hdiv isz h.fits hc e' d' st'
      exact ⟨_, h2, e'', d'', st'', rfl⟩)
  exact ⟨s.det, by rw [h1]; rfl⟩

theorem adjoint_total {A : MB T} {N : Nat} {e : Nat → Nat → T} (h : Rep A N N e) : ∃ g, adjoint isz A = .ok (Mat.ofFn N N g) := by
  by_cases h1 : N = 1
  · subst h1
    refine ⟨fun _ _ => 1, ?_⟩
    unfold adjoint
    rw [isSquare_eq h.toRepAt, h.cols, beq_self_eq_true, Bool.not_true, if_neg Bool.false_ne_true, if_pos rfl, Mat.new_eq h.fits]
  have key : ∀ i j, ∃ d, i < N → j < N → determinant isz (A.cofactor i j) = .ok d := by
    intro i j
    by_cases hN0 : 0 < N
    · obtain ⟨d, hd⟩ := C125_determinant hdiv isz (cofactor_rep h.toRepAt hN0 i j).is
      exact ⟨d, fun _ _ => hd⟩
    · exact ⟨0, fun h _ => absurd h (by omega)⟩
  choose D hD using key
  exact ⟨_, adjoint_exec h.toRepAt h1 fun i j hi hj => hD i j hi hj⟩

/-- C125: and so does `inverse`: it returns a matrix of the same size, or the empty one. -/
theorem C125_inverse {A : MB T} {N : Nat} {M : Matrix (Fin N) (Fin N) T} (h : A.Is M) :
    inverse isz A = .ok Mat.empty0 ∨ ∃ M' : Matrix (Fin N) (Fin N) T, Yields (inverse isz A) M' := by
  obtain ⟨d, hd⟩ := C125_determinant hdiv isz h
  obtain ⟨e, h, rfl⟩ := h
  cases h0 : isz d
  · obtain ⟨g, hg⟩ := adjoint_total hdiv isz h
    exact .inr ⟨_, inverse_exec h.toRepAt hd h0 (hdiv d) (Yields.of_eq h.fits hg)⟩
  · left
    unfold inverse
    rw [isSquare_eq h.toRepAt, beq_self_eq_true, Bool.not_true, if_neg Bool.false_ne_true, hd, Res.ok_bind, if_pos h0]
    rfl

theorem div_fair {A B : MB T} {n : Nat} (hn : 0 < n) {e f : Nat → Nat → T} (hA : Rep A n n e) (hB : Rep B n n f) :
    Fair (fun X => ∃ g, X = Mat.ofFn n n g) (div isz A B) := by
  unfold div
  rcases C125_inverse hdiv isz hB.is with h | ⟨M', X, h1, h2, h3⟩
  · rw [h, Res.ok_bind]
    unfold Ops.mul
    rw [if_pos (by rw [hA.cols]; show n ≠ 0; omega)]
    exact .inr (.inl rfl)
  · rw [h1, Res.ok_bind]
    obtain ⟨g, h3, -⟩ := h3
    rw [mul_eq hA.toRepAt h3.toRepAt hA.fits]
    exact Fair.ok ⟨_, rfl⟩

end

section
variable {T : Type} [Zero T] [One T] [Add T] [Sub T] [Mul T] [Neg T] [NatCast T] [CDiv T] [Max T] [LT T] [DecidableRel (α := T) (· < ·)]
  (hdiv : ∀ y : T, Divisor y) (isz : T → Bool)

omit [Sub T] [Neg T] [Max T] [LT T] [DecidableRel (α := T) (· < ·)] in
include hdiv in
theorem expmBatch_fair {n : Nat} (hf : Fits n n) (sc em ea : Nat → Nat → T) (start b : Nat) (f : T) :
    ∃ em' ea' f' st, expmBatch isz (Mat.ofFn n n sc) start b (Mat.ofFn n n em) (Mat.ofFn n n ea) f = .ok (Mat.ofFn n n em', Mat.ofFn n n ea', f', st) := by
  unfold expmBatch
  obtain ⟨s, h1, em', ea', f', st, rfl⟩ := forRange_inv (Nat.zero_le b)
    (fun _ (s : Mat T × Mat T × T × Bool) => ∃ em' ea' f' st, s = (Mat.ofFn n n em', Mat.ofFn n n ea', f', st))
    (s := (Mat.ofFn n n em, Mat.ofFn n n ea, f, false))
    (body := fun i s =>
      if s.2.2.2 then .ok s
      else do
        let q' ← cdiv (1 : T) (((start + i : Nat)) : T)
        let f := s.2.2.1 * q'
        if isz f then return (s.1, s.2.1, f, true)
        else do
          let m ← Ops.mul s.1.toMB (Mat.ofFn n n sc).toMB
          let x ← Ops.mulS m.toMB f
          let a ← Ops.addAssign MRef.self (fun _ => x.toMB) s.2.1
          return (m, a, f, false))
    ⟨_, _, _, _, rfl⟩ (by
      rintro i s - - ⟨em', ea', f', st, rfl⟩
      dsimp only
      cases st
      · rw [if_neg Bool.false_ne_true, hdiv, Res.ok_bind]
        generalize f' * quo (1 : T) ((start + i : Nat) : T) = f''
        cases hi : isz f''
        · rw [if_neg Bool.false_ne_true, mul_eq (ofFn_rep hf em').toRepAt (ofFn_rep hf sc).toRepAt hf, Res.ok_bind]
          rw [show Ops.mulS (Mat.ofFn n n fun r c => lsum n fun k => em' r k * sc k c).toMB f'' =
            .ok (Mat.ofFn n n fun r c => (lsum n fun k => em' r k * sc k c) * f'') from
            mapMat_eq (ofFn_rep hf _) fun _ _ _ _ => rfl, Res.ok_bind, addAssign_self (ofFn_rep hf _), Res.ok_bind]
          exact ⟨_, rfl, fun r c => lsum n fun k => em' r k * sc k c, fun r c => ea' r c + (lsum n fun k => em' r k * sc k c) * f'', f'', false, rfl⟩
        · rw [if_pos rfl]
          exact ⟨_, rfl, em', ea', f'', true, rfl⟩
      · rw [if_pos rfl]
        exact ⟨_, rfl, em', ea', f', true, rfl⟩)
  exact ⟨em', ea', f', st, h1⟩

include hdiv in
theorem expm_fair {A : MB T} {n : Nat} {M : Matrix (Fin n) (Fin n) T} (h : A.Is M) (absf sqrt : T → T) (half accuracy : T) (fuel : Nat) :
    Fair (fun X => ∃ g, X = Mat.ofFn n n g) (expm isz absf sqrt half A accuracy fuel) := by
  have hf := h.fits
  obtain ⟨e, h, rfl⟩ := h
  unfold expm
  have hlog : Fair (fun _ : Nat × T => True) (log2Ceil absf half A fuel) := by
    unfold log2Ceil
    have hN : ∃ v, infNorm absf A = .ok v := by
      unfold infNorm
      cases A.empty
      · rw [if_neg Bool.false_ne_true, h.rows, h.cols]
        exact ⟨_, forRange_eq (Nat.zero_le n) (fun k => Nat.rec (motive := fun _ => T) 0 (fun i acc => max acc (lsum n fun j => absf (e i j))) k) rfl
          fun i _ hi => by
            rw [accum_eq (g := fun j => absf (e i j)) (fun j acc hj => by rw [h.get i j hi hj]; rfl)]
            rfl⟩
      · exact ⟨0, if_pos rfl⟩
    obtain ⟨v, hv⟩ := hN
    rw [hv, Res.ok_bind]
    refine Fair.while (fun q _ => ?_) fuel trivial
    split
    · exact Fair.ok fun _ _ => trivial
    · exact Fair.ok fun _ _ => trivial
  refine hlog.bind fun q _ => ?_
  obtain ⟨k, sc⟩ := q
  dsimp only
  rw [show Ops.mulS A sc = .ok (Mat.ofFn n n fun r c => e r c * sc) from mapMat_eq h fun _ _ _ _ => rfl, Res.ok_bind, h.rows, h.cols, hf.wmul]
  by_cases hn : n = 0
  · subst hn; exact .inr (.inl rfl)
  have hn : 0 < n := by omega
  rw [Util.eye_eq hn hn hf, Res.ok_bind, Res.ok_bind]
  refine Fair.bind (P := fun s : ExpmState T => (∃ em, s.mtk = Mat.ofFn n n em) ∧ ∃ er, s.ret = Mat.ofFn n n er)
    (Fair.while (fun s hs => ?_) fuel ⟨⟨fun r c => if r = c then 1 else 0, rfl⟩, ⟨fun r c => if r = c then 1 else 0, rfl⟩⟩) fun s hs => ?_
  · obtain ⟨⟨em, hem⟩, ⟨er, her⟩⟩ := hs
    split
    · rw [Mat.new_eq hf, Res.ok_bind, hem]
      obtain ⟨em', ea', f', st, hb⟩ := expmBatch_fair hdiv isz hf (fun r c => e r c * sc) em (fun _ _ => 0) s.start (n * n) s.facInv
      rw [hb, Res.ok_bind, her]
      dsimp only
      rw [addAssign_self (ofFn_rep hf ea'), Res.ok_bind, mul_eq (ofFn_rep hf ea').toRepAt (ofFn_rep hf ea').toRepAt hf, Res.ok_bind,
        mul_eq (ofFn_rep hf _).toRepAt (ofFn_rep hf _).toRepAt hf, Res.ok_bind]
      rw [show ∀ g : Nat → Nat → T, Ops.addS (Mat.ofFn n n g).toMB accuracy = .ok (Mat.ofFn n n fun r c => g r c + accuracy) from
        fun g => mapMat_eq (ofFn_rep hf g) fun _ _ _ _ => rfl, Res.ok_bind]
      refine (div_fair hdiv isz hn (ofFn_rep hf _) (ofFn_rep hf _)).bind fun X hX => ?_
      obtain ⟨g, rfl⟩ := hX
      have hsq : ∃ v, squareNorm sqrt (Mat.ofFn n n g).toMB = .ok v := by
        unfold squareNorm
        rw [(ofFn_rep hf g).rows, (ofFn_rep hf g).cols,
          accum_rows (g := fun i j => g i j * g i j) (fun i j acc hi hj => by rw [(ofFn_rep hf g).get i j hi hj]; rfl)]
        exact ⟨_, rfl⟩
      obtain ⟨v, hv⟩ := hsq
      rw [hv, Res.ok_bind]
      refine Fair.ok fun s' hs' => ?_
      injection hs' with hs'
      subst hs'
      exact ⟨⟨em', rfl⟩, ⟨fun r c => er r c + ea' r c, rfl⟩⟩
    · exact Fair.ok (fun _ h => by cases h)
  · obtain ⟨-, ⟨er, her⟩⟩ := hs
    rw [her]
    obtain ⟨X, h1, h2⟩ := forRange_inv (Nat.zero_le k) (fun _ (X : Mat T) => ∃ g, X = Mat.ofFn n n g) (s := Mat.ofFn n n er)
      (body := fun _ ret => Ops.mul ret.toMB ret.toMB) ⟨er, rfl⟩ (by
        rintro i X - - ⟨g, rfl⟩
        exact ⟨_, mul_eq (ofFn_rep hf g).toRepAt (ofFn_rep hf g).toRepAt hf, fun r c => lsum n fun k => g r k * g k c, rfl⟩)
    rw [h1]
    exact Fair.ok h2

end

set_option maxRecDepth 100000 in
theorem invFac_idouble : invFac IDouble 178 = 0 := by decide +kernel

set_option maxRecDepth 100000 in
theorem invFac_ifloat : invFac (Ieee ℚ 24 (-149) 128) 39 = 0 := by decide +kernel


/-- C125: `expm` ends on every square matrix of `double`s, whatever it contains — infinities and NaNs included — and whatever the accuracy is: after at most
1076 rounds of the loop in `log2_ceil` and 179 rounds of the loop over the series. It returns a matrix of the same size or throws
`std::invalid_argument`. -/
theorem C125_double {A : Mat IDouble} {n : Nat} {M : Matrix (Fin n) (Fin n) IDouble} (h : A.toMB.Is M) (sqrt : IDouble → IDouble) (accuracy : IDouble)
    {fuel : Nat} (hf : 1076 ≤ fuel) :
    (∃ X : Matrix (Fin n) (Fin n) IDouble, Yields (expm dIsZero Ieee.abs sqrt dhalf A.toMB accuracy fuel) X) ∨
      expm dIsZero Ieee.abs sqrt dhalf A.toMB accuracy fuel = .throw .invalidArgument := by
  have h1 : Ends (expm dIsZero Ieee.abs sqrt dhalf A.toMB accuracy fuel) := by
    refine C125_ends (J := 178) (K := 1075) (fun _ _ => Ends.ok _) ?_ ?_ A.ends h _ _ _ (by omega)
    · rw [invFac_idouble]; decide +kernel
    · intro x
      obtain ⟨z, h1, h2⟩ := halvings_zero
      exact not_one_lt_mul_zero x h1 h2
  rcases expm_fair (fun _ _ => rfl) dIsZero h Ieee.abs sqrt dhalf accuracy fuel with ⟨X, h2, g, rfl⟩ | h2 | h2
  · exact .inl ⟨toM n n g, Yields.of_eq h.fits h2⟩
  · exact .inr h2
  · exact absurd h2 h1

/-- An infinite element: `log2_ceil` halves until the scale is zero, and every element of the result is a NaN. The third call throws. -/
example : expm dIsZero Ieee.abs id dhalf (⟨2, 2, [0, .inf false, 0, 0]⟩ : Mat IDouble).toMB dtol 1076 = .ok ⟨2, 2, [.nan, .nan, .nan, .nan]⟩ ∧
    expm dIsZero Ieee.abs id dhalf (⟨1, 1, [.nan]⟩ : Mat IDouble).toMB dtol 1076 = .ok ⟨1, 1, [.nan]⟩ ∧
    expm dIsZero Ieee.abs id dhalf (⟨3, 3, [0, 0, 1, 0, 0, 1, 0, 0, 0]⟩ : Mat IDouble).toMB 1 1076 = .throw .invalidArgument := by
  decide +kernel

/-- `inverse` of a matrix with an infinite element: empty, because the tolerance test takes an infinite determinant for zero. -/
example : inverse dIsZero (⟨2, 2, [.inf false, 0, 1, 1]⟩ : Mat IDouble).toMB = .ok Mat.empty0 := by decide +kernel

end Malg
