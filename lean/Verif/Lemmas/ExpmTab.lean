import Verif.Lemmas.FloatMat
import Verif.Props.FloatLu
import Verif.Props.FloatDet
/-!
# What `expm` computes, whatever the arithmetic

The tests in the loops of `expm` decide how many terms there are; everything else is sums and products.
-/
namespace Malg
open Ops Lin

variable {T : Type} [Zero T] [One T] [Add T] [Mul T] [NatCast T] [CDiv T]

/-- The computed inverse factorials, `linalg.hpp:429-430`. -/
def invFac (T : Type) [Zero T] [One T] [Mul T] [NatCast T] [CDiv T] : Nat → T
  | 0 => 1
  | j + 1 => invFac T j * quo 1 ((j + 1 : Nat) : T)

/-- The computed powers of the scaled matrix, `linalg.hpp:434`. -/
def expPow (n : Nat) (sc : Nat → Nat → T) : Nat → Nat → Nat → T
  | 0 => fun r c => if r = c then 1 else 0
  | j + 1 => fun r c => lsum n fun k => expPow n sc j r k * sc k c

/-- The computed sum of the terms `q + 1`, …, `q + i`, `linalg.hpp:435`. -/
def expAcc (n : Nat) (sc : Nat → Nat → T) (q : Nat) : Nat → Nat → Nat → T
  | 0 => fun _ _ => 0
  | i + 1 => fun r c => expAcc n sc q i r c + expPow n sc (q + i + 1) r c * invFac T (q + i + 1)

/-- The computed sum of the first `b` batches of `n²` terms, `linalg.hpp:437`. -/
def expRet (n : Nat) (sc : Nat → Nat → T) : Nat → Nat → Nat → T
  | 0 => fun r c => if r = c then 1 else 0
  | b + 1 => fun r c => expRet n sc b r c + expAcc n sc (b * (n * n)) (n * n) r c

/-- The same, with `i` more terms. -/
def expRetI (n : Nat) (sc : Nat → Nat → T) (b i : Nat) (r c : Nat) : T := expRet n sc b r c + expAcc n sc (b * (n * n)) i r c

/-- `k` squarings, `linalg.hpp:443-445`. -/
def expSq (n : Nat) (E : Nat → Nat → T) : Nat → Nat → Nat → T
  | 0 => E
  | k + 1 => fun r c => lsum n fun l => expSq n E k r l * expSq n E k l c

/-- The loop over the terms of a batch. -/
theorem expmBatch_tab {isz : T → Bool} {J : Nat} (hq : ∀ j, j < J → cdiv (1 : T) ((j + 1 : Nat) : T) = .ok (quo 1 ((j + 1 : Nat) : T)))
    (hJ : isz (invFac T J) = true) {n : Nat} (hf : Fits n n) {sc : Nat → Nat → T} {q : Nat} (hz : ∀ j, j ≤ q → isz (invFac T j) = false) (b : Nat) :
    ∃ i f st, expmBatch isz (Mat.ofFn n n sc) (1 + q) b (Mat.ofFn n n (expPow n sc q)) (Mat.ofFn n n (expAcc n sc q 0)) (invFac T q) =
        .ok (Mat.ofFn n n (expPow n sc (q + i)), Mat.ofFn n n (expAcc n sc q i), f, st) ∧ i ≤ b ∧
      (∀ j, j ≤ q + i → isz (invFac T j) = false) ∧
      (st = false ∧ f = invFac T (q + i) ∧ i = b ∨ st = true ∧ f = invFac T (q + i + 1) ∧ isz f = true) := by
  unfold expmBatch
  obtain ⟨s, e1, e2⟩ := forRange_inv (Nat.zero_le b)
    (fun l (s : Mat T × Mat T × T × Bool) => ∃ i, s.1 = Mat.ofFn n n (expPow n sc (q + i)) ∧ s.2.1 = Mat.ofFn n n (expAcc n sc q i) ∧ i ≤ l ∧
      (∀ j, j ≤ q + i → isz (invFac T j) = false) ∧
      (s.2.2.2 = false ∧ s.2.2.1 = invFac T (q + i) ∧ i = l ∨ s.2.2.2 = true ∧ s.2.2.1 = invFac T (q + i + 1) ∧ isz s.2.2.1 = true))
    (s := (Mat.ofFn n n (expPow n sc q), Mat.ofFn n n (expAcc n sc q 0), invFac T q, false))
    (body := fun i s =>
      if s.2.2.2 then .ok s
      else do
        let q' ← cdiv (1 : T) (((1 + q + i : Nat)) : T)
        let f := s.2.2.1 * q'
        if isz f then return (s.1, s.2.1, f, true)
        else do
          let m ← Ops.mul s.1.toMB (Mat.ofFn n n sc).toMB
          let x ← Ops.mulS m.toMB f
          let a ← Ops.addAssign MRef.self (fun _ => x.toMB) s.2.1
          return (m, a, f, false))
    ⟨0, rfl, rfl, le_rfl, hz, .inl ⟨rfl, rfl, rfl⟩⟩
    (by
      rintro l ⟨m, a, f, st⟩ _ _ ⟨i, hm, ha, hil, hz, hst⟩
      dsimp only at hm ha hst ⊢
      subst hm ha
      rcases hst with ⟨rfl, rfl, rfl⟩ | ⟨rfl, hfac, hisz⟩
      · have hpJ : q + i < J := by
          by_contra hc
          have := hz J (by omega)
          rw [hJ] at this; cases this
        rw [if_neg Bool.false_ne_true, show 1 + q + i = q + i + 1 by omega, hq _ hpJ, Res.ok_bind]
        rw [show invFac T (q + i) * quo 1 ((q + i + 1 : Nat) : T) = invFac T (q + i + 1) from rfl]
        cases hi : isz (invFac T (q + i + 1))
        · rw [if_neg Bool.false_ne_true]
          rw [mul_eq (ofFn_rep hf _).toRepAt (ofFn_rep hf sc).toRepAt hf, Res.ok_bind]
          rw [show Ops.mulS (Mat.ofFn n n fun r c => lsum n fun k => expPow n sc (q + i) r k * sc k c).toMB (invFac T (q + i + 1)) =
            .ok (Mat.ofFn n n fun r c => (lsum n fun k => expPow n sc (q + i) r k * sc k c) * invFac T (q + i + 1)) from
            mapMat_eq (ofFn_rep hf _) fun _ _ _ _ => rfl, Res.ok_bind, addAssign_self (ofFn_rep hf _), Res.ok_bind]
          refine ⟨_, rfl, i + 1, rfl, rfl, by omega, ?_, .inl ⟨rfl, rfl, rfl⟩⟩
          intro j hj
          rcases Nat.lt_or_ge j (q + i + 1) with h | h
          · exact hz j (by omega)
          · obtain rfl : j = q + i + 1 := by omega
            exact hi
        · rw [if_pos rfl]
          exact ⟨_, rfl, i, rfl, rfl, by omega, hz, .inr ⟨rfl, rfl, hi⟩⟩
      · rw [if_pos rfl]
        exact ⟨_, rfl, i, rfl, rfl, by omega, hz, .inr ⟨rfl, hfac, hisz⟩⟩)
  obtain ⟨m', acc', f, st⟩ := s
  obtain ⟨i, rfl, rfl, a2, a3, a4⟩ := e2
  exact ⟨i, f, st, e1, a2, a3, a4⟩

omit [NatCast T] [CDiv T] [One T] in
theorem squarings_tab {n : Nat} (hf : Fits n n) (E : Nat → Nat → T) (k : Nat) :
    forRange 0 k (Mat.ofFn n n E) (fun _ ret => Ops.mul ret.toMB ret.toMB) = .ok (Mat.ofFn n n (expSq n E k)) := by
  induction k with
  | zero => rfl
  | succ k ih =>
    rw [forRange_succ_last (Nat.zero_le k), ih, Res.ok_bind, mul_eq (ofFn_rep hf _).toRepAt (ofFn_rep hf _).toRepAt hf]
    rfl

variable [Sub T] [Neg T] [Max T] [LT T] [DecidableRel (α := T) (· < ·)]

/-- `expm` sums up `b` batches of terms and `i` more, and squares the result `k` times. -/
theorem expm_tab {isz : T → Bool} (hone : isz 1 = false) {J : Nat} (hq : ∀ j, j < J → cdiv (1 : T) ((j + 1 : Nat) : T) = .ok (quo 1 ((j + 1 : Nat) : T)))
    (hJ : isz (invFac T J) = true) {absf sqrt : T → T} {half : T} {A : MB T} {n : Nat} {e : Nat → Nat → T} (h : Rep A n n e) {accuracy : T}
    {fuel k : Nat} {sc : T} (hlog : log2Ceil absf half A fuel = .ok (k, sc))
    (hlt : accuracy * accuracy * sc * sc < accuracy * accuracy * sc * sc + 1) {X : Mat T}
    (hr : expm isz absf sqrt half A accuracy fuel = .ok X) :
    0 < n ∧ ∃ b i, X = Mat.ofFn n n (expSq n (expRetI n (fun r c => e r c * sc) b i) k) ∧ i ≤ n * n ∧
      (∀ j, j ≤ b * (n * n) + i → isz (invFac T j) = false) ∧ (i = n * n ∨ isz (invFac T (b * (n * n) + i + 1)) = true) := by
  have hf := h.fits
  unfold expm at hr
  rw [hlog, Res.ok_bind] at hr
  dsimp only at hr
  rw [show Ops.mulS A sc = .ok (Mat.ofFn n n fun r c => e r c * sc) from mapMat_eq h fun _ _ _ _ => rfl, Res.ok_bind, h.rows, h.cols, hf.wmul] at hr
  by_cases hn : n = 0
  · subst hn; cases hr
  have hn : 0 < n := by omega
  refine ⟨hn, ?_⟩
  rw [Util.eye_eq hn hn hf, Res.ok_bind, Res.ok_bind] at hr
  obtain ⟨s, h2, h3⟩ := Res.bind_eq_ok.1 hr
  set S : Nat → Nat → T := fun r c => e r c * sc with hS
  have key := whileFuel_inv_ok (fun s : ExpmState T =>
      (∃ b, s.start = 1 + b * (n * n) ∧ s.facInv = invFac T (b * (n * n)) ∧ s.mtk = Mat.ofFn n n (expPow n S (b * (n * n))) ∧
        s.ret = Mat.ofFn n n (expRet n S b) ∧ (∀ j, j ≤ b * (n * n) → isz (invFac T j) = false) ∧
        (b = 0 → s.diff = accuracy * accuracy * sc * sc + 1)) ∨
      (∃ b i, isz s.facInv = true ∧ s.ret = Mat.ofFn n n (expRetI n S b i) ∧ i ≤ n * n ∧
        (∀ j, j ≤ b * (n * n) + i → isz (invFac T j) = false) ∧ isz (invFac T (b * (n * n) + i + 1)) = true))
    ?_ ?_ h2
  · obtain ⟨⟨b, a1, a2, a3, a4, a5, a6⟩ | ⟨b, i, a1, a2, a3, a4, a5⟩, hstop⟩ := key
    · cases b with
      | zero =>
        exfalso
        rw [if_pos] at hstop
        · obtain ⟨_, _, hstop⟩ := Res.bind_eq_ok.1 hstop
          obtain ⟨_, _, hstop⟩ := Res.bind_eq_ok.1 hstop
          obtain ⟨_, _, hstop⟩ := Res.bind_eq_ok.1 hstop
          obtain ⟨_, _, hstop⟩ := Res.bind_eq_ok.1 hstop
          obtain ⟨_, _, hstop⟩ := Res.bind_eq_ok.1 hstop
          obtain ⟨_, _, hstop⟩ := Res.bind_eq_ok.1 hstop
          obtain ⟨_, _, hstop⟩ := Res.bind_eq_ok.1 hstop
          obtain ⟨_, _, hstop⟩ := Res.bind_eq_ok.1 hstop
          cases hstop
        · rw [a6 rfl, a2]
          exact ⟨hlt, a5 _ le_rfl⟩
      | succ b =>
        rw [a4, squarings_tab hf] at h3
        injection h3 with h3
        refine ⟨b, n * n, h3.symm, le_rfl, ?_, .inl rfl⟩
        rw [← Nat.succ_mul]
        exact a5
    · rw [a2, squarings_tab hf] at h3
      injection h3 with h3
      exact ⟨b, i, h3.symm, a3, a4, .inr a5⟩
  · refine .inl ⟨0, by simp, by rw [Nat.zero_mul]; rfl, by rw [Nat.zero_mul]; rfl, rfl, fun j hj => ?_, fun _ => rfl⟩
    obtain rfl : j = 0 := by omega
    exact hone
  · rintro s s' hI hstep
    split at hstep
    · rename_i hcond
      obtain ⟨b, a1, a2, a3, a4, a5, -⟩ | ⟨b, i, a1, -⟩ := hI
      · rw [Mat.new_eq hf, Res.ok_bind, a1, a2, a3] at hstep
        obtain ⟨i, f, st, b1, b2, b3, b4⟩ := expmBatch_tab hq hJ hf (sc := S) a5 (n * n)
        rw [show (fun _ _ => (0 : T)) = expAcc n S (b * (n * n)) 0 from rfl, b1, Res.ok_bind] at hstep
        dsimp only at hstep
        rw [a4, addAssign_self (ofFn_rep hf _), Res.ok_bind] at hstep
        obtain ⟨_, _, hstep⟩ := Res.bind_eq_ok.1 hstep
        obtain ⟨_, _, hstep⟩ := Res.bind_eq_ok.1 hstep
        obtain ⟨_, _, hstep⟩ := Res.bind_eq_ok.1 hstep
        obtain ⟨_, _, hstep⟩ := Res.bind_eq_ok.1 hstep
        obtain ⟨_, _, hstep⟩ := Res.bind_eq_ok.1 hstep
        injection hstep with hstep
        injection hstep with hstep
        subst hstep
        rcases b4 with ⟨-, rfl, rfl⟩ | ⟨-, rfl, hc⟩
        · refine .inl ⟨b + 1, ?_, ?_, ?_, rfl, ?_, fun h => absurd h (Nat.succ_ne_zero b)⟩
          · dsimp only; rw [Nat.succ_mul]; omega
          · dsimp only; rw [Nat.succ_mul]
          · dsimp only; rw [Nat.succ_mul]
          · rw [Nat.succ_mul]; exact b3
        · exact .inr ⟨b, i, hc, rfl, b2, b3, hc⟩
      · rw [hcond.2] at a1; cases a1
    · cases hstep

end Malg
