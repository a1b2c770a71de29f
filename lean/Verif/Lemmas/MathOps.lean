import Verif.Lemmas.Matrix
import Verif.Lemmas.Utility
import Verif.Model.MathOps
/-!
# `math.hpp` as table equations
-/
namespace Malg

/-- A loop whose iterations all succeed or all end the same way, one of them surely. -/
theorem forRange_ub {σ : Type} {lo hi : Nat} {k : UB} {body : Nat → σ → Res σ} {s : σ}
    (h : ∀ i s, lo ≤ i → i < hi → (∃ s', body i s = .ok s') ∨ body i s = .ub k)
    {j : Nat} (hj1 : lo ≤ j) (hj2 : j < hi) (hj : ∀ s, body j s = .ub k) : forRange lo hi s body = .ub k := by
  unfold forRange
  generalize hn : hi - lo = n
  induction n generalizing lo s with
  | zero => omega
  | succ n ih =>
    simp only [loopN]
    rcases h lo s (Nat.le_refl _) (by omega) with ⟨s', e⟩ | e
    · rw [e, Res.ok_bind]
      by_cases hlj : lo = j
      · subst hlj; rw [hj] at e; exact absurd e (by simp)
      · exact ih (fun i s h1 h2 => h i s (by omega) h2) (by omega) (by omega)
    · rw [e]; rfl

namespace Ops
variable {T T₁ T₂ R : Type}

theorem zipMat_eq {init : R} {fn : T₁ → T₂ → Res R} {A : MB T₁} {B : MB T₂} {n m : Nat} {e f g}
    (hA : Rep A n m e) (hB : Rep B n m f) (h : ∀ r c, r < n → c < m → fn (e r c) (f r c) = .ok (g r c)) :
    zipMat init fn A B = .ok (Mat.ofFn n m g) := by
  unfold zipMat
  rw [if_neg (by rw [hA.rows, hB.rows]; simp), if_neg (by rw [hA.cols, hB.cols]; simp), hA.rows, hA.cols, hA.size,
    Mat.new_eq hA.fits, Res.ok_bind]
  refine fill_lin rfl (fun i f' hi _ _ => ?_)
  rw [hA.lin' hi, hB.lin' hi, Res.ok_bind, Res.ok_bind, h _ _ (lin_of_lt hi).1 (lin_of_lt hi).2.1, Res.ok_bind,
    ofFn_setLin hi]

theorem zipMat_throw {init : R} {fn : T₁ → T₂ → Res R} {A : MB T₁} {B : MB T₂}
    (h : A.rows ≠ B.rows ∨ A.cols ≠ B.cols) : zipMat init fn A B = .throw .invalidArgument := by
  unfold zipMat
  by_cases h1 : A.rows ≠ B.rows
  · rw [if_pos h1]
  · rw [if_neg h1, if_pos (by tauto)]

theorem mapMat_eq {init : R} {fn : T → Res R} {A : MB T} {n m : Nat} {e g}
    (hA : Rep A n m e) (h : ∀ r c, r < n → c < m → fn (e r c) = .ok (g r c)) :
    mapMat init fn A = .ok (Mat.ofFn n m g) := by
  unfold mapMat
  rw [hA.rows, hA.cols, hA.size, Mat.new_eq hA.fits, Res.ok_bind]
  refine fill_lin rfl (fun i f' hi _ _ => ?_)
  rw [hA.lin' hi, Res.ok_bind, h _ _ (lin_of_lt hi).1 (lin_of_lt hi).2.1, Res.ok_bind, ofFn_setLin hi]

theorem zipVec_eq {init : R} {fn : T₁ → T₂ → Res R} {a : List T₁} {b : List T₂} {n : Nat} {e f g}
    (ha : VRep a n e) (hb : VRep b n f) (h : ∀ i, i < n → fn (e i) (f i) = .ok (g i)) :
    zipVec init fn a b = .ok (vtab n g) := by
  unfold zipVec
  rw [if_neg (by rw [ha.2.1, hb.2.1]; simp), ha.2.1, vnew_ok ha.1, Res.ok_bind]
  refine vfill_eq (by simp) (fun i f' hi _ => ?_)
  rw [ha.get hi, hb.get hi, Res.ok_bind, Res.ok_bind, h i hi, Res.ok_bind, vset_vtab hi]

theorem mapVec_eq {init : R} {fn : T → Res R} {a : List T} {n : Nat} {e g}
    (ha : VRep a n e) (h : ∀ i, i < n → fn (e i) = .ok (g i)) : mapVec init fn a = .ok (vtab n g) := by
  unfold mapVec
  rw [ha.2.1, vnew_ok ha.1, Res.ok_bind]
  refine vfill_eq (by simp) (fun i f' hi _ => ?_)
  rw [ha.get hi, Res.ok_bind, h i hi, Res.ok_bind, vset_vtab hi]

/-- Accumulating into one entry of a matrix. -/
theorem accumAt [Zero T] [Add T] {n m : Nat} (hf : Fits n m) {F : Nat → Nat → T} {r c k : Nat} (hr : r < n)
    (hc : c < m) (h0 : F r c = 0) {g : Nat → T} {p : Nat → Res T} (hp : ∀ i, i < k → p i = .ok (g i)) :
    forRange 0 k (Mat.ofFn n m F) (fun i A => do
      let z ← A.at_ r c
      let x ← p i
      A.setAt r c (z + x)) = .ok (Mat.ofFn n m (upd F r c (lsum k g))) := by
  rw [forRange_eq (Nat.zero_le k) (fun i => Mat.ofFn n m (upd F r c (lsum i g)))]
  · apply ofFn_congr; intro i j _ _
    by_cases h : i = r ∧ j = c
    · rw [h.1, h.2, upd_same]; exact h0
    · rw [upd_ne _ _ h]
  · intro i _ hi
    rw [ofFn_at hf hr hc, Res.ok_bind, hp i hi, Res.ok_bind, ofFn_setAt hf hr hc, upd_same]
    congr 1; apply ofFn_congr; intro i' j' _ _
    by_cases h : i' = r ∧ j' = c
    · rw [h.1, h.2, upd_same, upd_same]; rfl
    · rw [upd_ne _ _ h, upd_ne _ _ h, upd_ne _ _ h]

theorem mul_loop [Zero T] [Add T] [Mul T] {A B : MB T} {n k m N : Nat} {e f} (hA : RepAt A n k e) (hB : RepAt B k m f)
    (hf : Fits n N) (hm : m ≤ N) :
    forRange 0 n (Mat.ofFn n N fun _ _ => (0 : T)) (fun r result =>
      forRange 0 m result fun c result =>
        forRange 0 k result fun i result => do
          let z ← result.at_ r c
          let x ← A.at_ r i
          let y ← B.at_ i c
          result.setAt r c (z + x * y)) =
      .ok (Mat.ofFn n N fun r c => if c < m then lsum k (fun i => e r i * f i c) else 0) := by
  rw [fillRect (e := fun r c => lsum k (fun i => e r i * f i c)) (f0 := fun _ _ => (0 : T)) (Nat.zero_le n)
    (Nat.zero_le m) (Mat.ofFn n N) rfl]
  · congr 1; apply ofFn_congr; intro r c hr hc
    apply if_congr _ rfl rfl; omega
  · intro r c F _ hr _ hc _ h2
    rw [← accumAt (k := k) (p := fun i => do
          let x ← A.at_ r i
          let y ← B.at_ i c
          return x * y) hf hr (by omega) (h2 r c (by omega)) (fun i hi => by
            rw [hA.get r i hr hi, hB.get i c hi hc]; rfl)]
    apply forRange_congr
    intro i s _ hi
    simp only [bind_assoc, pure_bind]

theorem mul_eq [Zero T] [Add T] [Mul T] {A B : MB T} {n k m : Nat} {e f} (hA : RepAt A n k e) (hB : RepAt B k m f)
    (hf : Fits n m) :
    mul A B = .ok (Mat.ofFn n m fun r c => lsum k (fun i => e r i * f i c)) := by
  unfold mul
  rw [if_neg (by rw [hA.cols, hB.rows]; simp), hA.rows, hB.cols, hB.rows, Mat.new_eq hf, Res.ok_bind,
    mul_loop hA hB hf (Nat.le_refl m)]
  congr 1; apply ofFn_congr; intro r c hr hc; rw [if_pos hc]

/-- Linear in-place loops through a reference. -/
theorem lin_loop {m : MRef (Store T) T} {v N M n k : Nat} {ρ κ} (h : On m v N M n k ρ κ) {s : Store T} {e}
    (he : (s v).Holds N M e) {x : Nat → Nat → T} {g : Nat → Store T → Res T}
    (hg : ∀ r c F, r < n → c < k →
      (∀ i j, i < n → j < k → (i < r ∨ (i = r ∧ j < c)) → F i j = x i j) →
      (∀ i j, i < n → j < k → ¬ (i < r ∨ (i = r ∧ j < c)) → F i j = e (ρ i) (κ j)) →
      g (r * k + c) (putOn s v N M n k ρ κ e F) = .ok (x r c)) :
    forRange 0 (n * k) s (fun i s => g i s >>= fun z => m.setLin s i z) = .ok (putOn s v N M n k ρ κ e x) := by
  refine fillLinSt (putOn s v N M n k ρ κ e) (fun f g h => putOn_congr h) (putOn_init h he) ?_
  intro r c F hr hc h1 h2
  rw [hg r c F hr hc h1 h2, Res.ok_bind, h.writeLin _ _ r c _ (putOn_holds he.fits) hr hc,
    h.put_step he.fits hr hc]

end Ops
end Malg
