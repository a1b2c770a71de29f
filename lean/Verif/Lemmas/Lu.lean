import Verif.Lemmas.Det
import Mathlib.Algebra.BigOperators.Intervals
/-!
# `lu_decomposition`
-/
namespace Malg

/-- A loop in which every iteration either keeps the invariant or ends everything with undefined behaviour. -/
theorem forRange_inv_or {σ : Type} {lo hi : Nat} (h : lo ≤ hi) (I : Nat → σ → Prop) {Q : Prop} {k : UB} {s : σ}
    {body : Nat → σ → Res σ} (h0 : I lo s)
    (hs : ∀ i s, lo ≤ i → i < hi → I i s → (∃ s', body i s = .ok s' ∧ I (i + 1) s') ∨ (body i s = .ub k ∧ Q)) :
    (∃ s', forRange lo hi s body = .ok s' ∧ I hi s') ∨ (forRange lo hi s body = .ub k ∧ Q) := by
  induction hi, h using Nat.le_induction with
  | base => exact .inl ⟨s, by simp, h0⟩
  | succ n hn ih =>
    rw [forRange_succ_last hn]
    rcases ih (fun i s h1 h2 => hs i s h1 (by omega)) with ⟨s', e, h1⟩ | ⟨e, h1⟩
    · rw [e, Res.ok_bind]
      exact hs n s' hn (by omega) h1
    · rw [e]; exact .inr ⟨rfl, h1⟩

namespace Lin
open Ops
variable {K : Type} [Field K]

/-- Columns `< i` of `l` and rows `< i` of `u` are final, the rest is zero. -/
structure LuInv (N : Nat) (a : Nat → Nat → K) (i : Nat) (l u : Nat → Nat → K) : Prop where
  l_low : ∀ j c, j < N → c < i → c ≤ j → l j c = a j c - ∑ k ∈ Finset.range c, l j k * u k c
  l_up : ∀ j c, j < N → c < i → j < c → l j c = 0
  u_up : ∀ r c, r < i → c < N → r < c → u r c * l r r = a r c - ∑ k ∈ Finset.range r, l r k * u k c
  u_one : ∀ r, r < i → u r r = 1
  u_low : ∀ r c, r < N → c < N → c < r → u r c = 0
  piv : ∀ r, r < i → r + 1 < N → l r r ≠ 0

/-- The equations give a factorisation of every leading block. -/
theorem lu_block {k : Nat} {a l u : Nat → Nat → K}
    (l_low : ∀ j c, j < k → c < k → c ≤ j → l j c = a j c - ∑ m ∈ Finset.range c, l j m * u m c)
    (l_up : ∀ j c, j < k → c < k → j < c → l j c = 0)
    (u_up : ∀ r c, r < k → c < k → r < c → u r c * l r r = a r c - ∑ m ∈ Finset.range r, l r m * u m c)
    (u_one : ∀ r, r < k → u r r = 1)
    (u_low : ∀ r c, r < k → c < k → c < r → u r c = 0) :
    toM k k l * toM k k u = toM k k a ∧ (toM k k l).det = ∏ j ∈ Finset.range k, l j j ∧ (toM k k u).det = 1 := by
  refine ⟨?_, ?_, ?_⟩
  · funext i j
    rw [Matrix.mul_apply]
    simp only [toM_apply]
    rw [← Finset.sum_range (fun m => l i m * u m j)]
    by_cases hij : j.1 ≤ i.1
    · rw [← Finset.sum_range_add_sum_Ico _ (show j.1 + 1 ≤ k by omega), Finset.sum_range_succ, u_one j j.2, mul_one,
        l_low i j i.2 j.2 hij, Finset.sum_eq_zero (s := Finset.Ico (j.1 + 1) k)]
      · ring
      · intro m hm
        have := Finset.mem_Ico.1 hm
        rw [u_low m j (by omega) j.2 (by omega), mul_zero]
    · rw [← Finset.sum_range_add_sum_Ico _ (show i.1 + 1 ≤ k by omega), Finset.sum_range_succ, mul_comm (l i i),
        u_up i j i.2 j.2 (by omega), Finset.sum_eq_zero (s := Finset.Ico (i.1 + 1) k)]
      · ring
      · intro m hm
        have := Finset.mem_Ico.1 hm
        rw [l_up i m i.2 (by omega) (by omega), zero_mul]
  · rw [Matrix.det_of_isLowerTriangular (M := toM k k l) (fun i j hij => l_up i j i.2 j.2 hij), Finset.prod_range]
    rfl
  · rw [Matrix.det_of_isUpperTriangular (M := toM k k u) (fun i j hij => u_low i j i.2 j.2 hij)]
    exact Finset.prod_eq_one fun i _ => u_one i i.2

/-- The leading minors are products of pivots. -/
theorem LuInv.minor {N i : Nat} {a l u : Nat → Nat → K} (h : LuInv N a i l u) (hi : i ≤ N) {k : Nat} (hk : k ≤ i) :
    (toM k k a).det = ∏ j ∈ Finset.range k, l j j := by
  obtain ⟨h1, h2, h3⟩ := lu_block (a := a) (l := l) (u := u) (k := k)
    (fun j c _ _ h' => h.l_low j c (by omega) (by omega) h') (fun j c _ _ h' => h.l_up j c (by omega) (by omega) h')
    (fun r c _ _ h' => h.u_up r c (by omega) (by omega) h') (fun r _ => h.u_one r (by omega))
    (fun r c _ _ h' => h.u_low r c (by omega) (by omega) h')
  rw [← h1, Matrix.det_mul, h2, h3, mul_one]

variable [DecidableEq K]

omit [DecidableEq K] in
/-- Column `i` of `l`. -/
theorem lu_col {N i : Nat} (hf : Fits N N) (hi : i < N) {A : MB K} {a : Nat → Nat → K} (hA : RepAt A N N a) (l u : Nat → Nat → K) :
    (forRange 0 N (Mat.ofFn N N l) fun j l =>
        if j < i then l.setAt j i 0
        else do
          let x ← A.at_ j i
          let l ← l.setAt j i x
          forRange 0 i l fun k l => do
            let x ← l.at_ j i
            let y ← l.at_ j k
            let z ← (Mat.ofFn N N u).at_ k i
            l.setAt j i (x - y * z)) =
      .ok (Mat.ofFn N N fun r c => if c = i then (if r < i then 0 else a r i - ∑ k ∈ Finset.range i, l r k * u k i) else l r c) := by
  rw [forRange_eq (Nat.zero_le N) (fun j => Mat.ofFn N N fun r c =>
    if c = i ∧ r < j then (if r < i then 0 else a r i - ∑ k ∈ Finset.range i, l r k * u k i) else l r c)]
  · congr 1; apply ofFn_congr; intro r c hr hc; apply if_congr (by omega) rfl rfl
  · apply ofFn_congr; intro r c hr hc; rw [if_neg (by omega)]
  · intro j _ hj
    by_cases hji : j < i
    · rw [if_pos hji, ofFn_setAt hf hj hi]
      congr 1; apply ofFn_congr; intro r c hr hc
      simp only [upd]
      by_cases h : r = j ∧ c = i
      · rw [if_pos h, if_pos (by omega), if_pos (by omega)]
      · rw [if_neg h]; apply if_congr (by omega) rfl rfl
    · rw [if_neg hji, hA.get j i hj hi, Res.ok_bind, ofFn_setAt hf hj hi, Res.ok_bind,
        forRange_eq (Nat.zero_le i) (fun k => Mat.ofFn N N (upd (fun r c =>
          if c = i ∧ r < j then (if r < i then 0 else a r i - ∑ k ∈ Finset.range i, l r k * u k i) else l r c) j i
            (a j i - ∑ m ∈ Finset.range k, l j m * u m i)))]
      · congr 1; apply ofFn_congr; intro r c hr hc
        simp only [upd]
        by_cases h : r = j ∧ c = i
        · obtain ⟨rfl, rfl⟩ := h
          rw [if_pos ⟨rfl, rfl⟩, if_pos (by omega), if_neg hji]
        · rw [if_neg h]; apply if_congr (by omega) rfl rfl
      · simp
      · intro k _ hk
        rw [ofFn_at hf hj hi, Res.ok_bind, ofFn_at hf hj (by omega), Res.ok_bind, ofFn_at hf (by omega) hi, Res.ok_bind,
          ofFn_setAt hf hj hi]
        congr 1; apply ofFn_congr; intro r c hr hc
        simp only [upd]
        by_cases h : r = j ∧ c = i
        · rw [if_pos h, if_pos h, if_pos ⟨trivial, trivial⟩, if_neg (by omega), if_neg (by omega), Finset.sum_range_succ, sub_sub]
        · rw [if_neg h, if_neg h, if_neg h]

/-- Row `i` of `u`, up to a column `m`, given a usable pivot if a quotient is needed. -/
theorem lu_row {N i m : Nat} (hf : Fits N N) (hi : i < N) (hm : m ≤ N) {A : MB K} {a : Nat → Nat → K} (hA : RepAt A N N a) (l u : Nat → Nat → K)
    (hp : i + 1 < m → l i i ≠ 0) :
    (forRange 0 m (Mat.ofFn N N u) fun j u =>
        if j < i then u.setAt i j 0
        else if j = i then u.setAt i j 1
        else do
          let x ← A.at_ i j
          let p ← (Mat.ofFn N N l).at_ i i
          let q ← cdiv x p
          let u ← u.setAt i j q
          forRange 0 i u fun k u => do
            let x ← u.at_ i j
            let y ← (Mat.ofFn N N l).at_ i k
            let z ← u.at_ k j
            let p ← (Mat.ofFn N N l).at_ i i
            let q ← cdiv (y * z) p
            u.setAt i j (x - q)) =
      .ok (Mat.ofFn N N fun r c => if r = i ∧ c < m then
        (if c < i then 0 else if c = i then 1 else (a i c - ∑ k ∈ Finset.range i, l i k * u k c) / l i i) else u r c) := by
  let g : Nat → K := fun c => if c < i then 0 else if c = i then 1 else (a i c - ∑ k ∈ Finset.range i, l i k * u k c) / l i i
  rw [forRange_eq (Nat.zero_le m) (fun j => Mat.ofFn N N fun r c => if r = i ∧ c < j then g c else u r c)]
  · apply ofFn_congr; intro r c hr hc; rw [if_neg (by omega)]
  · intro j _ hj
    have hupd : ∀ x, x = g j → Mat.ofFn N N (upd (fun r c => if r = i ∧ c < j then g c else u r c) i j x) =
        Mat.ofFn N N (fun r c => if r = i ∧ c < j + 1 then g c else u r c) := by
      rintro x rfl
      apply ofFn_congr; intro r c hr hc
      simp only [upd]
      by_cases h : r = i ∧ c = j
      · obtain ⟨rfl, rfl⟩ := h
        rw [if_pos ⟨rfl, rfl⟩, if_pos (by omega)]
      · rw [if_neg h]; apply if_congr (by omega) rfl rfl
    by_cases h1 : j < i
    · rw [if_pos h1, ofFn_setAt hf hi (by omega), hupd]
      simp only [g]; rw [if_pos h1]
    · by_cases h2 : j = i
      · rw [if_neg h1, if_pos h2, ofFn_setAt hf hi (by omega), hupd]
        simp only [g]; rw [if_neg h1, if_pos h2]
      · have h0 : l i i ≠ 0 := hp (by omega)
        rw [if_neg h1, if_neg h2, hA.get i j hi (by omega), Res.ok_bind, ofFn_at hf hi hi, Res.ok_bind, cdiv_ok _ h0,
          Res.ok_bind, ofFn_setAt hf hi (by omega), Res.ok_bind,
          forRange_eq (Nat.zero_le i) (fun k => Mat.ofFn N N (upd (fun r c => if r = i ∧ c < j then g c else u r c) i j
            ((a i j - ∑ m ∈ Finset.range k, l i m * u m j) / l i i)))]
        · rw [hupd]
          simp only [g]; rw [if_neg h1, if_neg h2]
        · simp
        · intro k _ hk
          rw [ofFn_at hf hi (by omega), Res.ok_bind, ofFn_at hf hi (by omega), Res.ok_bind, ofFn_at hf (by omega) (by omega),
            Res.ok_bind, Res.ok_bind, cdiv_ok _ h0, Res.ok_bind, ofFn_setAt hf hi (by omega)]
          congr 1; apply ofFn_congr; intro r c hr hc
          simp only [upd]
          by_cases h : r = i ∧ c = j
          · rw [if_pos h, if_pos h, if_pos ⟨trivial, trivial⟩, if_neg (by omega), if_neg (by omega), Finset.sum_range_succ, ← sub_sub, sub_div, sub_div, sub_div]
          · rw [if_neg h, if_neg h, if_neg h]

/-- The decomposition either runs through or meets a zero pivot, and then a proper leading minor is zero. -/
theorem lu_cases {A : MB K} {N : Nat} {a : Nat → Nat → K} (h : RepAt A N N a) :
    (∃ l u, lu A = .ok (Mat.ofFn N N l, Mat.ofFn N N u) ∧ LuInv N a N l u) ∨
    (lu A = .ub .divZero ∧ ∃ k, 0 < k ∧ k < N ∧ (toM k k a).det = 0) := by
  have hf := h.fits
  unfold lu
  rw [isSquare_eq h, beq_self_eq_true, Bool.not_true, if_neg Bool.false_ne_true]
  dsimp only
  rw [h.rows, Mat.new_eq hf, Res.ok_bind, Res.ok_bind]
  have := forRange_inv_or (Nat.zero_le N)
    (fun i (s : Mat K × Mat K) => ∃ l u, s = (Mat.ofFn N N l, Mat.ofFn N N u) ∧ LuInv N a i l u)
    (Q := ∃ k, 0 < k ∧ k < N ∧ (toM k k a).det = 0) (k := .divZero)
    (s := (Mat.ofFn N N fun _ _ => 0, Mat.ofFn N N fun _ _ => 0))
    (body := fun i s => do
      let l ← forRange 0 N s.1 fun j l =>
        if j < i then l.setAt j i 0
        else do
          let x ← A.at_ j i
          let l ← l.setAt j i x
          forRange 0 i l fun k l => do
            let x ← l.at_ j i
            let y ← l.at_ j k
            let z ← s.2.at_ k i
            l.setAt j i (x - y * z)
      let u ← forRange 0 N s.2 fun j u =>
        if j < i then u.setAt i j 0
        else if j = i then u.setAt i j 1
        else do
          let x ← A.at_ i j
          let p ← l.at_ i i
          let q ← cdiv x p
          let u ← u.setAt i j q
          forRange 0 i u fun k u => do
            let x ← u.at_ i j
            let y ← l.at_ i k
            let z ← u.at_ k j
            let p ← l.at_ i i
            let q ← cdiv (y * z) p
            u.setAt i j (x - q)
      return (l, u))
    ⟨_, _, rfl, ⟨fun _ _ _ h => absurd h (by omega), fun _ _ _ h => absurd h (by omega), fun _ _ h => absurd h (by omega),
      fun _ h => absurd h (by omega), fun _ _ _ _ _ => rfl, fun _ h => absurd h (by omega)⟩⟩ ?_
  · rcases this with ⟨s, h1, l, u, rfl, h2⟩ | h1
    · exact .inl ⟨l, u, h1, h2⟩
    · exact .inr h1
  · rintro i s _ hi ⟨l, u, rfl, hinv⟩
    dsimp only
    rw [lu_col hf hi h l u, Res.ok_bind]
    set l' : Nat → Nat → K := fun r c => if c = i then (if r < i then 0 else a r i - ∑ k ∈ Finset.range i, l r k * u k i) else l r c with hl'
    have hl'ne : ∀ r c, c ≠ i → l' r c = l r c := fun r c hc => if_neg hc
    have hl'i : ∀ r, i ≤ r → l' r i = a r i - ∑ k ∈ Finset.range i, l r k * u k i := fun r hr => by
      simp only [hl']; rw [if_pos trivial, if_neg (by omega)]
    have hl'0 : ∀ r, r < i → l' r i = 0 := fun r hr => by
      simp only [hl']; rw [if_pos trivial, if_pos hr]
    have hsum : ∀ r m (w : Nat → K), m ≤ i → ∑ k ∈ Finset.range m, l' r k * w k = ∑ k ∈ Finset.range m, l r k * w k := by
      intro r m w hm
      apply Finset.sum_congr rfl; intro k hk
      rw [hl'ne r k (by have := Finset.mem_range.1 hk; omega)]
    have hL1 : ∀ j c, j < N → c < i + 1 → c ≤ j → l' j c = a j c - ∑ k ∈ Finset.range c, l' j k * u k c := by
      intro j c hj hc hcj
      rw [hsum j c (fun k => u k c) (by omega)]
      by_cases hci : c = i
      · subst hci; exact hl'i j hcj
      · rw [hl'ne j c hci]; exact hinv.l_low j c hj (by omega) hcj
    have hL2 : ∀ j c, j < N → c < i + 1 → j < c → l' j c = 0 := by
      intro j c hj hc hcj
      by_cases hci : c = i
      · subst hci; exact hl'0 j hcj
      · rw [hl'ne j c hci]; exact hinv.l_up j c hj (by omega) hcj
    by_cases hz : i + 1 < N ∧ l' i i = 0
    · right
      constructor
      · rw [forRange_append (Nat.zero_le (i + 1)) (by omega : i + 1 ≤ N), lu_row hf hi (by omega) h l' u (by omega), Res.ok_bind,
          forRange_lt hz.1, if_neg (by omega), if_neg (by omega), h.get i (i + 1) hi hz.1, Res.ok_bind, ofFn_at hf hi hi,
          Res.ok_bind, hz.2, cdiv_zero]
        rfl
      · refine ⟨i + 1, by omega, hz.1, ?_⟩
        have hud : ∀ r c, r ≠ i → upd u i i 1 r c = u r c := fun r c h => upd_ne _ _ (by omega)
        obtain ⟨h1, h2, h3⟩ := lu_block (a := a) (l := l') (u := upd u i i 1) (k := i + 1)
          (fun j c h1 h2 h3 => by
            rw [hL1 j c (by omega) h2 h3]
            congr 1
            apply Finset.sum_congr rfl; intro k hk
            rw [hud k c (by have := Finset.mem_range.1 hk; omega)])
          (fun j c h1 h2 h3 => hL2 j c (by omega) h2 h3)
          (fun r c h1 h2 h3 => by
            rw [hud r c (by omega), hl'ne r r (by omega), hinv.u_up r c (by omega) (by omega) h3]
            congr 1
            rw [hsum r r (fun k => upd u i i 1 k c) (by omega)]
            apply Finset.sum_congr rfl; intro k hk
            rw [hud k c (by have := Finset.mem_range.1 hk; omega)])
          (fun r h1 => by
            by_cases hr : r = i
            · subst hr; exact upd_same _ _ _ _
            · rw [hud r r hr]; exact hinv.u_one r (by omega))
          (fun r c h1 h2 h3 => by
            rw [upd_ne _ _ (by omega)]; exact hinv.u_low r c (by omega) (by omega) h3)
        rw [← h1, Matrix.det_mul, h2, h3, mul_one, Finset.prod_range_succ, hz.2, mul_zero]
    · left
      have hp : i + 1 < N → l' i i ≠ 0 := fun h1 h2 => hz ⟨h1, h2⟩
      rw [lu_row hf hi (Nat.le_refl N) h l' u hp, Res.ok_bind]
      refine ⟨_, rfl, l', _, rfl, ?_⟩
      set u' : Nat → Nat → K := fun r c => if r = i ∧ c < N then
        (if c < i then 0 else if c = i then 1 else (a i c - ∑ k ∈ Finset.range i, l' i k * u k c) / l' i i) else u r c with hu'
      have hu'ne : ∀ r c, r ≠ i → u' r c = u r c := fun r c hr => if_neg (by omega)
      have husum : ∀ r m c, m ≤ i → ∑ k ∈ Finset.range m, l' r k * u' k c = ∑ k ∈ Finset.range m, l' r k * u k c := by
        intro r m c hm
        apply Finset.sum_congr rfl; intro k hk
        rw [hu'ne k c (by have := Finset.mem_range.1 hk; omega)]
      constructor
      · intro j c hj hc hcj
        rw [husum j c c (by omega)]; exact hL1 j c hj hc hcj
      · exact hL2
      · intro r c hr hc hrc
        rw [husum r r c (by omega)]
        by_cases hri : r = i
        · subst hri
          simp only [hu']
          rw [if_pos ⟨trivial, hc⟩, if_neg (by omega), if_neg (by omega), div_mul_cancel₀ _ (hp (by omega))]
        · rw [hu'ne r c hri, hl'ne r r hri, hsum r r (fun k => u k c) (by omega)]
          exact hinv.u_up r c (by omega) hc hrc
      · intro r hr
        by_cases hri : r = i
        · subst hri; simp only [hu']; rw [if_pos ⟨trivial, hi⟩, if_neg (by omega), if_pos trivial]
        · rw [hu'ne r r hri]; exact hinv.u_one r (by omega)
      · intro r c hr hc hcr
        by_cases hri : r = i
        · subst hri; simp only [hu']; rw [if_pos ⟨trivial, hc⟩, if_pos hcr]
        · rw [hu'ne r c hri]; exact hinv.u_low r c hr hc hcr
      · intro r hr hrN
        by_cases hri : r = i
        · subst hri; exact hp hrN
        · rw [hl'ne r r hri]; exact hinv.piv r (by omega) hrN

end Lin
end Malg
