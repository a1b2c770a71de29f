import Verif.Lemmas.Lu
/-!
# `lu_decomposition` over any number type

The entries as they are computed: differences from left to right, without any law.
-/
namespace Malg

/-- `x - g 0 - g 1 - … - g (k - 1)`, from left to right. -/
def lsub {T : Type} [Sub T] (x : T) : Nat → (Nat → T) → T
  | 0, _ => x
  | k + 1, g => lsub x k g - g k

theorem lsub_congr {T : Type} [Sub T] {x : T} {k : Nat} {g g' : Nat → T} (h : ∀ i, i < k → g i = g' i) : lsub x k g = lsub x k g' := by
  induction k with
  | zero => rfl
  | succ k ih => rw [lsub, lsub, ih fun i hi => h i (by omega), h k (by omega)]

/-- The quotient, where there is one. -/
def quo {T : Type} [Zero T] [CDiv T] (x y : T) : T := match cdiv x y with | .ok z => z | _ => 0

/-- Division by `y` works. -/
def Divisor {T : Type} [Zero T] [CDiv T] (y : T) : Prop := ∀ x, cdiv x y = .ok (quo x y)

namespace Lin
open Ops
variable {T : Type} [Zero T] [One T] [Sub T] [Mul T] [CDiv T]

/-- Columns `< i` of `l` and rows `< i` of `u` are final. -/
structure LuExec (N : Nat) (a : Nat → Nat → T) (i : Nat) (l u : Nat → Nat → T) : Prop where
  l_low : ∀ j c, j < N → c < i → c ≤ j → l j c = lsub (a j c) c fun k => l j k * u k c
  l_up : ∀ j c, j < N → c < i → j < c → l j c = 0
  u_up : ∀ r c, r < i → c < N → r < c → u r c = lsub (quo (a r c) (l r r)) r fun k => quo (l r k * u k c) (l r r)
  u_one : ∀ r, r < i → u r r = 1
  u_low : ∀ r c, r < N → c < N → c < r → u r c = 0
  piv : ∀ r, r < i → r + 1 < N → Divisor (l r r)

omit [One T] [CDiv T] in
/-- Column `i` of `l`. -/
theorem lu_col_exec {N i : Nat} (hf : Fits N N) (hi : i < N) {A : MB T} {a : Nat → Nat → T} (hA : RepAt A N N a) (l u : Nat → Nat → T) :
    (forRange 0 N (Mat.ofFn N N l) fun j l =>
        if j < i then l.setAt j i 0
        else do
          let x ← A.at_ j i
          let l ← l.setAt j i x
          forRange 0 i l fun k l => do
            let x ← l.at_ j i
            let y ← l.at_ j k
            let z ← (Mat.ofFn N N u).at_ k i
            l.setAt j i (x - y * z)) =
      .ok (Mat.ofFn N N fun r c => if c = i then (if r < i then 0 else lsub (a r i) i fun k => l r k * u k i) else l r c) := by
  rw [forRange_eq (Nat.zero_le N) (fun j => Mat.ofFn N N fun r c =>
    if c = i ∧ r < j then (if r < i then 0 else lsub (a r i) i fun k => l r k * u k i) else l r c)]
  · congr 1; apply ofFn_congr; intro r c hr hc; apply if_congr (by omega) rfl rfl
  · apply ofFn_congr; intro r c hr hc; rw [if_neg (by omega)]
  · intro j _ hj
    by_cases hji : j < i
    · rw [if_pos hji, ofFn_setAt hf hj hi]
      congr 1; apply ofFn_congr; intro r c hr hc
      simp only [upd]
      by_cases h : r = j ∧ c = i
      · rw [if_pos h, if_pos (by omega), if_pos (by omega)]
      · rw [if_neg h]; apply if_congr (by omega) rfl rfl
    · rw [if_neg hji, hA.get j i hj hi, Res.ok_bind, ofFn_setAt hf hj hi, Res.ok_bind,
        forRange_eq (Nat.zero_le i) (fun k => Mat.ofFn N N (upd (fun r c =>
          if c = i ∧ r < j then (if r < i then 0 else lsub (a r i) i fun k => l r k * u k i) else l r c) j i
            (lsub (a j i) k fun m => l j m * u m i)))]
      · congr 1; apply ofFn_congr; intro r c hr hc
        simp only [upd]
        by_cases h : r = j ∧ c = i
        · obtain ⟨rfl, rfl⟩ := h
          rw [if_pos ⟨rfl, rfl⟩, if_pos (by omega), if_neg hji]
        · rw [if_neg h]; apply if_congr (by omega) rfl rfl
      · rfl
      · intro k _ hk
        rw [ofFn_at hf hj hi, Res.ok_bind, ofFn_at hf hj (by omega), Res.ok_bind, ofFn_at hf (by omega) hi, Res.ok_bind,
          ofFn_setAt hf hj hi]
        congr 1; apply ofFn_congr; intro r c hr hc
        simp only [upd]
        by_cases h : r = j ∧ c = i
        · rw [if_pos h, if_pos h, if_pos ⟨trivial, trivial⟩, if_neg (by omega), if_neg (by omega)]; rfl
        · rw [if_neg h, if_neg h, if_neg h]

/-- Row `i` of `u`, up to a column `m`, given a usable pivot if a quotient is needed. -/
theorem lu_row_exec {N i m : Nat} (hf : Fits N N) (hi : i < N) (hm : m ≤ N) {A : MB T} {a : Nat → Nat → T} (hA : RepAt A N N a) (l u : Nat → Nat → T)
    (hp : i + 1 < m → Divisor (l i i)) :
    (forRange 0 m (Mat.ofFn N N u) fun j u =>
        if j < i then u.setAt i j 0
        else if j = i then u.setAt i j 1
        else do
          let x ← A.at_ i j
          let p ← (Mat.ofFn N N l).at_ i i
          let q ← cdiv x p
          let u ← u.setAt i j q
          forRange 0 i u fun k u => do
            let x ← u.at_ i j
            let y ← (Mat.ofFn N N l).at_ i k
            let z ← u.at_ k j
            let p ← (Mat.ofFn N N l).at_ i i
            let q ← cdiv (y * z) p
            u.setAt i j (x - q)) =
      .ok (Mat.ofFn N N fun r c => if r = i ∧ c < m then
        (if c < i then 0 else if c = i then 1 else lsub (quo (a i c) (l i i)) i fun k => quo (l i k * u k c) (l i i)) else u r c) := by
  let g : Nat → T := fun c => if c < i then 0 else if c = i then 1 else lsub (quo (a i c) (l i i)) i fun k => quo (l i k * u k c) (l i i)
  rw [forRange_eq (Nat.zero_le m) (fun j => Mat.ofFn N N fun r c => if r = i ∧ c < j then g c else u r c)]
  · apply ofFn_congr; intro r c hr hc; rw [if_neg (by omega)]
  · intro j _ hj
    have hupd : ∀ x, x = g j → Mat.ofFn N N (upd (fun r c => if r = i ∧ c < j then g c else u r c) i j x) =
        Mat.ofFn N N (fun r c => if r = i ∧ c < j + 1 then g c else u r c) := by
      rintro x rfl
      apply ofFn_congr; intro r c hr hc
      simp only [upd]
      by_cases h : r = i ∧ c = j
      · obtain ⟨rfl, rfl⟩ := h
        rw [if_pos ⟨rfl, rfl⟩, if_pos (by omega)]
      · rw [if_neg h]; apply if_congr (by omega) rfl rfl
    by_cases h1 : j < i
    · rw [if_pos h1, ofFn_setAt hf hi (by omega), hupd]
      simp only [g]; rw [if_pos h1]
    · by_cases h2 : j = i
      · rw [if_neg h1, if_pos h2, ofFn_setAt hf hi (by omega), hupd]
        simp only [g]; rw [if_neg h1, if_pos h2]
      · have h0 : Divisor (l i i) := hp (by omega)
        rw [if_neg h1, if_neg h2, hA.get i j hi (by omega), Res.ok_bind, ofFn_at hf hi hi, Res.ok_bind, h0 _,
          Res.ok_bind, ofFn_setAt hf hi (by omega), Res.ok_bind,
          forRange_eq (Nat.zero_le i) (fun k => Mat.ofFn N N (upd (fun r c => if r = i ∧ c < j then g c else u r c) i j
            (lsub (quo (a i j) (l i i)) k fun m => quo (l i m * u m j) (l i i))))]
        · rw [hupd]
          simp only [g]; rw [if_neg h1, if_neg h2]
        · rfl
        · intro k _ hk
          rw [ofFn_at hf hi (by omega), Res.ok_bind, ofFn_at hf hi (by omega), Res.ok_bind, ofFn_at hf (by omega) (by omega),
            Res.ok_bind, Res.ok_bind, h0 _, Res.ok_bind, ofFn_setAt hf hi (by omega)]
          congr 1; apply ofFn_congr; intro r c hr hc
          simp only [upd]
          by_cases h : r = i ∧ c = j
          · rw [if_pos h, if_pos h, if_pos ⟨trivial, trivial⟩, if_neg (by omega), if_neg (by omega)]; rfl
          · rw [if_neg h, if_neg h, if_neg h]

/-- Columns `≤ i` of `l` and rows `< i` of `u` are final, and the pivot of column `i` cannot be divided by. -/
structure LuStop (N : Nat) (a : Nat → Nat → T) (i : Nat) (l u : Nat → Nat → T) : Prop where
  lt : i + 1 < N
  l_low : ∀ j c, j < N → c ≤ i → c ≤ j → l j c = lsub (a j c) c fun k => l j k * u k c
  u_up : ∀ r c, r < i → c < N → r < c → u r c = lsub (quo (a r c) (l r r)) r fun k => quo (l r k * u k c) (l r r)
  piv : ∀ r, r < i → Divisor (l r r)
  stop : ¬ Divisor (l i i)

/-- The decomposition either runs through or divides by zero at a pivot. -/
theorem lu_exec_stop {A : MB T} {N : Nat} {a : Nat → Nat → T} (h : RepAt A N N a)
    (hd : ∀ y : T, Divisor y ∨ ∀ x, cdiv x y = .ub .divZero) :
    (∃ l u, lu A = .ok (Mat.ofFn N N l, Mat.ofFn N N u) ∧ LuExec N a N l u) ∨
    (lu A = .ub .divZero ∧ ∃ i l u, LuStop N a i l u) := by
  have hf := h.fits
  unfold lu
  rw [isSquare_eq h, beq_self_eq_true, Bool.not_true, if_neg Bool.false_ne_true]
  dsimp only
  rw [h.rows, Mat.new_eq hf, Res.ok_bind, Res.ok_bind]
  have := forRange_inv_or (Nat.zero_le N)
    (fun i (s : Mat T × Mat T) => ∃ l u, s = (Mat.ofFn N N l, Mat.ofFn N N u) ∧ LuExec N a i l u)
    (Q := ∃ i l u, LuStop N a i l u) (k := .divZero)
    (s := (Mat.ofFn N N fun _ _ => 0, Mat.ofFn N N fun _ _ => 0))
    (body := fun i s => do
      let l ← forRange 0 N s.1 fun j l =>
        if j < i then l.setAt j i 0
        else do
          let x ← A.at_ j i
          let l ← l.setAt j i x
          forRange 0 i l fun k l => do
            let x ← l.at_ j i
            let y ← l.at_ j k
            let z ← s.2.at_ k i
            l.setAt j i (x - y * z)
      let u ← forRange 0 N s.2 fun j u =>
        if j < i then u.setAt i j 0
        else if j = i then u.setAt i j 1
        else do
          let x ← A.at_ i j
          let p ← l.at_ i i
          let q ← cdiv x p
          let u ← u.setAt i j q
          forRange 0 i u fun k u => do
            let x ← u.at_ i j
            let y ← l.at_ i k
            let z ← u.at_ k j
            let p ← l.at_ i i
            let q ← cdiv (y * z) p
            u.setAt i j (x - q)
      return (l, u))
    ⟨_, _, rfl, ⟨fun _ _ _ h => absurd h (by omega), fun _ _ _ h => absurd h (by omega), fun _ _ h => absurd h (by omega),
      fun _ h => absurd h (by omega), fun _ _ _ _ _ => rfl, fun _ h => absurd h (by omega)⟩⟩ ?_
  · rcases this with ⟨s, h1, l, u, rfl, h2⟩ | h1
    · exact .inl ⟨l, u, h1, h2⟩
    · exact .inr h1
  · rintro i s _ hi ⟨l, u, rfl, hinv⟩
    dsimp only
    rw [lu_col_exec hf hi h l u, Res.ok_bind]
    set l' : Nat → Nat → T := fun r c => if c = i then (if r < i then 0 else lsub (a r i) i fun k => l r k * u k i) else l r c with hl'
    have hl'ne : ∀ r c, c ≠ i → l' r c = l r c := fun r c hc => if_neg hc
    have hl'i : ∀ r, i ≤ r → l' r i = lsub (a r i) i fun k => l r k * u k i := fun r hr => by
      simp only [hl']; rw [if_pos trivial, if_neg (by omega)]
    have hl'0 : ∀ r, r < i → l' r i = 0 := fun r hr => by
      simp only [hl']; rw [if_pos trivial, if_pos hr]
    have hL1 : ∀ j c, j < N → c < i + 1 → c ≤ j → l' j c = lsub (a j c) c fun k => l' j k * u k c := by
      intro j c hj hc hcj
      rw [lsub_congr (g := fun k => l' j k * u k c) (g' := fun k => l j k * u k c) fun k hk => by rw [hl'ne j k (by omega)]]
      by_cases hci : c = i
      · subst hci; exact hl'i j hcj
      · rw [hl'ne j c hci]; exact hinv.l_low j c hj (by omega) hcj
    have hL2 : ∀ j c, j < N → c < i + 1 → j < c → l' j c = 0 := by
      intro j c hj hc hcj
      by_cases hci : c = i
      · subst hci; exact hl'0 j hcj
      · rw [hl'ne j c hci]; exact hinv.l_up j c hj (by omega) hcj
    by_cases hz : i + 1 < N ∧ ¬ Divisor (l' i i)
    · right
      refine ⟨?_, i, l', u, hz.1, fun j c hj hc hcj => hL1 j c hj (by omega) hcj, fun r c hr hc hrc => ?_, fun r hr => ?_, hz.2⟩
      rotate_left
      · rw [hl'ne r r (by omega), lsub_congr (g := fun k => quo (l' r k * u k c) (l r r)) (g' := fun k => quo (l r k * u k c) (l r r))
          fun k hk => by rw [hl'ne r k (by omega)]]
        exact hinv.u_up r c hr hc hrc
      · rw [hl'ne r r (by omega)]
        exact hinv.piv r hr (by omega)
      rw [forRange_append (Nat.zero_le (i + 1)) (by omega : i + 1 ≤ N), lu_row_exec hf hi (by omega) h l' u (by omega), Res.ok_bind,
        forRange_lt hz.1, if_neg (by omega), if_neg (by omega), h.get i (i + 1) hi hz.1, Res.ok_bind, ofFn_at hf hi hi,
        Res.ok_bind, (hd (l' i i)).resolve_left hz.2]
      rfl
    · left
      have hp : i + 1 < N → Divisor (l' i i) := fun h1 => by
        by_contra h2; exact hz ⟨h1, h2⟩
      rw [lu_row_exec hf hi (Nat.le_refl N) h l' u hp, Res.ok_bind]
      refine ⟨_, rfl, l', _, rfl, ?_⟩
      set u' : Nat → Nat → T := fun r c => if r = i ∧ c < N then
        (if c < i then 0 else if c = i then 1 else lsub (quo (a i c) (l' i i)) i fun k => quo (l' i k * u k c) (l' i i)) else u r c with hu'
      have hu'ne : ∀ r c, r ≠ i → u' r c = u r c := fun r c hr => if_neg (by omega)
      constructor
      · intro j c hj hc hcj
        rw [hL1 j c hj hc hcj]
        exact lsub_congr fun k hk => by rw [hu'ne k c (by omega)]
      · exact hL2
      · intro r c hr hc hrc
        rw [lsub_congr (g := fun k => quo (l' r k * u' k c) (l' r r)) (g' := fun k => quo (l' r k * u k c) (l' r r))
          fun k hk => by rw [hu'ne k c (by omega)]]
        by_cases hri : r = i
        · subst hri
          simp only [hu']
          rw [if_pos ⟨trivial, hc⟩, if_neg (by omega), if_neg (by omega)]
        · rw [hu'ne r c hri, hl'ne r r hri, lsub_congr (g := fun k => quo (l' r k * u k c) (l r r)) (g' := fun k => quo (l r k * u k c) (l r r))
            fun k hk => by rw [hl'ne r k (by omega)]]
          exact hinv.u_up r c (by omega) hc hrc
      · intro r hr
        by_cases hri : r = i
        · subst hri; simp only [hu']; rw [if_pos ⟨trivial, hi⟩, if_neg (by omega), if_pos trivial]
        · rw [hu'ne r r hri]; exact hinv.u_one r (by omega)
      · intro r c hr hc hcr
        by_cases hri : r = i
        · subst hri; simp only [hu']; rw [if_pos ⟨trivial, hc⟩, if_pos hcr]
        · rw [hu'ne r c hri]; exact hinv.u_low r c hr hc hcr
      · intro r hr hrN
        by_cases hri : r = i
        · subst hri; exact hp hrN
        · rw [hl'ne r r hri]; exact hinv.piv r (by omega) hrN

/-- The decomposition either runs through or divides by zero. -/
theorem lu_exec {A : MB T} {N : Nat} {a : Nat → Nat → T} (h : RepAt A N N a)
    (hd : ∀ y : T, Divisor y ∨ ∀ x, cdiv x y = .ub .divZero) :
    (∃ l u, lu A = .ok (Mat.ofFn N N l, Mat.ofFn N N u) ∧ LuExec N a N l u) ∨
    lu A = .ub .divZero :=
  (lu_exec_stop h hd).imp_right And.left

end Lin
end Malg
