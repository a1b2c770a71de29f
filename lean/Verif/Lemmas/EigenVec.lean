import Verif.Lemmas.QrIter
/-!
# The run of `eigenvectorUpper`
-/
namespace Malg
open Matrix
namespace Eigen
open Cpx
variable {K : Type} [Field K] [LinearOrder K] [IsStrictOrderedRing K] {n : Nat}
variable {eps : K} {sqrt : K → K} {abs : Cpx K → K} (hs : ∀ x, 0 ≤ x → 0 ≤ sqrt x ∧ sqrt x * sqrt x = x) (ha : IsAbs abs)
  (he : 0 < eps)

/-- The right-hand side of row `r` in the back substitution for column `L`. -/
def backRhs (m : Nat → Nat → Cpx K) (L : Nat) (w : Nat → Cpx K) (r : Nat) : Cpx K := -∑ j ∈ Finset.Ico (r + 1) (L + 1), m r j * w j

/-- What the back substitution for column `L` has established when the rows from `lo` on are done. -/
structure BackInv (eps : K) (abs : Cpx K → K) (m : Nat → Nat → Cpx K) (L lo : Nat) (w : Nat → Cpx K) (ok : Bool) : Prop where
  one : w L = 1
  below : ∀ r, L < r → w r = 0
  above : ∀ r, r < lo → w r = 0
  near : ∀ r, lo ≤ r → r < L → abs (m r r - m L L) < eps → w r = 0
  far : ∀ r, lo ≤ r → r < L → ¬ abs (m r r - m L L) < eps → w r * (m r r - m L L) = backRhs m L w r
  flag : ok = true ↔ ∀ r, lo ≤ r → r < L → abs (m r r - m L L) < eps → ¬ eps < abs (backRhs m L w r)

theorem backRhs_update (m : Nat → Nat → Cpx K) (L : Nat) (w : Nat → Cpx K) {i r : Nat} (h : i ≤ r) (x : Cpx K) :
    backRhs m L (Function.update w i x) r = backRhs m L w r := by
  unfold backRhs
  congr 1
  refine Finset.sum_congr rfl fun j hj => ?_
  rw [Finset.mem_Ico] at hj
  rw [Function.update_of_ne (by omega)]

theorem BackInv.start (m : Nat → Nat → Cpx K) (L : Nat) : BackInv eps abs m L L (Function.update (fun _ => 0) L 1) true where
  one := Function.update_self ..
  below r h := Function.update_of_ne (by omega) ..
  above r h := Function.update_of_ne (by omega) ..
  near r h1 h2 := by omega
  far r h1 h2 := by omega
  flag := ⟨fun _ r h1 h2 => by omega, fun _ => rfl⟩

/-- Processing one more row. -/
theorem BackInv.step {m : Nat → Nat → Cpx K} {L i : Nat} {w : Nat → Cpx K} {ok ok' : Bool} (h : BackInv eps abs m L (i + 1) w ok)
    (hi : i < L) {x : Cpx K} (h1 : abs (m i i - m L L) < eps → x = 0 ∧ (ok' = true ↔ ok = true ∧ ¬ eps < abs (backRhs m L w i)))
    (h2 : ¬ abs (m i i - m L L) < eps → x * (m i i - m L L) = backRhs m L w i ∧ ok' = ok) :
    BackInv eps abs m L i (Function.update w i x) ok' where
  one := by rw [Function.update_of_ne (by omega), h.one]
  below r hr := by rw [Function.update_of_ne (by omega), h.below r hr]
  above r hr := by rw [Function.update_of_ne (by omega), h.above r (by omega)]
  near r hr hr' hn := by
    rcases Nat.eq_or_lt_of_le hr with rfl | hr
    · rw [Function.update_self, (h1 hn).1]
    · rw [Function.update_of_ne (by omega), h.near r (by omega) hr' hn]
  far r hr hr' hn := by
    rw [backRhs_update m L w hr]
    rcases Nat.eq_or_lt_of_le hr with rfl | hr
    · rw [Function.update_self, (h2 hn).1]
    · rw [Function.update_of_ne (by omega), h.far r (by omega) hr' hn]
  flag := by
    have key : (∀ r, i ≤ r → r < L → abs (m r r - m L L) < eps → ¬ eps < abs (backRhs m L (Function.update w i x) r)) ↔
        (abs (m i i - m L L) < eps → ¬ eps < abs (backRhs m L w i)) ∧ ok = true := by
      rw [h.flag]
      constructor
      · intro hh
        refine ⟨fun hn => ?_, fun r h3 h4 h5 => ?_⟩
        · have := hh i (Nat.le_refl i) hi hn
          rwa [backRhs_update m L w (Nat.le_refl i)] at this
        · have := hh r (by omega) h4 h5
          rwa [backRhs_update m L w (by omega)] at this
      · rintro ⟨h3, h4⟩ r h5 h6 h7
        rw [backRhs_update m L w h5]
        rcases Nat.eq_or_lt_of_le h5 with rfl | h5
        · exact h3 h7
        · exact h4 r (by omega) h6 h7
    rw [key]
    by_cases hn : abs (m i i - m L L) < eps
    · rw [(h1 hn).2, and_comm]
      exact and_congr_left' ⟨fun h _ => h, fun h => h hn⟩
    · rw [(h2 hn).2]
      exact ⟨fun h => ⟨fun h' => absurd h' hn, h⟩, fun h => h.2⟩

include ha he in
theorem ne_zero_of_far {z : Cpx K} (h : ¬ abs z < eps) : z ≠ 0 := by
  rintro rfl
  have h1 := (ha 0).2
  rw [Cpx.norm_zero, mul_self_eq_zero] at h1
  rw [h1] at h
  exact h he

include ha he in
theorem eigenBack_run (hf : Fits n n) {m tt : Nat → Nat → Cpx K} {L : Nat} (hL : L < n)
    (ho : ∀ r c, r < n → c < n → r ≠ c → tt r c = m r c) (hd : ∀ r, r < n → tt r r = m r r - m L L) :
    ∃ w ok, eigenBack eps abs (Mat.ofFn n n tt) L (vtab n (Function.update (fun _ => 0) L 1)) = .ok (vtab n w, ok) ∧
      BackInv eps abs m L 0 w ok := by
  unfold eigenBack
  obtain ⟨s, e, w, ok, rfl, h⟩ := forRange_inv (Nat.zero_le L)
    (fun t s => ∃ w ok, s = (vtab n w, ok) ∧ BackInv eps abs m L (L - t) w ok)
    (s := (vtab n (Function.update (fun _ => 0) L 1), true))
    (body := fun t (s : List (Cpx K) × Bool) => do
      let (V, ok) := s
      let i := L - 1 - t
      let V ← vset V i 0
      let V ← forRange (i + 1) (L + 1) V fun j V => do
        let x ← vget V i
        let a ← (Mat.ofFn n n tt).at_ i j
        let y ← vget V j
        vset V i (x - a * y)
      let d ← (Mat.ofFn n n tt).at_ i i
      let x ← vget V i
      if abs d < eps then do
        let V ← vset V i 0
        return (V, if eps < abs x then false else ok)
      else do
        let q ← divC x d
        let V ← vset V i q
        return (V, ok)) ⟨_, _, rfl, by rw [Nat.sub_zero]; exact .start m L⟩ (by
      rintro t s - ht ⟨w, ok, rfl, h⟩
      dsimp only
      obtain ⟨i, hi⟩ : ∃ i, i = L - 1 - t := ⟨_, rfl⟩
      have hiL : i < L := by omega
      have hin : i < n := by omega
      rw [← hi, show L - (t + 1) = i by omega, vset_vtab hin, Res.ok_bind]
      rw [show L - t = i + 1 by omega] at h
      rw [forRange_eq (by omega) (fun j => vtab n (Function.update w i (-∑ j ∈ Finset.Ico (i + 1) j, m i j * w j)))
        (by simp) (by
        intro j h1 h2
        have hjn : j < n := by omega
        rw [vget_vtab hin, Res.ok_bind, ofFn_at hf hin hjn, Res.ok_bind, vget_vtab hjn, Res.ok_bind, vset_vtab hin,
          Function.update_self, Function.update_idem, Function.update_of_ne (by omega), Finset.sum_Ico_succ_top (by omega),
          ho i j hin hjn (by omega), neg_add, ← sub_eq_add_neg])]
      rw [Res.ok_bind, ofFn_at hf hin hin, Res.ok_bind, vget_vtab hin, Res.ok_bind, Function.update_self, hd i hin]
      change ∃ s', (if abs (m i i - m L L) < eps then _ else _) = _ ∧ _
      by_cases hn : abs (m i i - m L L) < eps
      · rw [if_pos hn, vset_vtab hin, Res.ok_bind, Function.update_idem]
        refine ⟨_, rfl, _, _, rfl, h.step hiL (fun _ => ⟨rfl, ?_⟩) (fun h' => absurd hn h')⟩
        rw [show -∑ j ∈ Finset.Ico (i + 1) (L + 1), m i j * w j = backRhs m L w i from rfl]
        by_cases hb : eps < abs (backRhs m L w i)
        · simp [hb]
        · simp [hb]
      · have hz := ne_zero_of_far ha he hn
        rw [if_neg hn, divC_ok _ hz, Res.ok_bind, vset_vtab hin, Res.ok_bind, Function.update_idem]
        refine ⟨_, rfl, _, _, rfl, h.step hiL (fun h' => absurd h' hn) (fun _ => ⟨?_, rfl⟩)⟩
        rw [div_mul_cancel₀ _ hz]
        rfl)
  rw [Nat.sub_self] at h
  exact ⟨w, ok, e, h⟩

omit [LinearOrder K] [IsStrictOrderedRing K] in
theorem squareNormVecC_eq (w : Nat → Cpx K) :
    squareNormVecC sqrt (vtab n w) = .ok (sqrt (∑ r ∈ Finset.range n, norm (w r))) := by
  unfold squareNormVecC
  rw [vtab_length, forRange_eq (Nat.zero_le n) (fun i => ∑ r ∈ Finset.range i, norm (w r)) (by simp)]
  · rfl
  · intro i _ hi
    rw [vget_vtab hi, Res.ok_bind, Finset.sum_range_succ]
    rfl

/-- Column `L` holds the normalised result of a successful back substitution. -/
def ColOk (n : Nat) (eps : K) (abs : Cpx K → K) (m e : Nat → Nat → Cpx K) (L : Nat) : Prop :=
  ∃ w len, BackInv eps abs m L 0 w true ∧ 0 < len ∧ len * len = (∑ r ∈ Finset.range n, norm (w r)) ∧
    ∀ r, r < n → e r L = w r / ofReal len

/-- Column `L` is zero, its back substitution failed. -/
def ColBad (n : Nat) (eps : K) (abs : Cpx K → K) (m e : Nat → Nat → Cpx K) (L : Nat) : Prop :=
  (∃ w, BackInv eps abs m L 0 w false) ∧ ∀ r, r < n → e r L = 0

omit [IsStrictOrderedRing K] in
theorem sum_pos_of {w : Nat → Cpx K} {L : Nat} (hL : L < n) (h : w L = 1) [IsStrictOrderedRing K] :
    1 ≤ ∑ r ∈ Finset.range n, norm (w r) := by
  have := Finset.single_le_sum (f := fun r => norm (w r)) (fun r _ => norm_nonneg (w r)) (Finset.mem_range.2 hL)
  simpa only [h, Cpx.norm_one] using this

include hs ha he in
theorem eigenStep_run (hf : Fits n n) {m tt e : Nat → Nat → Cpx K} {L : Nat} (hL : L < n) (fs : Bool)
    (ho : ∀ r c, r < n → c < n → r ≠ c → tt r c = m r c) (hz : ∀ r, r < n → e r L = 0) :
    ∃ e' tt' fs', eigenStep eps sqrt abs (Mat.ofFn n n m) n L (Mat.ofFn n n e, Mat.ofFn n n tt, fs) =
        .ok (Mat.ofFn n n e', Mat.ofFn n n tt', fs') ∧ (∀ r c, r < n → c < n → r ≠ c → tt' r c = m r c) ∧
      (∀ r c, r < n → c < n → c ≠ L → e' r c = e r c) ∧
      ((ColOk n eps abs m e' L ∧ fs' = fs) ∨ (ColBad n eps abs m e' L ∧ fs' = false)) := by
  have hna : n < allocMax := Nat.lt_of_le_of_lt (Nat.le_mul_of_pos_right n (by omega)) hf.1
  unfold eigenStep
  dsimp only
  rw [vnew_ok hna, Res.ok_bind, ofFn_at hf hL hL, Res.ok_bind,
    forRange_eq (Nat.zero_le n) (fun k => Mat.ofFn n n fun r c => if r = c ∧ r < k then m r r - m L L else tt r c)
      (by simp) (by
      intro k _ hk
      rw [ofFn_at hf hk hk, Res.ok_bind, ofFn_setAt hf hk hk]
      congr 1
      apply ofFn_congr
      intro r c hr hc
      unfold upd
      by_cases h1 : r = k ∧ c = k
      · rw [if_pos h1, if_pos (by omega), h1.1]
      · rw [if_neg h1]
        apply if_congr _ rfl rfl
        omega), Res.ok_bind, replicate_eq_vtab, vset_vtab hL, Res.ok_bind]
  have ho' : ∀ r c, r < n → c < n → r ≠ c → (if r = c ∧ r < n then m r r - m L L else tt r c) = m r c := by
    intro r c hr hc hrc
    rw [if_neg (by omega), ho r c hr hc hrc]
  obtain ⟨w, ok, eb, hb⟩ := eigenBack_run (tt := fun r c => if r = c ∧ r < n then m r r - m L L else tt r c) ha he hf hL ho' (by
    intro r hr
    rw [if_pos ⟨rfl, hr⟩])
  rw [eb, Res.ok_bind]
  dsimp only
  cases ok with
  | true =>
    rw [if_pos rfl, squareNormVecC_eq, Res.ok_bind]
    have hS := sum_pos_of hL hb.one
    obtain ⟨l0, ll⟩ := hs _ (zero_le_one.trans hS)
    generalize sqrt (∑ r ∈ Finset.range n, norm (w r)) = len at l0 ll
    have hl : len ≠ 0 := by
      rintro rfl
      rw [mul_zero] at ll
      rw [← ll] at hS
      exact absurd hS (not_le.2 one_pos)
    rw [forRange_eq (Nat.zero_le (L + 1)) (fun k => Mat.ofFn n n fun r c => if c = L ∧ r < k then w r / ofReal len else e r c)
      (by simp) (by
      intro i _ hi
      have hin : i < n := by omega
      rw [vget_vtab hin, Res.ok_bind, divR_ok _ hl, Res.ok_bind, ofFn_setAt hf hin hL]
      congr 1
      apply ofFn_congr
      intro r c hr hc
      unfold upd
      by_cases h1 : r = i ∧ c = L
      · rw [if_pos h1, if_pos (by omega), h1.1]
      · rw [if_neg h1]
        apply if_congr _ rfl rfl
        omega), Res.ok_bind]
    refine ⟨_, _, _, rfl, ho', fun r c _ _ hc => if_neg (by omega), .inl ⟨⟨w, len, hb, lt_of_le_of_ne l0 hl.symm, ll, ?_⟩, rfl⟩⟩
    intro r hr
    dsimp only
    by_cases hrL : r < L + 1
    · rw [if_pos ⟨rfl, hrL⟩]
    · rw [if_neg (by omega), hz r hr, hb.below r (by omega), zero_div]
  | false =>
    rw [if_neg (by decide), forRange_eq (Nat.zero_le (L + 1)) (fun _ => Mat.ofFn n n e) rfl (by
      intro i _ hi
      have hin : i < n := by omega
      rw [ofFn_setAt hf hin hL]
      congr 1
      apply ofFn_congr
      intro r c hr hc
      unfold upd
      by_cases h1 : r = i ∧ c = L
      · rw [if_pos h1, h1.2, hz r hr]
      · rw [if_neg h1]), Res.ok_bind]
    exact ⟨_, _, _, rfl, ho', fun r c _ _ _ => rfl, .inr ⟨⟨⟨w, hb⟩, hz⟩, rfl⟩⟩

theorem ColOk.congr {m e e' : Nat → Nat → Cpx K} {L : Nat} (h : ColOk n eps abs m e L) (he : ∀ r, r < n → e' r L = e r L) :
    ColOk n eps abs m e' L := by
  obtain ⟨w, len, h1, h2, h3, h4⟩ := h
  exact ⟨w, len, h1, h2, h3, fun r hr => by rw [he r hr, h4 r hr]⟩

theorem ColBad.congr {m e e' : Nat → Nat → Cpx K} {L : Nat} (h : ColBad n eps abs m e L) (he : ∀ r, r < n → e' r L = e r L) :
    ColBad n eps abs m e' L := ⟨h.1, fun r hr => by rw [he r hr, h.2 r hr]⟩

include hs ha he in
/-- The result of `eigenvectorUpper`. -/
theorem eigenvectorUpper_run (hf : Fits n n) (hn31 : n < 2 ^ 31) (m : Nat → Nat → Cpx K) :
    ∃ e fs, eigenvectorUpper eps sqrt abs (Mat.ofFn n n m) = .ok (Mat.ofFn n n e, fs) ∧
      ((fs = true ∧ ∀ c, c < n → ColOk n eps abs m e c) ∨
       (fs = false ∧ (∀ c, c < n → ColOk n eps abs m e c ∨ ColBad n eps abs m e c) ∧ ∃ c, c < n ∧ ColBad n eps abs m e c)) := by
  unfold eigenvectorUpper
  rw [ofFn_rows, intDim, if_pos hn31, Res.ok_bind, Mat.new_eq hf, Res.ok_bind]
  obtain ⟨s, e1, e, tt, fs, rfl, -, -, h⟩ := forRange_inv (Nat.zero_le n)
    (fun t s => ∃ e tt fs, s = (Mat.ofFn n n e, Mat.ofFn n n tt, fs) ∧ (∀ r c, r < n → c < n → r ≠ c → tt r c = m r c) ∧
      (∀ r c, r < n → c < n - t → e r c = 0) ∧
      ((fs = true ∧ ∀ c, n - t ≤ c → c < n → ColOk n eps abs m e c) ∨
       (fs = false ∧ (∀ c, n - t ≤ c → c < n → ColOk n eps abs m e c ∨ ColBad n eps abs m e c) ∧
          ∃ c, n - t ≤ c ∧ c < n ∧ ColBad n eps abs m e c)))
    (s := (Mat.ofFn n n fun _ _ => 0, Mat.ofFn n n m, true))
    (body := fun t => eigenStep eps sqrt abs (Mat.ofFn n n m) n (n - 1 - t))
    ⟨_, _, _, rfl, fun _ _ _ _ _ => rfl, fun _ _ _ _ => rfl, .inl ⟨rfl, fun c h1 h2 => by omega⟩⟩ (by
    rintro t s - ht ⟨e, tt, fs, rfl, ho, hz, h⟩
    have hL : n - 1 - t < n := by omega
    obtain ⟨e', tt', fs', er, ho', hk, hc⟩ := eigenStep_run hs ha he hf hL fs ho (fun r hr => hz r _ hr (by omega))
    refine ⟨_, er, e', tt', fs', rfl, ho', fun r c hr hc => ?_, ?_⟩
    · rw [hk r c hr (by omega) (by omega), hz r c hr (by omega)]
    · have keep : ∀ c, n - t ≤ c → c < n → ∀ r, r < n → e' r c = e r c := fun c h1 h2 r hr => hk r c hr h2 (by omega)
      have split : ∀ c, n - (t + 1) ≤ c → c = n - 1 - t ∨ n - t ≤ c := fun c hc => by omega
      rcases hc with ⟨hc, rfl⟩ | ⟨hc, rfl⟩
      · rcases h with ⟨rfl, h⟩ | ⟨rfl, h, c0, h0, h0', h0''⟩
        · refine .inl ⟨rfl, fun c h1 h2 => ?_⟩
          rcases split c h1 with rfl | h1
          · exact hc
          · exact (h c h1 h2).congr (keep c h1 h2)
        · refine .inr ⟨rfl, fun c h1 h2 => ?_, c0, by omega, h0', h0''.congr (keep c0 h0 h0')⟩
          rcases split c h1 with rfl | h1
          · exact .inl hc
          · exact (h c h1 h2).imp (fun h => h.congr (keep c h1 h2)) (fun h => h.congr (keep c h1 h2))
      · refine .inr ⟨rfl, fun c h1 h2 => ?_, _, by omega, hL, hc⟩
        rcases split c h1 with rfl | h1
        · exact .inr hc
        · rcases h with ⟨-, h⟩ | ⟨-, h, -⟩
          · exact .inl ((h c h1 h2).congr (keep c h1 h2))
          · exact (h c h1 h2).imp (fun h => h.congr (keep c h1 h2)) (fun h => h.congr (keep c h1 h2)))
  rw [e1, Res.ok_bind]
  refine ⟨e, fs, rfl, ?_⟩
  rw [Nat.sub_self] at h
  rcases h with ⟨h1, h2⟩ | ⟨h1, h2, c, -, h3, h4⟩
  · exact .inl ⟨h1, fun c hc => h2 c (Nat.zero_le c) hc⟩
  · exact .inr ⟨h1, fun c hc => h2 c (Nat.zero_le c) hc, c, h3, h4⟩

/-! ### What the columns mean -/

theorem row_sum {m : Nat → Nat → Cpx K} {w : Nat → Cpx K} {r L : Nat} (hm : ∀ j, j < r → m r j * w j = 0) (hw : ∀ j, L < j → w j = 0)
    (hr : r ≤ L) (hL : L < n) : ∑ j ∈ Finset.range n, m r j * w j = m r r * w r - backRhs m L w r := by
  have h1 : ∑ j ∈ Finset.Ico r (L + 1), m r j * w j = ∑ j ∈ Finset.range n, m r j * w j := by
    apply Finset.sum_subset
    · intro j hj
      rw [Finset.mem_Ico] at hj
      rw [Finset.mem_range]
      omega
    · intro j hj hj'
      rw [Finset.mem_Ico] at hj'
      rcases Nat.lt_or_ge j r with h | h
      · exact hm j h
      · rw [hw j (by omega), mul_zero]
  rw [← h1, Finset.sum_eq_sum_Ico_succ_bot (by omega), backRhs, sub_neg_eq_add]

/-- How far `w` is from solving row `r`. -/
theorem row_defect {M : Matrix (Fin n) (Fin n) (Cpx K)} (hM : ∀ r c : Fin n, c.val < r.val → M r c = 0) {w : Nat → Cpx K} {L : Fin n}
    {ok : Bool} (h : BackInv eps abs (tab M) L 0 w ok) (r : Fin n) :
    (M *ᵥ fun j => w j) r - M L L * w r =
      if r.val < L.val ∧ abs (M r r - M L L) < eps then -backRhs (tab M) L w r else 0 := by
  have ht : ∀ i j : Fin n, tab M i j = M i j := fun i j => tab_lt M i.2 j.2
  have hsum : (M *ᵥ fun j => w j) r = ∑ j ∈ Finset.range n, tab M r j * w j := by
    rw [sum_range_fin]
    show ∑ j, M r j * w j = _
    refine Finset.sum_congr rfl fun j _ => ?_
    rw [ht]
  have hlow : ∀ j, j < r.val → tab M r j * w j = 0 := fun j hj => by
    have := ht r ⟨j, by omega⟩
    dsimp only at this
    rw [this, hM r ⟨j, by omega⟩ hj, zero_mul]
  rcases Nat.lt_trichotomy r.val L.val with hr | hr | hr
  · rw [hsum, row_sum hlow h.below hr.le L.2, ht]
    have h1 := h.near r (Nat.zero_le _) hr
    have h2 := h.far r (Nat.zero_le _) hr
    rw [ht, ht] at h1 h2
    by_cases hn : abs (M r r - M L L) < eps
    · rw [if_pos ⟨hr, hn⟩, h1 hn]
      ring
    · rw [if_neg (fun h => hn h.2), ← h2 hn]
      ring
  · rw [if_neg (by omega), hsum, row_sum hlow h.below hr.le L.2, ht, backRhs, hr, Finset.Ico_self, Finset.sum_empty, neg_zero, sub_zero,
      Fin.ext hr, sub_self]
  · rw [if_neg (by omega), hsum, h.below r hr, mul_zero, sub_zero]
    refine Finset.sum_eq_zero fun j hj => ?_
    rcases Nat.lt_or_ge j r with hj' | hj'
    · exact hlow j hj'
    · rw [h.below j (by omega), mul_zero]

/-- A polynomial in a diagonalisable upper triangular matrix. -/
theorem exists_poly {M S : Matrix (Fin n) (Fin n) (Cpx K)} (hM : ∀ r c : Fin n, c.val < r.val → M r c = 0) {d : Fin n → Cpx K}
    (hS : M * S = S * Matrix.diagonal d) (l : List (Cpx K)) : ∃ G : Matrix (Fin n) (Fin n) (Cpx K),
      (∀ r c : Fin n, c.val < r.val → G r c = 0) ∧ (∀ r, G r r = (l.map (M r r - ·)).prod) ∧
      G * S = S * Matrix.diagonal (fun i => (l.map (d i - ·)).prod) := by
  induction l with
  | nil =>
    refine ⟨1, fun r c h => Matrix.one_apply_ne (by rintro rfl; omega), fun r => Matrix.one_apply_eq r, ?_⟩
    simp
  | cons mu l ih =>
    obtain ⟨G, h1, h2, h3⟩ := ih
    have hu : ∀ r c : Fin n, c.val < r.val → (M - mu • (1 : Matrix (Fin n) (Fin n) (Cpx K))) r c = 0 := fun r c h => by
      rw [Matrix.sub_apply, hM r c h, Matrix.smul_apply, Matrix.one_apply_ne (by rintro rfl; omega), smul_zero, sub_zero]
    refine ⟨(M - mu • 1) * G, fun r c h => ?_, fun r => ?_, ?_⟩
    · rw [Matrix.mul_apply]
      refine Finset.sum_eq_zero fun j _ => ?_
      rcases Nat.lt_or_ge j.val r.val with hj | hj
      · rw [hu r j hj, zero_mul]
      · rw [h1 j c (by omega), mul_zero]
    · rw [Matrix.mul_apply, Finset.sum_eq_single r]
      · rw [List.map_cons, List.prod_cons, h2, Matrix.sub_apply, Matrix.smul_apply, Matrix.one_apply_eq, smul_eq_mul, mul_one]
      · intro j _ hj
        rcases Nat.lt_or_ge j.val r.val with hj' | hj'
        · rw [hu r j hj', zero_mul]
        · rw [h1 j r (by have : j.val ≠ r.val := fun h => hj (Fin.ext h)
                         omega), mul_zero]
      · intro h
        exact absurd (Finset.mem_univ r) h
    · have e : (M - mu • 1) * S = S * Matrix.diagonal (fun i => d i - mu) := by
        rw [Matrix.sub_mul, hS, Matrix.smul_mul, Matrix.one_mul]
        apply Matrix.ext
        intro r c
        rw [Matrix.sub_apply, Matrix.mul_diagonal, Matrix.mul_diagonal, Matrix.smul_apply, smul_eq_mul]
        ring
      rw [Matrix.mul_assoc, h3, ← Matrix.mul_assoc, e, Matrix.mul_assoc, Matrix.diagonal_mul_diagonal]
      simp only [List.map_cons, List.prod_cons]

/-- Back substitution succeeds on a diagonalisable matrix: every row that cannot be solved is already satisfied. -/
theorem back_complete {M S S' : Matrix (Fin n) (Fin n) (Cpx K)} (hM : ∀ r c : Fin n, c.val < r.val → M r c = 0) {d : Fin n → Cpx K}
    (hS : M * S = S * Matrix.diagonal d) (hS' : S * S' = 1) {w : Nat → Cpx K} {L : Fin n} {ok : Bool}
    (hg : ∀ r, abs (M r r - M L L) < eps → M r r = M L L)
    (h : BackInv eps abs (tab M) L 0 w ok) :
    ∀ k (r : Fin n), r.val < L.val → L.val - r.val = k → abs (M r r - M L L) < eps → backRhs (tab M) L w r = 0 := by
  intro k
  induction k using Nat.strong_induction_on with
  | _ k ih =>
    intro r hr hk hn
    classical
    obtain ⟨G, g1, g2, g3⟩ := exists_poly hM hS ((Finset.univ.image d).erase (M L L)).toList
    have hGN : G * (M - M L L • (1 : Matrix (Fin n) (Fin n) (Cpx K))) = 0 := by
      have e : G * (M - M L L • (1 : Matrix (Fin n) (Fin n) (Cpx K))) * S = 0 := by
        have e1 : (M - M L L • 1) * S = S * Matrix.diagonal (fun i => d i - M L L) := by
          rw [Matrix.sub_mul, hS, Matrix.smul_mul, Matrix.one_mul]
          apply Matrix.ext
          intro r c
          rw [Matrix.sub_apply, Matrix.mul_diagonal, Matrix.mul_diagonal, Matrix.smul_apply, smul_eq_mul]
          ring
        rw [Matrix.mul_assoc, e1, ← Matrix.mul_assoc, g3, Matrix.mul_assoc, Matrix.diagonal_mul_diagonal]
        have : (fun i => (List.map (d i - ·) ((Finset.univ.image d).erase (M L L)).toList).prod * (d i - M L L)) = 0 := by
          funext i
          by_cases hi : d i = M L L
          · rw [hi, sub_self, mul_zero]
            rfl
          · rw [List.prod_eq_zero, zero_mul]
            · rfl
            · rw [List.mem_map]
              refine ⟨d i, ?_, sub_self _⟩
              rw [Finset.mem_toList, Finset.mem_erase]
              exact ⟨hi, Finset.mem_image_of_mem _ (Finset.mem_univ i)⟩
        rw [this, Matrix.diagonal_zero', Matrix.mul_zero]
      have := congrArg (· * S') e
      simpa only [Matrix.mul_assoc, hS', Matrix.mul_one, Matrix.zero_mul] using this
    have hGr : G r r ≠ 0 := by
      rw [g2, hg r hn]
      intro h0
      rw [List.prod_eq_zero_iff, List.mem_map] at h0
      obtain ⟨mu, h1, h2⟩ := h0
      rw [Finset.mem_toList, Finset.mem_erase] at h1
      exact h1.1 (sub_eq_zero.1 h2).symm
    -- the solution with the rows above `r` cut off
    let w' : Nat → Cpx K := fun j => if j < r.val then 0 else w j
    have hb' : ∀ s : Fin n, r.val ≤ s.val → (M *ᵥ fun j : Fin n => w' j) s = (M *ᵥ fun j : Fin n => w j) s := by
      intro s hs
      show ∑ j : Fin n, M s j * w' j = ∑ j : Fin n, M s j * w j
      refine Finset.sum_congr rfl fun j _ => ?_
      by_cases hj : j.val < r.val
      · rw [hM s j (by omega), zero_mul, zero_mul]
      · show M s j * (if j.val < r.val then 0 else w j) = _
        rw [if_neg hj]
    have hz : ∀ s : Fin n, r.val ≤ s.val → ((M - M L L • (1 : Matrix (Fin n) (Fin n) (Cpx K))) *ᵥ fun j : Fin n => w' j) s =
        if s.val < L.val ∧ abs (M s s - M L L) < eps then -backRhs (tab M) L w s else 0 := by
      intro s hs
      rw [Matrix.sub_mulVec, Pi.sub_apply, hb' s hs, Matrix.smul_mulVec, Matrix.one_mulVec, Pi.smul_apply, smul_eq_mul,
        show w' s = w s from if_neg (by omega), row_defect hM h]
    have h0 : (G *ᵥ ((M - M L L • (1 : Matrix (Fin n) (Fin n) (Cpx K))) *ᵥ fun j : Fin n => w' j)) r = 0 := by
      rw [Matrix.mulVec_mulVec, hGN, Matrix.zero_mulVec]
      rfl
    have h1 : (G *ᵥ ((M - M L L • (1 : Matrix (Fin n) (Fin n) (Cpx K))) *ᵥ fun j : Fin n => w' j)) r =
        G r r * -backRhs (tab M) L w r := by
      show ∑ j, G r j * _ = _
      rw [Finset.sum_eq_single r]
      · rw [hz r (Nat.le_refl _), if_pos ⟨hr, hn⟩]
      · intro j _ hj
        rcases Nat.lt_or_ge j.val r.val with hj' | hj'
        · rw [g1 r j hj', zero_mul]
        · rw [hz j hj']
          have hjr : r.val < j.val := by
            have : j.val ≠ r.val := fun h => hj (Fin.ext h)
            omega
          split
          · rename_i hc
            rw [ih (L.val - j.val) (by omega) j hc.1 rfl hc.2, neg_zero, mul_zero]
          · rw [mul_zero]
      · intro h
        exact absurd (Finset.mem_univ r) h
    rw [h1] at h0
    exact neg_eq_zero.1 ((mul_eq_zero.1 h0).resolve_left hGr)

end Eigen
end Malg
