import Verif.Props.Dominant
import Verif.Props.FloatElim
/-!
# Property C137: `determinant` of diagonally dominant matrices in floating point
-/
namespace Malg
open Ops Lin

section
variable {T K : Type} [Zero T] [One T] [Add T] [Sub T] [Mul T] [Neg T] [CDiv T] [Field K] [LinearOrder K] [IsStrictOrderedRing K]
  {val : T → K} {u η : K} {isz : T → Bool}

omit [Zero T] [One T] [Add T] [Sub T] [Mul T] [Neg T] [CDiv T] in
theorem ofFn_mem {n m : Nat} {e : Nat → Nat → T} {x : T} (h : x ∈ (Mat.ofFn n m e).data) : ∃ i j, i < n ∧ j < m ∧ x = e i j := by
  rw [ofFn_data, vtab, List.mem_map] at h
  obtain ⟨k, hk, rfl⟩ := h
  have hk := List.mem_range.1 hk
  have hm : 0 < m := Nat.pos_of_ne_zero fun h => by subst h; simp at hk
  exact ⟨k / m, k % m, Nat.div_lt_of_lt_mul (by rwa [Nat.mul_comm] at hk), Nat.mod_lt _ hm, rfl⟩

/-- A step with a usable pivot. -/
theorem elimStep_main (R : Rounds val u η) (hz : ∀ x, isz x = true ↔ val x = 0) {N c : Nat} (hf : Fits N N) (hc : c < N) (e : Nat → Nat → T) (d : T)
    (h0 : val (e c c) ≠ 0) :
    elimStep isz N c ⟨Mat.ofFn N N e, d, false⟩ = .ok ⟨Mat.ofFn N N (elimT e c fun r => quo (e r c) (e c c)), d * e c c, false⟩ := by
  have hq : ∀ x y : T, val y ≠ 0 → cdiv x y = .ok (quo x y) := by
    intro x y hy
    obtain ⟨z, h1, -⟩ := R.div x y hy
    rw [h1]; unfold quo; rw [h1]
  unfold elimStep
  rw [if_neg (by simp)]
  dsimp only
  rw [ofFn_at hf hc hc, Res.ok_bind, if_neg (fun h => h0 ((hz _).1 h))]
  show ((Mat.ofFn N N e).at_ c c >>= _) = _
  rw [ofFn_at hf hc hc, Res.ok_bind, eliminate_eq hf hc (q := fun r => quo (e r c) (e c c)) (fun r _ _ => hq _ _ h0)]
  rfl

omit [One T] [Neg T] in
/-- The error of one entry. -/
theorem elim_entry_fwd (R : Rounds val u η) {x y p z : T} (hp : val p ≠ 0) :
    |val (x - quo y p * z) - (val x - val y / val p * val z)| ≤
      ((1 + u) ^ 3 - 1) * (|val x| + |val y / val p * val z|) + (1 + u) ^ 2 * η * (1 + |val z|) := by
  have hu := R.u_nonneg
  have hη := R.η_nonneg
  obtain ⟨q, h1, h2⟩ := R.div y p hp
  have e : quo y p = q := by unfold quo; rw [h1]
  rw [e]
  have h3 := R.mul q z
  have h4 := R.sub x (q * z)
  set κ := val y / val p
  set w := val (q * z)
  have h5 : |val q * val z - κ * val z| ≤ u * |κ * val z| + η * |val z| := by
    rw [← sub_mul, abs_mul, abs_mul κ]
    have := mul_le_mul_of_nonneg_right h2 (abs_nonneg (val z))
    linarith
  have h6 : |val q * val z| ≤ |val q * val z - κ * val z| + |κ * val z| := by
    have := abs_add_le (val q * val z - κ * val z) (κ * val z)
    rwa [sub_add_cancel] at this
  have h7 : |w - κ * val z| ≤ |w - val q * val z| + |val q * val z - κ * val z| := abs_sub_le _ _ _
  have h8 : |w| ≤ |w - κ * val z| + |κ * val z| := by
    have := abs_add_le (w - κ * val z) (κ * val z)
    rwa [sub_add_cancel] at this
  have h9 : |val (x - q * z) - (val x - κ * val z)| ≤ |val (x - q * z) - (val x - w)| + |w - κ * val z| := by
    have e : val (x - q * z) - (val x - κ * val z) = (val (x - q * z) - (val x - w)) - (w - κ * val z) := by ring
    rw [e]; exact abs_sub _ _
  have h10 : |val x - w| ≤ |val x| + |w| := abs_sub _ _
  set k := |κ * val z|
  have hk : 0 ≤ k := abs_nonneg _
  have hz0 := abs_nonneg (val z)
  have hx0 := abs_nonneg (val x)
  have h11 : |w - κ * val z| ≤ ((1 + u) ^ 2 - 1) * k + (1 + u) * η * |val z| + η := by
    have := mul_le_mul_of_nonneg_left (h6.trans (add_le_add h5 le_rfl)) hu
    nlinarith
  have h12 := mul_le_mul_of_nonneg_left (h10.trans (add_le_add le_rfl (h8.trans (add_le_add h11 le_rfl)))) hu
  have h13 : |val (x - q * z) - (val x - κ * val z)| ≤ u * |val x| + ((1 + u) ^ 3 - 1) * k + (1 + u) ^ 2 * η * |val z| + (1 + u) * η := by
    refine h9.trans ((add_le_add (h4.trans h12) h11).trans (le_of_eq ?_))
    ring
  have h14 : u * |val x| ≤ ((1 + u) ^ 3 - 1) * |val x| := by
    apply mul_le_mul_of_nonneg_right _ hx0
    nlinarith [pow_nonneg hu 3, mul_nonneg hu hu]
  have h15 : (1 + u) * η ≤ (1 + u) ^ 2 * η := by
    apply mul_le_mul_of_nonneg_right _ hη
    nlinarith [mul_nonneg hu hu]
  linarith

/-- The working copy after `c` steps. -/
structure ElimDom (val : T → K) (n : Nat) (ρ g : Nat → K) (G ε : K) (c : Nat) (e : Nat → Nat → T) : Prop where
  all : ∀ i j, i < n → j < n → |val (e i j)| ≤ G
  sum : ∀ r, c ≤ r → r < n → ∑ j ∈ Finset.Ico c n, |val (e r j)| ≤ ρ r + c * ε
  dom : ∀ r, c ≤ r → r < n → ∑ j ∈ (Finset.Ico c n).erase r, |val (e r j)| + g r ≤ |val (e r r)| + c * ε

omit [Zero T] [One T] [Add T] [Sub T] [Mul T] [Neg T] [CDiv T] in
theorem ElimDom.pivot {n : Nat} {ρ g : Nat → K} {G ε : K} {c : Nat} {e : Nat → Nat → T} (h : ElimDom val n ρ g G ε c e) (hc : c < n) (hε : 0 ≤ ε)
    (hg : ∀ r, r < n → n * ε < g r) : val (e c c) ≠ 0 := by
  have h1 := h.dom c le_rfl hc
  have h2 := hg c hc
  have h3 : (c : K) * ε ≤ n * ε := mul_le_mul_of_nonneg_right (by exact_mod_cast hc.le) hε
  have h4 : 0 ≤ ∑ j ∈ (Finset.Ico c n).erase c, |val (e c j)| := Finset.sum_nonneg fun _ _ => abs_nonneg _
  exact abs_pos.1 (by linarith)

omit [One T] [Neg T] in
theorem ElimDom.step (R : Rounds val u η) {n : Nat} {ρ g : Nat → K} {G ε : K} {c : Nat} {e : Nat → Nat → T} (h : ElimDom val n ρ g G ε c e) (hc : c < n)
    (hε : ((1 + u) ^ 3 - 1) * G + (1 + u) ^ 2 * η * (n + G) ≤ ε) (hρ : ∀ r, r < n → 2 * ρ r ≤ G) (hgr : ∀ r, r < n → g r ≤ ρ r)
    (hg : ∀ r, r < n → n * ε < g r) : ElimDom val n ρ g G ε (c + 1) (elimT e c fun r => quo (e r c) (e c c)) := by
  have hu := R.u_nonneg
  have hη := R.η_nonneg
  have hn0 : (0 : K) ≤ n := Nat.cast_nonneg n
  have hγ : 0 ≤ (1 + u) ^ 3 - 1 := sub_nonneg.2 (one_le_pow₀ (by linarith))
  have hG0 : 0 ≤ G := (abs_nonneg _).trans (h.all c c hc hc)
  have hε0 : 0 ≤ ε := le_trans (by positivity) hε
  have hp := h.pivot hc hε0 hg
  have hp' := abs_pos.2 hp
  have hcn : (c : K) * ε ≤ n * ε := mul_le_mul_of_nonneg_right (by exact_mod_cast hc.le) hε0
  -- the row of the pivot
  have hrow : ∑ j ∈ Finset.Ico (c + 1) n, |val (e c j)| ≤ |val (e c c)| := by
    have h1 := h.dom c le_rfl hc
    have e2 : (Finset.Ico c n).erase c = Finset.Ico (c + 1) n := by
      ext j; simp only [Finset.mem_erase, Finset.mem_Ico]; omega
    rw [e2] at h1
    have := hg c hc
    linarith
  have hκ : ∀ r, ∑ j ∈ Finset.Ico (c + 1) n, |val (e r c) / val (e c c) * val (e c j)| ≤ |val (e r c)| := by
    intro r
    simp only [abs_mul, abs_div]
    rw [← Finset.mul_sum]
    refine (mul_le_mul_of_nonneg_left hrow (by positivity)).trans (le_of_eq ?_)
    exact div_mul_cancel₀ _ hp'.ne'
  have hSc : ∑ j ∈ Finset.Ico (c + 1) n, |val (e c j)| ≤ G := hrow.trans (h.all c c hc hc)
  -- the errors
  set e' := elimT e c fun r => quo (e r c) (e c c) with he'
  have hsame : ∀ i j, ¬ (c < i ∧ c ≤ j) → e' i j = e i j := fun i j hij => if_neg hij
  have hnew : ∀ i j, c < i → c ≤ j → e' i j = e i j - quo (e i c) (e c c) * e c j := fun i j h1 h2 => if_pos ⟨h1, h2⟩
  set err : Nat → Nat → K := fun r j => ((1 + u) ^ 3 - 1) * (|val (e r j)| + |val (e r c) / val (e c c) * val (e c j)|) + (1 + u) ^ 2 * η * (1 + |val (e c j)|)
    with herr
  have herr0 : ∀ r j, 0 ≤ err r j := fun r j => by positivity
  have hent : ∀ r j, c < r → c ≤ j → |val (e' r j) - (val (e r j) - val (e r c) / val (e c c) * val (e c j))| ≤ err r j := by
    intro r j h1 h2
    rw [hnew r j h1 h2]
    exact elim_entry_fwd R hp
  have hS : ∀ r, c ≤ r → r < n → ∑ j ∈ Finset.Ico c n, |val (e r j)| ≤ G := by
    intro r h1 h2
    have := h.sum r h1 h2
    have := hg r h2
    have := hgr r h2
    have := hρ r h2
    linarith
  have herrsum : ∀ r, c < r → r < n → ∑ j ∈ Finset.Ico (c + 1) n, err r j ≤ ε := by
    intro r h1 h2
    refine le_trans ?_ hε
    simp only [herr]
    rw [Finset.sum_add_distrib, ← Finset.mul_sum, ← Finset.mul_sum, Finset.sum_add_distrib, Finset.sum_add_distrib]
    have h3 := hS r h1.le h2
    rw [Finset.sum_eq_sum_Ico_succ_bot hc] at h3
    have h4 := hκ r
    have h5 : ∑ j ∈ Finset.Ico (c + 1) n, (1 : K) ≤ n := by
      rw [Finset.sum_const, Nat.card_Ico, nsmul_eq_mul, mul_one]
      exact_mod_cast Nat.sub_le _ _
    exact add_le_add (mul_le_mul_of_nonneg_left (by linarith) hγ) (mul_le_mul_of_nonneg_left (by linarith) (by positivity))
  have hup : ∀ r j, c < r → c ≤ j → |val (e' r j)| ≤ |val (e r j)| + |val (e r c) / val (e c c) * val (e c j)| + err r j := by
    intro r j h1 h2
    have h3 := hent r j h1 h2
    have h4 := abs_sub (val (e r j)) (val (e r c) / val (e c c) * val (e c j))
    have h5 := abs_add_le (val (e' r j) - (val (e r j) - val (e r c) / val (e c c) * val (e c j))) (val (e r j) - val (e r c) / val (e c c) * val (e c j))
    rw [sub_add_cancel] at h5
    linarith
  have hsum : ∀ r, c + 1 ≤ r → r < n → ∑ j ∈ Finset.Ico (c + 1) n, |val (e' r j)| ≤ ρ r + ((c + 1 : ℕ) : K) * ε := by
    intro r h1 h2
    have h3 : ∑ j ∈ Finset.Ico (c + 1) n, |val (e' r j)| ≤
        ∑ j ∈ Finset.Ico (c + 1) n, (|val (e r j)| + |val (e r c) / val (e c c) * val (e c j)| + err r j) :=
      Finset.sum_le_sum fun j hj => hup r j h1 (by have := (Finset.mem_Ico.1 hj).1; omega)
    rw [Finset.sum_add_distrib, Finset.sum_add_distrib] at h3
    have h4 := h.sum r (by omega) h2
    rw [Finset.sum_eq_sum_Ico_succ_bot hc] at h4
    have h5 := hκ r
    have h6 := herrsum r h1 h2
    push_cast
    linarith
  refine ⟨fun i j hi hj => ?_, hsum, fun r h1 h2 => ?_⟩
  · by_cases hij : c < i ∧ c ≤ j
    · rcases Nat.eq_or_lt_of_le hij.2 with rfl | hcj
      · have h3 := hent i c hij.1 le_rfl
        rw [div_mul_cancel₀ _ hp, sub_self, sub_zero] at h3
        refine h3.trans ?_
        simp only [herr]
        rw [div_mul_cancel₀ _ hp]
        have h4 := h.all i c hi hc
        have h5 := h.all c c hc hc
        have h6 : ((2 : ℕ) : K) ≤ n := by exact_mod_cast (by omega : 2 ≤ n)
        have h7 := mul_le_mul_of_nonneg_right h6 hε0
        have h8 := hg i hi
        have h9 := hgr i hi
        have h10 := hρ i hi
        have h11 : ((1 + u) ^ 3 - 1) * (|val (e i c)| + |val (e i c)|) ≤ ((1 + u) ^ 3 - 1) * (2 * G) := mul_le_mul_of_nonneg_left (by linarith) hγ
        have h12 : (1 + u) ^ 2 * η * (1 + |val (e c c)|) ≤ (1 + u) ^ 2 * η * (n + G) := by
          apply mul_le_mul_of_nonneg_left _ (by positivity)
          push_cast at h6
          linarith
        have h13 : 0 ≤ (1 + u) ^ 2 * η * (n + G) := by positivity
        push_cast at h7
        linarith
      · have h3 := hsum i hij.1 hi
        have h4 := Finset.single_le_sum (f := fun j => |val (e' i j)|) (fun j _ => abs_nonneg _) (Finset.mem_Ico.2 ⟨hcj, hj⟩)
        have h5 : |val (e' i j)| ≤ _ := h4.trans h3
        have h6 : ((c + 1 : ℕ) : K) * ε ≤ n * ε := mul_le_mul_of_nonneg_right (by exact_mod_cast hc) hε0
        have h8 := hg i hi
        have h9 := hgr i hi
        have h10 := hρ i hi
        linarith
    · rw [hsame i j hij]
      exact h.all i j hi hj
  · have h3 : ∑ j ∈ (Finset.Ico (c + 1) n).erase r, |val (e' r j)| ≤
        ∑ j ∈ (Finset.Ico (c + 1) n).erase r, (|val (e r j)| + |val (e r c) / val (e c c) * val (e c j)| + err r j) :=
      Finset.sum_le_sum fun j hj => hup r j h1 (by have := (Finset.mem_Ico.1 (Finset.mem_of_mem_erase hj)).1; omega)
    rw [Finset.sum_add_distrib, Finset.sum_add_distrib] at h3
    have hmem : r ∈ Finset.Ico (c + 1) n := Finset.mem_Ico.2 ⟨h1, h2⟩
    have h4 := h.dom r (by omega) h2
    have e1 : (Finset.Ico c n).erase r = insert c ((Finset.Ico (c + 1) n).erase r) := by
      ext j; simp only [Finset.mem_erase, Finset.mem_Ico, Finset.mem_insert]; omega
    rw [e1, Finset.sum_insert (by simp)] at h4
    have h5 := hκ r
    rw [← Finset.sum_erase_add _ _ hmem] at h5
    have h6 := herrsum r h1 h2
    rw [← Finset.sum_erase_add _ _ hmem] at h6
    have h7 : |val (e r r)| ≤ |val (e' r r)| + |val (e r c) / val (e c c) * val (e c r)| + err r r := by
      have h8 := hent r r h1 (by omega)
      have e9 : val (e r r) = val (e' r r) + val (e r c) / val (e c c) * val (e c r) -
        (val (e' r r) - (val (e r r) - val (e r c) / val (e c c) * val (e c r))) := by ring
      have h9 := abs_sub (val (e' r r) + val (e r c) / val (e c c) * val (e c r))
        (val (e' r r) - (val (e r r) - val (e r c) / val (e c c) * val (e c r)))
      rw [← e9] at h9
      have h10 := abs_add_le (val (e' r r)) (val (e r c) / val (e c c) * val (e c r))
      linarith
    push_cast
    linarith

/-- The elimination in `determinant` of a diagonally dominant matrix: no exchange of rows, no `break`, no entry that grows. -/
theorem dominant_run (R : Rounds val u η) (hz : ∀ x, isz x = true ↔ val x = 0) {n : Nat} (hf : Fits n n) {a : Nat → Nat → T} {G ε : K}
    (hG : ∀ i, 2 * ∑ j, |val (toM n n a i j)| ≤ G) (hε : ((1 + u) ^ 3 - 1) * G + (1 + u) ^ 2 * η * (n + G) ≤ ε)
    (hdom : ∀ i, ∑ j ∈ Finset.univ.erase i, |val (toM n n a i j)| + n * ε < |val (toM n n a i i)|) {c : Nat} (hc : c ≤ n) :
    ∃ e d, forRange 0 c (⟨Mat.ofFn n n a, 1, false⟩ : ElimState T) (fun c s => elimStep isz n c s) = .ok ⟨Mat.ofFn n n e, d, false⟩ ∧
      ∀ i j, i < n → j < n → |val (e i j)| ≤ G := by
  have hu := R.u_nonneg
  have hη := R.η_nonneg
  set ρ : Nat → K := fun r => ∑ j ∈ Finset.range n, |val (a r j)| with hρ
  set g : Nat → K := fun r => 2 * |val (a r r)| - ρ r with hg
  have hρM : ∀ i : Fin n, ∑ j, |val (toM n n a i j)| = ρ i := fun i => (Finset.sum_range fun j => |val (a i j)|).symm
  have hgM : ∀ i : Fin n, |val (toM n n a i i)| - ∑ j ∈ Finset.univ.erase i, |val (toM n n a i j)| = g i := fun i => by
    have h1 := Finset.sum_erase_add Finset.univ (fun j => |val (toM n n a i j)|) (Finset.mem_univ i)
    rw [hρM i] at h1
    have e : |val (toM n n a i i)| = |val (a i i)| := rfl
    simp only [hg]
    linarith
  have hρG : ∀ r, r < n → 2 * ρ r ≤ G := fun r hr => by
    have := hG ⟨r, hr⟩
    rwa [hρM ⟨r, hr⟩] at this
  have hgr : ∀ r, r < n → g r ≤ ρ r := fun r hr => by
    have h1 := Finset.single_le_sum (f := fun j => |val (a r j)|) (fun j _ => abs_nonneg _) (Finset.mem_range.2 hr)
    simp only [hg]
    linarith
  have hgE : ∀ r, r < n → n * ε < g r := fun r hr => by
    have h1 := hdom ⟨r, hr⟩
    have h2 := hgM ⟨r, hr⟩
    dsimp only at h2
    linarith
  have hε0 : 0 < n → 0 ≤ ε := fun hn => by
    have hG0 : 0 ≤ G := by
      have h1 := hρG 0 hn
      have : 0 ≤ ρ 0 := Finset.sum_nonneg fun _ _ => abs_nonneg _
      linarith
    have hγ : 0 ≤ (1 + u) ^ 3 - 1 := sub_nonneg.2 (one_le_pow₀ (by linarith))
    exact le_trans (by positivity) hε
  have key : ∀ c, c ≤ n → ∃ e d, forRange 0 c (⟨Mat.ofFn n n a, 1, false⟩ : ElimState T) (fun c s => elimStep isz n c s) = .ok ⟨Mat.ofFn n n e, d, false⟩ ∧
      ElimDom val n ρ g G ε c e := by
    intro c
    induction c with
    | zero =>
      intro _
      refine ⟨a, 1, forRange_self _ _ _, fun i j hi hj => ?_, fun r _ hr => ?_, fun r _ hr => ?_⟩
      · have h1 := Finset.single_le_sum (f := fun j => |val (a i j)|) (fun j _ => abs_nonneg _) (Finset.mem_range.2 hj)
        have h1' : |val (a i j)| ≤ ρ i := h1
        have h2 := hρG i hi
        have h3 : 0 ≤ ρ i := Finset.sum_nonneg fun _ _ => abs_nonneg _
        linarith
      · rw [← Finset.range_eq_Ico]; simp [hρ]
      · rw [← Finset.range_eq_Ico]
        have h1 := Finset.sum_erase_add (Finset.range n) (fun j => |val (a r j)|) (Finset.mem_range.2 hr)
        simp only [hg, hρ, Nat.cast_zero, zero_mul]
        linarith
    | succ c ih =>
      intro hc
      obtain ⟨e, d, h1, h2⟩ := ih (by omega)
      have hp := h2.pivot (by omega) (hε0 (by omega)) hgE
      exact ⟨_, _, by rw [forRange_succ_last (Nat.zero_le c), h1, Res.ok_bind, elimStep_main R hz hf (by omega) e d hp],
        h2.step R (by omega) hε hρG hgr hgE⟩
  obtain ⟨e, d, h1, h2⟩ := key c hc
  exact ⟨e, d, h1, h2.all⟩

/-- C137: the elimination in `determinant` of a matrix that is diagonally dominant by more than the rounding errors does not produce a
number above twice the largest row sum. -/
theorem C137_growth (R : Rounds val u η) (hz : ∀ x, isz x = true ↔ val x = 0) {A : MB T} {n : Nat} {M : Matrix (Fin n) (Fin n) T}
    (hA : A.Is M) {G ε : K} (hG : ∀ i, 2 * ∑ j, |val (M i j)| ≤ G) (hε : ((1 + u) ^ 3 - 1) * G + (1 + u) ^ 2 * η * (n + G) ≤ ε)
    (hdom : ∀ i, ∑ j ∈ Finset.univ.erase i, |val (M i j)| + n * ε < |val (M i i)|) : GrowthBound val isz A G := by
  obtain ⟨a, h, rfl⟩ := hA
  intro B hB c hc s hs x hx
  rw [Mat.ofMB_eq h id] at hB
  injection hB with hB
  subst hB
  change c ≤ n at hc
  change forRange 0 c _ (fun c s => elimStep isz n c s) = .ok s at hs
  obtain ⟨e, d, h1, h2⟩ := dominant_run R hz h.fits hG hε hdom hc
  have e1 : (Mat.ofFn n n fun r c => id (a r c)) = Mat.ofFn n n a := rfl
  rw [← e1] at h1
  rw [h1] at hs
  injection hs with hs
  subst hs
  obtain ⟨i, j, hi, hj, rfl⟩ := ofFn_mem hx
  exact h2 i j hi hj

omit [Zero T] [One T] [Add T] [Sub T] [Mul T] [Neg T] [CDiv T] in
/-- The determinants of diagonally dominant matrices. -/
theorem dom_det_ge {n : Nat} (hf : Fits n n) {M : Matrix (Fin n) (Fin n) K} (hdom : ∀ i, ∑ j ∈ Finset.univ.erase i, |M i j| < |M i i|) : M.det ≠ 0 := by
  have hX : (Mat.ofFn n n fun r c => if h : r < n ∧ c < n then M ⟨r, h.1⟩ ⟨c, h.2⟩ else 0).toMB.Is M := by
    refine ⟨_, ofFn_rep hf _, ?_⟩
    funext i j
    rw [toM_apply, dif_pos ⟨i.2, j.2⟩]
  obtain ⟨L, U, -, ML, MU, -, -, -, -, -, h6⟩ := C136_exact hX hdom
  have : 0 < ∏ i, (|M i i| - ∑ j ∈ Finset.univ.erase i, |M i j|) := Finset.prod_pos fun i _ => by linarith [hdom i]
  exact abs_pos.1 (lt_of_lt_of_le this h6)

omit [Zero T] [One T] [Add T] [Sub T] [Mul T] [Neg T] [CDiv T] in
/-- The cofactors of a diagonally dominant matrix. -/
theorem dom_adjugate {n : Nat} {N : Matrix (Fin n) (Fin n) K} {g : K} (hg : 0 < g) (hdom : ∀ i, ∑ j ∈ Finset.univ.erase i, |N i j| + g ≤ |N i i|)
    (i j : Fin n) : g * |N.adjugate j i| ≤ |N.det| := by
  obtain ⟨m, -, hm⟩ := Finset.exists_max_image Finset.univ (fun j => |N.adjugate j i|) ⟨j, Finset.mem_univ j⟩
  have h1 : ∑ k, N m k * N.adjugate k i = if m = i then N.det else 0 := by
    have := congrFun (congrFun N.mul_adjugate m) i
    rw [Matrix.mul_apply] at this
    rw [this, Matrix.smul_apply, Matrix.one_apply, smul_eq_mul, mul_ite, mul_one, mul_zero]
  rw [← Finset.sum_erase_add _ _ (Finset.mem_univ m)] at h1
  have h2 : |∑ k ∈ Finset.univ.erase m, N m k * N.adjugate k i| ≤ (∑ k ∈ Finset.univ.erase m, |N m k|) * |N.adjugate m i| := by
    rw [Finset.sum_mul]
    refine (Finset.abs_sum_le_sum_abs _ _).trans (Finset.sum_le_sum fun k _ => ?_)
    rw [abs_mul]
    exact mul_le_mul_of_nonneg_left (hm k (Finset.mem_univ k)) (abs_nonneg _)
  have h3 : |N m m * N.adjugate m i| ≤ |N.det| + |∑ k ∈ Finset.univ.erase m, N m k * N.adjugate k i| := by
    have e : N m m * N.adjugate m i = (if m = i then N.det else 0) - ∑ k ∈ Finset.univ.erase m, N m k * N.adjugate k i := by rw [← h1]; ring
    rw [e]
    refine (abs_sub _ _).trans (add_le_add ?_ le_rfl)
    split_ifs
    · exact le_rfl
    · rw [abs_zero]; exact abs_nonneg _
  rw [abs_mul] at h3
  have h4 := mul_le_mul_of_nonneg_right (hdom m) (abs_nonneg (N.adjugate m i))
  have h5 := mul_le_mul_of_nonneg_left (hm j (Finset.mem_univ j)) hg.le
  linarith

omit [Zero T] [One T] [Add T] [Sub T] [Mul T] [Neg T] [CDiv T] in
/-- A change of one row. -/
theorem dom_det_row {n : Nat} {N : Matrix (Fin n) (Fin n) K} {g δ : K} (hg : 0 < g) (hdom : ∀ i, ∑ j ∈ Finset.univ.erase i, |N i j| + g ≤ |N i i|)
    (i : Fin n) {F : Fin n → K} (hF : ∑ j, |F j| ≤ δ) : |(N.updateRow i (N i + F)).det - N.det| ≤ δ / g * |N.det| := by
  have e : (N.updateRow i (N i + F)).det - N.det = ∑ j, F j * N.adjugate j i := by
    rw [Matrix.det_updateRow_add, Matrix.updateRow_eq_self, add_sub_cancel_left, Matrix.det_eq_sum_mul_adjugate_row _ i]
    refine Finset.sum_congr rfl fun j _ => ?_
    rw [Matrix.updateRow_self, Matrix.adjugate_apply, Matrix.adjugate_apply, Matrix.updateRow_idem]
  rw [e, div_mul_eq_mul_div, le_div_iff₀ hg]
  have h1 : |∑ j, F j * N.adjugate j i| * g ≤ ∑ j, |F j| * |N.det| := by
    refine (mul_le_mul_of_nonneg_right (Finset.abs_sum_le_sum_abs _ _) hg.le).trans ?_
    rw [Finset.sum_mul]
    refine Finset.sum_le_sum fun j _ => ?_
    rw [abs_mul, mul_assoc, mul_comm _ g]
    exact mul_le_mul_of_nonneg_left (dom_adjugate hg hdom i j) (abs_nonneg _)
  refine h1.trans ?_
  rw [← Finset.sum_mul]
  exact mul_le_mul_of_nonneg_right hF (abs_nonneg _)

omit [Zero T] [One T] [Add T] [Sub T] [Mul T] [Neg T] [CDiv T] in
/-- The determinant of a diagonally dominant matrix is known to a high relative accuracy. -/
theorem dom_det_perturb {n : Nat} {M E : Matrix (Fin n) (Fin n) K} {g δ : K} (hδ : 0 ≤ δ) (hg : δ < g)
    (hdom : ∀ i, ∑ j ∈ Finset.univ.erase i, |M i j| + g ≤ |M i i|) (hE : ∀ i, ∑ j, |E i j| ≤ δ) :
    |(M + E).det - M.det| ≤ ((1 + δ / (g - δ)) ^ n - 1) * |M.det| := by
  have hgd : 0 < g - δ := by linarith
  set τ := δ / (g - δ) with hτ
  have hτ0 : 0 ≤ τ := by positivity
  set H : Nat → Matrix (Fin n) (Fin n) K := fun k => Matrix.of fun i j => M i j + if (i : Nat) < k then E i j else 0 with hH
  have hHd : ∀ k i, ∑ j ∈ Finset.univ.erase i, |H k i j| + (g - δ) ≤ |H k i i| := by
    intro k i
    have h1 : ∀ j, |H k i j| ≤ |M i j| + |E i j| := fun j => by
      simp only [hH, Matrix.of_apply]
      refine (abs_add_le _ _).trans (add_le_add le_rfl ?_)
      split_ifs
      · exact le_rfl
      · rw [abs_zero]; exact abs_nonneg _
    have h2 : |M i i| ≤ |H k i i| + |E i i| := by
      have e : M i i = H k i i - if (i : Nat) < k then E i i else 0 := by simp only [hH, Matrix.of_apply]; ring
      rw [e]
      refine (abs_sub _ _).trans (add_le_add le_rfl ?_)
      split_ifs
      · exact le_rfl
      · rw [abs_zero]; exact abs_nonneg _
    have h3 : ∑ j ∈ Finset.univ.erase i, |H k i j| ≤ ∑ j ∈ Finset.univ.erase i, |M i j| + ∑ j ∈ Finset.univ.erase i, |E i j| := by
      rw [← Finset.sum_add_distrib]
      exact Finset.sum_le_sum fun j _ => h1 j
    have h4 := hE i
    rw [← Finset.sum_erase_add _ _ (Finset.mem_univ i)] at h4
    have := hdom i
    linarith
  have hstep : ∀ k, k < n → |(H (k + 1)).det - (H k).det| ≤ τ * |(H k).det| := by
    intro k hk
    have e : H (k + 1) = (H k).updateRow ⟨k, hk⟩ (H k ⟨k, hk⟩ + E ⟨k, hk⟩) := by
      ext i j
      rw [Matrix.updateRow_apply]
      simp only [hH, Matrix.of_apply, Pi.add_apply]
      by_cases hi : i = ⟨k, hk⟩
      · subst hi
        simp
      · have h1 : (i : Nat) ≠ k := fun h => hi (Fin.ext h)
        have h2 : (i : Nat) < k + 1 ↔ (i : Nat) < k := by omega
        rw [if_neg hi]
        simp only [h2]
    rw [e]
    exact dom_det_row hgd (hHd k) _ (hE _)
  have key : ∀ k, k ≤ n → |(H k).det - M.det| ≤ ((1 + τ) ^ k - 1) * |M.det| := by
    intro k
    induction k with
    | zero =>
      intro _
      have : H 0 = M := by ext i j; simp [hH]
      rw [this]; simp
    | succ k ih =>
      intro hk
      have h1 := hstep k (by omega)
      have h2 := ih (by omega)
      have h3 : |(H k).det| ≤ |(H k).det - M.det| + |M.det| := by
        have := abs_add_le ((H k).det - M.det) M.det
        rwa [sub_add_cancel] at this
      have h4 := abs_add_le ((H (k + 1)).det - (H k).det) ((H k).det - M.det)
      rw [sub_add_sub_cancel] at h4
      have h5 := mul_le_mul_of_nonneg_left (h3.trans (add_le_add h2 le_rfl)) hτ0
      rw [pow_succ]
      linarith
  have := key n le_rfl
  have e : H n = M + E := by ext i j; simp [hH]
  rwa [e] at this

/-- C137: the determinant of a matrix that is diagonally dominant by more than the rounding errors is right up to a relative error of
`n + n` factors close to one, and underflow. -/
theorem C137_relative (R : Rounds val u η) (one : val 1 = 1) (hneg : ∀ x : T, val (x * (-1)) = - val x) (hu8 : u ≤ 1 / 8)
    (hz : ∀ x, isz x = true ↔ val x = 0) {A : MB T} {n : Nat} (hn : 4 < n) {M : Matrix (Fin n) (Fin n) T}
    (hA : A.Is M) {G g δ : K} (hG : ∀ i, 2 * ∑ j, |val (M i j)| ≤ G) (hδ : n ^ 2 * (4 * u * G + (2 + G) * η) ≤ δ) (hδg : δ < g)
    (hdom : ∀ i, ∑ j ∈ Finset.univ.erase i, |val (M i j)| + g ≤ |val (M i i)|) :
    ∃ d, determinant isz A = .ok d ∧
      |val d - (M.map val).det| ≤ ((1 + u) ^ n * (1 + δ / (g - δ)) ^ n - 1) * |(M.map val).det| + n * ((1 + u) * (1 + G)) ^ n * η := by
  have hu := R.u_nonneg
  have hη := R.η_nonneg
  have hG0 : 0 ≤ G := by
    have h1 := hG ⟨0, by omega⟩
    have : 0 ≤ ∑ j, |val (M ⟨0, by omega⟩ j)| := Finset.sum_nonneg fun _ _ => abs_nonneg _
    linarith
  have hn5 : (5 : K) ≤ n := by exact_mod_cast hn
  have hn0 : (0 : K) ≤ n := by linarith
  have hδ0 : 0 ≤ δ := le_trans (by positivity) hδ
  have hGB : GrowthBound val isz A G := by
    refine C137_growth R hz hA hG (ε := ((1 + u) ^ 3 - 1) * G + (1 + u) ^ 2 * η * (n + G)) le_rfl fun i => ?_
    have h1 : (n : K) * (((1 + u) ^ 3 - 1) * G + (1 + u) ^ 2 * η * (n + G)) ≤ n ^ 2 * (4 * u * G + (2 + G) * η) := by
      have h2 : (1 + u) ^ 3 - 1 ≤ 4 * u := by nlinarith [mul_nonneg hu hu]
      have h3 : (1 + u) ^ 2 ≤ 2 := by nlinarith [mul_nonneg hu hu]
      have h4 := mul_le_mul_of_nonneg_right h2 hG0
      have h5 : (1 + u) ^ 2 * η * (n + G) ≤ 2 * η * (n + G) := by
        apply mul_le_mul_of_nonneg_right (mul_le_mul_of_nonneg_right h3 hη) (by positivity)
      have h6 : 0 ≤ u * G := by positivity
      have h7 : 0 ≤ η * G := by positivity
      rw [pow_two (n : K), mul_assoc (n : K)]
      apply mul_le_mul_of_nonneg_left _ hn0
      have h8 : u * G ≤ n * (u * G) := le_mul_of_one_le_left h6 (by linarith)
      have h9 : 2 * (η * G) ≤ n * (η * G) := mul_le_mul_of_nonneg_right (by linarith) h7
      linarith
    have := hdom i
    linarith
  obtain ⟨d, h1, E, h2, h3⟩ := C123_growth_partial R one hneg hu8 hz hn hA hGB
  have hE : ∀ i, ∑ j, |E i j| ≤ δ := by
    intro i
    refine (Finset.sum_le_sum fun j _ => h2 i j).trans ?_
    rw [Finset.sum_const, Finset.card_univ, Fintype.card_fin, nsmul_eq_mul]
    refine le_trans (le_of_eq ?_) hδ
    ring
  have hp := dom_det_perturb (M := M.map val) hδ0 hδg hdom hE
  have hf : Fits n n := by obtain ⟨a, h, -⟩ := hA; exact h.fits
  have hne : (M.map val + E).det ≠ 0 := by
    refine dom_det_ge hf fun i => ?_
    have h4 := hE i
    rw [← Finset.sum_erase_add _ _ (Finset.mem_univ i)] at h4
    have h5 : ∑ j ∈ Finset.univ.erase i, |(M.map val + E) i j| ≤ ∑ j ∈ Finset.univ.erase i, |val (M i j)| + ∑ j ∈ Finset.univ.erase i, |E i j| := by
      rw [← Finset.sum_add_distrib]
      exact Finset.sum_le_sum fun j _ => abs_add_le _ _
    have h6 : |val (M i i)| ≤ |(M.map val + E) i i| + |E i i| := by
      have e : val (M i i) = (M.map val + E) i i - E i i := by simp
      rw [e]; exact abs_sub _ _
    have := hdom i
    linarith
  refine ⟨d, h1, ?_⟩
  have h4 := h3.resolve_left hne
  set D := (M.map val).det
  set D' := (M.map val + E).det
  set Q := (1 + δ / (g - δ)) ^ n
  have h5 : |D'| ≤ Q * |D| := by
    have := abs_add_le (D' - D) D
    rw [sub_add_cancel] at this
    linarith
  have h6 : 0 ≤ (1 + u) ^ n - 1 := sub_nonneg.2 (one_le_pow₀ (by linarith))
  have h7 := mul_le_mul_of_nonneg_left h5 h6
  have h8 := abs_add_le (val d - D') (D' - D)
  rw [sub_add_sub_cancel] at h8
  linarith

end

/-- C137 for `double` (without overflow), with the tolerance of the code. -/
theorem C137_double {tol : Double} (ht : |tol.val| ≤ 1 / 4) {A : MB Double} {n : Nat} (hn : 4 < n) {M : Matrix (Fin n) (Fin n) Double}
    (hA : A.Is M) {G g δ : ℚ} (hG : ∀ i, 2 * ∑ j, |(M i j).val| ≤ G) (hδ : δ = n ^ 2 * (G / 2 ^ 51 + (2 + G) / 2 ^ 1075)) (hδg : δ < g)
    (hdom : ∀ i, ∑ j ∈ Finset.univ.erase i, |(M i j).val| + g ≤ |(M i i).val|) :
    ∃ d, determinant (Feq.approxZero Fl.abs tol) A = .ok d ∧
      |d.val - (M.map Fl.val).det| ≤ ((1 + 1 / 2 ^ 53) ^ n * (1 + δ / (g - δ)) ^ n - 1) * |(M.map Fl.val).det| +
        n * ((1 + 1 / 2 ^ 53) * (1 + G)) ^ n / 2 ^ 1075 := by
  obtain ⟨R, h1, h2, h3, h4⟩ := C123_float (K := ℚ) (p := 53) (emin := -1074) (by norm_num) (by norm_num) ht
  have hu : (2 : ℚ) ^ (-((53 : ℕ) : ℤ)) = 1 / 2 ^ 53 := by norm_num
  have hη : (2 : ℚ) ^ (-1074 : ℤ) / 2 = 1 / 2 ^ 1075 := by
    rw [two_zpow_emin, div_div, ← pow_succ]
  rw [hu] at R h3
  rw [hη] at R
  obtain ⟨d, h5, h6⟩ := C137_relative R h1 h2 h3 h4 hn hA hG (δ := δ) (le_of_eq (by
    rw [hδ]
    congr 2
    swap
    · rw [mul_one_div]
    rw [mul_one_div, div_mul_eq_mul_div, mul_comm 4 G, div_eq_div_iff (by positivity) (by positivity), pow_succ, pow_succ]
    ring)) hδg hdom
  refine ⟨d, h5, h6.trans (le_of_eq ?_)⟩
  rw [mul_one_div]

/-- `12` on the diagonal and `1` elsewhere: the hypotheses of `C137_double` hold with `G = 32` and `g = 8`, and the relative error is below
`2^-38`. -/
example {δ : ℚ} (hδ : δ = (5 : ℚ) ^ 2 * (32 / 2 ^ 51 + (2 + 32) / 2 ^ 1075)) :
    ∃ A : Mat Double, A.WF ∧ ∃ M : Matrix (Fin 5) (Fin 5) Double, A.toMB.Is M ∧ (∀ i, 2 * ∑ j, |(M i j).val| ≤ 32) ∧ δ < 8 ∧
      (∀ i, ∑ j ∈ Finset.univ.erase i, |(M i j).val| + 8 ≤ |(M i i).val|) ∧ ((1 + 1 / 2 ^ 53) ^ 5 * (1 + δ / (8 - δ)) ^ 5 - 1 : ℚ) < 1 / 2 ^ 38 ∧
      determinant (Feq.approxZero Fl.abs doubleTol) A.toMB = .ok (Fl.of 53 (-1074) (234256 - 1 / 2 ^ 34)) := by
  have hf : Fits 5 5 := fits_small (by norm_num) (by norm_num)
  subst hδ
  refine ⟨_, (ofFn_holds hf fun r c => if r = c then Fl.of 53 (-1074) 12 else 1).wf, _, (ofFn_rep hf _).is, ?_, ?_, ?_, ?_, ?_⟩
  · decide +kernel
  · decide +kernel
  · decide +kernel
  · decide +kernel
  · decide +kernel

end Malg
