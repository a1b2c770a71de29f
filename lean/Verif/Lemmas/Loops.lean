import Verif.Model.Core
import Mathlib.Data.Nat.Init
/-!
# Reasoning rules for loops
-/
namespace Malg

theorem forRange_ge {lo hi : Nat} (h : hi ≤ lo) (s : σ) (body) : forRange lo hi s body = .ok s := by
  unfold forRange; rw [Nat.sub_eq_zero_of_le h]; rfl

@[simp] theorem forRange_self (lo : Nat) (s : σ) (body) : forRange lo lo s body = .ok s :=
  forRange_ge (Nat.le_refl _) s body

theorem forRange_lt {lo hi : Nat} (h : lo < hi) (s : σ) (body) :
    forRange lo hi s body = (body lo s >>= fun s' => forRange (lo + 1) hi s' body) := by
  unfold forRange
  obtain ⟨k, hk⟩ : ∃ k, hi - lo = k + 1 := ⟨hi - lo - 1, by omega⟩
  have : hi - (lo + 1) = k := by omega
  rw [hk, this]; rfl

theorem loopN_add (body : Nat → σ → Res σ) (a b i : Nat) (s : σ) :
    loopN body (a + b) i s = (loopN body a i s >>= loopN body b (i + a)) := by
  induction a generalizing i s with
  | zero => simp [loopN]
  | succ a ih =>
    rw [Nat.succ_add]
    simp only [loopN, bind_assoc]
    congr 1; funext s'
    rw [ih]; congr 2; omega

theorem forRange_append {lo mid hi : Nat} (h1 : lo ≤ mid) (h2 : mid ≤ hi) (s : σ) (body) :
    forRange lo hi s body = (forRange lo mid s body >>= fun s' => forRange mid hi s' body) := by
  unfold forRange
  have : hi - lo = (mid - lo) + (hi - mid) := by omega
  rw [this, loopN_add]
  congr 1; funext s'; congr 1; omega

theorem forRange_succ_last {lo hi : Nat} (h : lo ≤ hi) (s : σ) (body) :
    forRange lo (hi + 1) s body = (forRange lo hi s body >>= fun s' => body hi s') := by
  rw [forRange_append h (Nat.le_succ hi)]
  congr 1; funext s'
  rw [forRange_lt (Nat.lt_succ_self hi)]
  cases h : body hi s' <;> simp

/-- The state of the loop is a known function of the index. -/
theorem forRange_eq {lo hi : Nat} (h : lo ≤ hi) (f : Nat → σ) {s : σ} {body : Nat → σ → Res σ}
    (h0 : s = f lo) (hs : ∀ i, lo ≤ i → i < hi → body i (f i) = .ok (f (i + 1))) :
    forRange lo hi s body = .ok (f hi) := by
  subst h0
  induction hi, h using Nat.le_induction with
  | base => simp
  | succ n hn ih =>
    rw [forRange_succ_last hn, ih (fun i h1 h2 => hs i h1 (by omega))]
    simpa using hs n hn (by omega)

/-- Invariant rule. -/
theorem forRange_inv {lo hi : Nat} (h : lo ≤ hi) (I : Nat → σ → Prop) {s : σ}
    {body : Nat → σ → Res σ} (h0 : I lo s)
    (hs : ∀ i s, lo ≤ i → i < hi → I i s → ∃ s', body i s = .ok s' ∧ I (i + 1) s') :
    ∃ s', forRange lo hi s body = .ok s' ∧ I hi s' := by
  induction hi, h using Nat.le_induction with
  | base => exact ⟨s, by simp, h0⟩
  | succ n hn ih =>
    obtain ⟨s1, e1, i1⟩ := ih (fun i s h1 h2 => hs i s h1 (by omega))
    obtain ⟨s2, e2, i2⟩ := hs n s1 hn (by omega) i1
    exact ⟨s2, by rw [forRange_succ_last hn, e1]; simpa using e2, i2⟩

/-- Partial-correctness invariant rule: whenever the loop ends normally. -/
theorem forRange_inv_ok {lo hi : Nat} (h : lo ≤ hi) (I : Nat → σ → Prop) {s t : σ}
    {body : Nat → σ → Res σ} (h0 : I lo s)
    (hs : ∀ i s s', lo ≤ i → i < hi → I i s → body i s = .ok s' → I (i + 1) s')
    (ht : forRange lo hi s body = .ok t) : I hi t := by
  induction hi, h using Nat.le_induction generalizing t with
  | base => simp at ht; exact ht ▸ h0
  | succ n hn ih =>
    rw [forRange_succ_last hn, Res.bind_eq_ok] at ht
    obtain ⟨s1, e1, e2⟩ := ht
    exact hs n s1 t hn (by omega) (ih (fun i s s' h1 h2 => hs i s s' h1 (by omega)) e1) e2

theorem forRange_congr {lo hi : Nat} {s : σ} {f g : Nat → σ → Res σ}
    (h : ∀ i s, lo ≤ i → i < hi → f i s = g i s) : forRange lo hi s f = forRange lo hi s g := by
  unfold forRange
  generalize hn : hi - lo = n
  induction n generalizing lo s with
  | zero => rfl
  | succ n ih =>
    simp only [loopN]
    rw [h lo s (Nat.le_refl _) (by omega)]
    congr 1; funext s'
    exact ih (fun i s h1 h2 => h i s (by omega) h2) (by omega)

theorem forSearch_ge {lo hi : Nat} (h : hi ≤ lo) (body : Nat → Res (Option β)) :
    forSearch lo hi body = .ok none := by
  unfold forSearch; rw [Nat.sub_eq_zero_of_le h]; rfl

theorem forSearch_lt {lo hi : Nat} (h : lo < hi) (body : Nat → Res (Option β)) :
    forSearch lo hi body = (body lo >>= fun r => match r with
      | some b => .ok (some b)
      | none => forSearch (lo + 1) hi body) := by
  unfold forSearch
  obtain ⟨k, hk⟩ : ∃ k, hi - lo = k + 1 := ⟨hi - lo - 1, by omega⟩
  have : hi - (lo + 1) = k := by omega
  rw [hk, this]; rfl

/-- No iteration returns. -/
theorem forSearch_none {lo hi : Nat} {body : Nat → Res (Option β)}
    (h : ∀ i, lo ≤ i → i < hi → body i = .ok none) : forSearch lo hi body = .ok none := by
  unfold forSearch
  generalize hn : hi - lo = n
  induction n generalizing lo with
  | zero => rfl
  | succ n ih =>
    simp only [searchN, h lo (Nat.le_refl _) (by omega), Res.ok_bind]
    exact ih (fun i h1 h2 => h i (by omega) h2) (by omega)

/-- The first iteration that returns. -/
theorem forSearch_some {lo hi k : Nat} {b : β} {body : Nat → Res (Option β)}
    (hk1 : lo ≤ k) (hk2 : k < hi)
    (h : ∀ i, lo ≤ i → i < k → body i = .ok none) (hb : body k = .ok (some b)) :
    forSearch lo hi body = .ok (some b) := by
  unfold forSearch
  generalize hn : hi - lo = n
  induction n generalizing lo with
  | zero => omega
  | succ n ih =>
    by_cases hlk : lo = k
    · subst hlk; simp only [searchN, hb, Res.ok_bind]
    · simp only [searchN, h lo (Nat.le_refl _) (by omega), Res.ok_bind]
      exact ih (by omega) (fun i h1 h2 => h i (by omega) h2) (by omega)

/-- Search with a decidable test: the general form. -/
theorem forSearch_decide {lo hi : Nat} {p : Nat → Prop} [DecidablePred p] {b : β}
    {body : Nat → Res (Option β)}
    (h : ∀ i, lo ≤ i → i < hi → body i = .ok (if p i then some b else none)) :
    (forSearch lo hi body = .ok (some b) ∧ ∃ i, lo ≤ i ∧ i < hi ∧ p i) ∨
    (forSearch lo hi body = .ok none ∧ ∀ i, lo ≤ i → i < hi → ¬ p i) := by
  unfold forSearch
  generalize hn : hi - lo = n
  induction n generalizing lo with
  | zero => right; exact ⟨rfl, fun i h1 h2 => by omega⟩
  | succ n ih =>
    by_cases hp : p lo
    · left
      simp only [searchN, h lo (Nat.le_refl _) (by omega), if_pos hp, Res.ok_bind]
      exact ⟨trivial, lo, Nat.le_refl _, by omega, hp⟩
    · simp only [searchN, h lo (Nat.le_refl _) (by omega), if_neg hp, Res.ok_bind]
      rcases ih (lo := lo + 1) (fun i h1 h2 => h i (by omega) h2) (by omega) with ⟨e, i, h1, h2, h3⟩ | ⟨e, hh⟩
      · left; exact ⟨e, i, by omega, h2, h3⟩
      · right; refine ⟨e, fun i h1 h2 => ?_⟩
        by_cases hil : i = lo
        · subst hil; exact hp
        · exact hh i (by omega) h2

theorem whileFuel_none {step : σ → Res (Option σ)} {s : σ} (h : step s = .ok none) (n : Nat) :
    whileFuel step (n + 1) s = .ok s := by simp [whileFuel, h]

theorem whileFuel_some {step : σ → Res (Option σ)} {s s' : σ} (h : step s = .ok (some s')) (n : Nat) :
    whileFuel step (n + 1) s = whileFuel step n s' := by simp [whileFuel, h]

/-- Partial-correctness rule for fuelled loops. -/
theorem whileFuel_inv_ok {step : σ → Res (Option σ)} (I : σ → Prop) {s t : σ} {n : Nat} (h0 : I s)
    (hs : ∀ s s', I s → step s = .ok (some s') → I s') (ht : whileFuel step n s = .ok t) :
    I t ∧ step t = .ok none := by
  induction n generalizing s with
  | zero => simp [whileFuel] at ht
  | succ n ih =>
    simp only [whileFuel, Res.bind_eq_ok] at ht
    obtain ⟨o, e1, e2⟩ := ht
    cases o with
    | none => simp at e2; subst e2; exact ⟨h0, e1⟩
    | some s' => exact ih (hs s s' h0 e1) e2

end Malg
