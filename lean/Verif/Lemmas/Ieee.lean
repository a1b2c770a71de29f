import Verif.Model.Ieee
import Verif.Lemmas.Reads
import Verif.Props.Rounding
/-!
# IEEE arithmetic and the arithmetic without a largest exponent
-/
namespace Malg
namespace Ieee
variable {K : Type} [Field K] [LinearOrder K] [IsStrictOrderedRing K] [FloorRing K] {p : ℕ} {emin : ℤ} {emax : ℕ}

/-- Neither an infinity nor a NaN. -/
def Finite (a : Ieee K p emin emax) : Prop := a.fl.isSome

instance (a : Ieee K p emin emax) : Decidable a.Finite := inferInstanceAs (Decidable (_ = true))

/-- The finite number; zero if there is none. -/
def flD (a : Ieee K p emin emax) : Fl K p emin := a.fl.getD 0

/-- The value; zero for infinities and NaN. -/
def val (a : Ieee K p emin emax) : K := a.flD.val

theorem Finite.fl_eq {a : Ieee K p emin emax} (h : a.Finite) : a.fl = some a.flD := by
  obtain ⟨c, hc⟩ := Option.isSome_iff_exists.1 h
  unfold flD; rw [hc]; rfl
theorem Finite.eq {a : Ieee K p emin emax} {y : Fl K p emin} (h : a.Finite) (hr : Rd fl a y) : a.flD = y := hr _ h.fl_eq
theorem fl_lt {a : Ieee K p emin emax} {x : Fl K p emin} (h : a.fl = some x) : |x.val| < 2 ^ emax := by
  match a with
  | fin y z hz hx => injection h with h; subst h; exact hx
  | inf s => cases h
  | nan => cases h

theorem fl_mk_some {s : Bool} {r : K} {c : Fl K p emin} (h : (mk s r : Ieee K p emin emax).fl = some c) :
    c = Fl.of p emin r ∧ |(Fl.of p emin r).val| < 2 ^ emax := by
  unfold mk at h
  split at h
  · next hr => injection h with h; exact ⟨h.symm, hr⟩
  · cases h
theorem fl_mk {s : Bool} {r : K} (h : |(Fl.of p emin r).val| < 2 ^ emax) :
    (mk s r : Ieee K p emin emax).fl = some (Fl.of p emin r) := by
  unfold mk; rw [dif_pos h]; rfl

theorem fl_add_some {a b : Ieee K p emin emax} {c : Fl K p emin} (h : (a + b).fl = some c) :
    ∃ x y, a.fl = some x ∧ b.fl = some y ∧ c = x + y ∧ |(x + y).val| < 2 ^ emax := by
  match a, b with
  | fin x _ _ _, fin y _ _ _ => exact ⟨x, y, rfl, rfl, fl_mk_some h⟩
  | nan, _ => cases h
  | inf _, nan => cases h
  | fin .., nan => cases h
  | inf s, inf t =>
    have e : (inf s + inf t : Ieee K p emin emax) = if s = t then inf s else nan := rfl
    rw [e] at h
    split at h <;> cases h
  | inf s, fin .. => cases h
  | fin .., inf t => cases h
theorem fl_add {a b : Ieee K p emin emax} {x y : Fl K p emin} (ha : a.fl = some x) (hb : b.fl = some y) (h : |(x + y).val| < 2 ^ emax) :
    (a + b).fl = some (x + y) := by
  match a, b with
  | fin x' _ _ _, fin y' _ _ _ =>
    injection ha with ha; injection hb with hb
    subst ha hb
    exact fl_mk h
  | nan, _ => cases ha
  | inf _, _ => cases ha
  | fin .., nan => cases hb
  | fin .., inf _ => cases hb

theorem fl_neg (a : Ieee K p emin emax) : (-a).fl = a.fl.map (- ·) := by
  match a with
  | nan => rfl
  | inf _ => rfl
  | fin .. => rfl

theorem _root_.Malg.Fl.sub_eq (x y : Fl K p emin) : x - y = x + -y := by
  apply Fl.ext
  show rnd p emin (x.val - y.val) = rnd p emin (x.val + -y.val)
  rw [sub_eq_add_neg]

theorem fl_sub_some {a b : Ieee K p emin emax} {c : Fl K p emin} (h : (a - b).fl = some c) :
    ∃ x y, a.fl = some x ∧ b.fl = some y ∧ c = x - y ∧ |(x - y).val| < 2 ^ emax := by
  obtain ⟨x, y, h1, h2, h3, h4⟩ := fl_add_some (b := -b) h
  rw [fl_neg, Option.map_eq_some_iff] at h2
  obtain ⟨y', h2, rfl⟩ := h2
  exact ⟨x, y', h1, h2, by rw [h3, Fl.sub_eq], by rwa [Fl.sub_eq]⟩
theorem fl_sub {a b : Ieee K p emin emax} {x y : Fl K p emin} (ha : a.fl = some x) (hb : b.fl = some y) (h : |(x - y).val| < 2 ^ emax) :
    (a - b).fl = some (x - y) := by
  rw [Fl.sub_eq] at h ⊢
  exact fl_add ha (by rw [fl_neg, hb]; rfl) h

theorem fl_mul_some {a b : Ieee K p emin emax} {c : Fl K p emin} (h : (a * b).fl = some c) :
    ∃ x y, a.fl = some x ∧ b.fl = some y ∧ c = x * y ∧ |(x * y).val| < 2 ^ emax := by
  match a, b with
  | fin x _ _ _, fin y _ _ _ => exact ⟨x, y, rfl, rfl, fl_mk_some h⟩
  | nan, _ => cases h
  | inf _, nan => cases h
  | fin .., nan => cases h
  | inf s, inf t => cases h
  | inf s, fin y z hz hy =>
    have e : (inf s * fin y z hz hy : Ieee K p emin emax) = if y.val = 0 then nan else inf (s ^^ sign (fin y z hz hy)) := rfl
    rw [e] at h
    split at h <;> cases h
  | fin y z hz hy, inf s =>
    have e : (fin y z hz hy * inf s : Ieee K p emin emax) = if y.val = 0 then nan else inf (sign (fin y z hz hy) ^^ s) := rfl
    rw [e] at h
    split at h <;> cases h
theorem fl_mul {a b : Ieee K p emin emax} {x y : Fl K p emin} (ha : a.fl = some x) (hb : b.fl = some y) (h : |(x * y).val| < 2 ^ emax) :
    (a * b).fl = some (x * y) := by
  match a, b with
  | fin x' _ _ _, fin y' _ _ _ =>
    injection ha with ha; injection hb with hb
    subst ha hb
    exact fl_mk h
  | nan, _ => cases ha
  | inf _, _ => cases ha
  | fin .., nan => cases hb
  | fin .., inf _ => cases hb

theorem _root_.Malg.Fl.one_val (hp : 1 ≤ p) (he : emin ≤ 0) : (1 : Fl K p emin).val = 1 :=
  rnd_exact hp ⟨1, 0, he, by rw [abs_one]; exact one_le_pow₀ one_le_two, by simp⟩

theorem reads (hp : 1 ≤ p) (he : emin ≤ 0) (hx : 1 ≤ emax) : Reads (fl (K := K) (p := p) (emin := emin) (emax := emax)) where
  zero := rfl
  one := by
    refine fl_mk ?_
    have : (Fl.of p emin (1 : K)).val = 1 := Fl.one_val hp he
    rw [this, abs_one]
    exact one_lt_pow₀ one_lt_two (by omega)
  add h := by obtain ⟨x, y, h1, h2, h3, -⟩ := fl_add_some h; exact ⟨x, y, h1, h2, h3⟩
  sub h := by obtain ⟨x, y, h1, h2, h3, -⟩ := fl_sub_some h; exact ⟨x, y, h1, h2, h3⟩
  mul h := by obtain ⟨x, y, h1, h2, h3, -⟩ := fl_mul_some h; exact ⟨x, y, h1, h2, h3⟩

theorem add_finite {a b : Ieee K p emin emax} : (a + b).Finite ↔ a.Finite ∧ b.Finite ∧ |(a.flD + b.flD).val| < 2 ^ emax := by
  constructor
  · intro h
    obtain ⟨c, hc⟩ := Option.isSome_iff_exists.1 h
    obtain ⟨x, y, h1, h2, -, h4⟩ := fl_add_some hc
    refine ⟨Option.isSome_iff_exists.2 ⟨x, h1⟩, Option.isSome_iff_exists.2 ⟨y, h2⟩, ?_⟩
    unfold flD
    rw [h1, h2]; exact h4
  · rintro ⟨h1, h2, h3⟩
    exact Option.isSome_iff_exists.2 ⟨_, fl_add h1.fl_eq h2.fl_eq h3⟩
theorem sub_finite {a b : Ieee K p emin emax} : (a - b).Finite ↔ a.Finite ∧ b.Finite ∧ |(a.flD - b.flD).val| < 2 ^ emax := by
  constructor
  · intro h
    obtain ⟨c, hc⟩ := Option.isSome_iff_exists.1 h
    obtain ⟨x, y, h1, h2, -, h4⟩ := fl_sub_some hc
    refine ⟨Option.isSome_iff_exists.2 ⟨x, h1⟩, Option.isSome_iff_exists.2 ⟨y, h2⟩, ?_⟩
    unfold flD
    rw [h1, h2]; exact h4
  · rintro ⟨h1, h2, h3⟩
    exact Option.isSome_iff_exists.2 ⟨_, fl_sub h1.fl_eq h2.fl_eq h3⟩
theorem mul_finite {a b : Ieee K p emin emax} : (a * b).Finite ↔ a.Finite ∧ b.Finite ∧ |(a.flD * b.flD).val| < 2 ^ emax := by
  constructor
  · intro h
    obtain ⟨c, hc⟩ := Option.isSome_iff_exists.1 h
    obtain ⟨x, y, h1, h2, -, h4⟩ := fl_mul_some hc
    refine ⟨Option.isSome_iff_exists.2 ⟨x, h1⟩, Option.isSome_iff_exists.2 ⟨y, h2⟩, ?_⟩
    unfold flD
    rw [h1, h2]; exact h4
  · rintro ⟨h1, h2, h3⟩
    exact Option.isSome_iff_exists.2 ⟨_, fl_mul h1.fl_eq h2.fl_eq h3⟩

theorem zero_finite : (0 : Ieee K p emin emax).Finite := rfl

/-- A sum is finite exactly when the terms are and no partial sum overflows. -/
theorem lsum_finite {t : Nat → Ieee K p emin emax} {k : Nat} :
    (lsum k t).Finite ↔ (∀ i, i < k → (t i).Finite) ∧ ∀ m, m ≤ k → |(lsum m fun i => (t i).flD).val| < 2 ^ emax := by
  have hval : ∀ j, (lsum j t).Finite → (lsum j t).flD = lsum j fun i => (t i).flD := by
    intro j
    induction j with
    | zero => intro _; rfl
    | succ j ih =>
      intro h
      obtain ⟨h1, h2, h3⟩ := add_finite.1 h
      have := fl_add h1.fl_eq h2.fl_eq h3
      rw [lsum, lsum, ← ih h1]
      exact Option.some_inj.1 (h.fl_eq.symm.trans this)
  have h0 : |(0 : Fl K p emin).val| < 2 ^ emax := by
    have : (0 : Fl K p emin).val = 0 := rfl
    rw [this, abs_zero]; exact pow_pos zero_lt_two _
  induction k with
  | zero =>
    exact ⟨fun _ => ⟨fun i hi => absurd hi (Nat.not_lt_zero i), fun m hm => by rw [Nat.le_zero.1 hm]; exact h0⟩, fun _ => zero_finite⟩
  | succ k ih =>
    refine (add_finite.trans (and_congr_left' ih)).trans ?_
    constructor
    · rintro ⟨⟨h1, h2⟩, h3, h4⟩
      rw [hval k (ih.2 ⟨h1, h2⟩)] at h4
      refine ⟨fun i hi => ?_, fun m hm => ?_⟩
      · by_cases e : i = k
        · exact e ▸ h3
        · exact h1 i (by omega)
      · by_cases e : m = k + 1
        · rw [e]; exact h4
        · exact h2 m (by omega)
    · rintro ⟨h1, h2⟩
      have h3 : (∀ i, i < k → (t i).Finite) ∧ ∀ m, m ≤ k → |(lsum m fun i => (t i).flD).val| < 2 ^ emax :=
        ⟨fun i hi => h1 i (by omega), fun m hm => h2 m (by omega)⟩
      refine ⟨h3, h1 k (by omega), ?_⟩
      rw [hval k (ih.2 h3)]
      exact h2 (k + 1) le_rfl

end Ieee
end Malg
