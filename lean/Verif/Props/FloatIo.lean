import Verif.Model.FloatIo
import Verif.Lemmas.Radix
import Verif.Props.IoExact
/-!
# C112: floating point numbers in files
-/
namespace Malg
open Io

/-! ## The numbers in a text -/

/-- `t` is a decimal number without a sign, with the value `q`: digits with at most one decimal point among them, and possibly an
exponent. -/
def IsUDecimal (t : List Char) (q : ℚ) : Prop :=
  ∃ (ip pt fs ex : List Char) (e : Int), t = ip ++ pt ++ ex ∧ (∀ d ∈ ip ++ fs, '0' ≤ d ∧ d ≤ '9') ∧ ip ++ fs ≠ [] ∧
    (pt = '.' :: fs ∨ pt = [] ∧ fs = []) ∧ (ex = [] ∧ e = 0 ∨ ∃ c n, ex = c :: n ∧ (c = 'e' ∨ c = 'E') ∧ IsNumeral n e) ∧
    q = (Nat.ofDigits 10 ((ip ++ fs).reverse.map fun d => d.toNat - 48) : Nat) * 10 ^ (e - fs.length)

/-- `t` is a decimal number with the value `q`, possibly with a sign. -/
def IsDecimal (t : List Char) (q : ℚ) : Prop :=
  ∃ (sg u : List Char) (q' : ℚ), t = sg ++ u ∧ (sg = [] ∨ sg = ['+'] ∨ sg = ['-']) ∧ IsUDecimal u q' ∧
    q = (if sg = ['-'] then -1 else 1) * q'

/-- The text does not continue a decimal number. -/
def NoDecimal (l : List Char) : Prop := ∀ d r, l = d :: r → ¬ ('0' ≤ d ∧ d ≤ '9') ∧ d ≠ '.' ∧ d ≠ 'e' ∧ d ≠ 'E'

theorem rnd_rat_nonneg {p : ℕ} {emin : ℤ} {q : ℚ} (h : 0 ≤ q) : 0 ≤ rnd p emin q := by
  refine mul_nonneg ?_ (two_zpow_pos _).le
  have : (0 : ℤ) ≤ rne (q / 2 ^ lastExp p emin q) := le_rne (by simpa using div_nonneg h (two_zpow_pos _).le)
  exact_mod_cast this

theorem IsUDecimal.nonneg {t : List Char} {q : ℚ} (h : IsUDecimal t q) : 0 ≤ q := by
  obtain ⟨ip, pt, fs, ex, e, -, -, -, -, -, rfl⟩ := h
  exact mul_nonneg (Nat.cast_nonneg _) (ten_zpow_pos _).le

theorem udecimal_head {u r : List Char} {q : ℚ} (h : IsUDecimal u q) :
    ∃ c l, u ++ r = c :: l ∧ isSpace c = false ∧ c ≠ '-' ∧ c ≠ '+' := by
  obtain ⟨ip, pt, fs, ex, e, rfl, hd, hne, hpt, -, -⟩ := h
  cases ip with
  | cons d ip =>
    have hd := hd d (by simp)
    refine ⟨d, _, rfl, ?_, ?_, ?_⟩
    · exact isSpace_of_isDigit ((isDigit_iff d).2 hd)
    · rintro rfl; exact absurd hd (by decide)
    · rintro rfl; exact absurd hd (by decide)
  | nil =>
    rcases hpt with rfl | ⟨-, rfl⟩
    · exact ⟨'.', _, rfl, by decide, by decide, by decide⟩
    · exact absurd rfl hne

theorem splitSign_udecimal {sg u r : List Char} {q : ℚ} (hs : sg = [] ∨ sg = ['+'] ∨ sg = ['-']) (h : IsUDecimal u q) :
    splitSign (sg ++ u ++ r) = (decide (sg = ['-']), u ++ r) := by
  rcases hs with rfl | rfl | rfl
  · obtain ⟨c, l, hc, -, h1, h2⟩ := udecimal_head (r := r) h
    rw [List.nil_append, hc]
    unfold splitSign
    split
    · rename_i e; exact absurd (List.cons.inj e).1 h1
    · rename_i e; exact absurd (List.cons.inj e).1 h2
    · rfl
  · rfl
  · rfl

theorem splitExp_of {ex r : List Char} {e : Int} (h : ex = [] ∧ e = 0 ∨ ∃ c n, ex = c :: n ∧ (c = 'e' ∨ c = 'E') ∧ IsNumeral n e)
    (hr : NoDecimal r) : splitExp (ex ++ r) = (some e, r) := by
  rcases h with ⟨rfl, rfl⟩ | ⟨c, n, rfl, hc, sg, ds, rfl, hs, hne, hd, rfl⟩
  · cases r with
    | nil => rfl
    | cons d r =>
      obtain ⟨-, -, h1, h2⟩ := hr d r rfl
      simp [splitExp, h1, h2]
  · obtain ⟨h1, h2⟩ := takeWhile_digits hd (fun d l h => (hr d l h).1)
    have he : ds.isEmpty = false := by
      cases ds with
      | nil => exact absurd rfl hne
      | cons d ds => rfl
    rw [List.cons_append, splitExp, if_pos hc, splitSign_numeral hs hne hd]
    dsimp only
    rw [h1, h2, he, ← natOf_eq]
    by_cases hm : sg = ['-']
    · simp [hm]
    · simp [hm]

theorem splitPoint_of {pt fs r : List Char} (h : pt = '.' :: fs ∨ pt = [] ∧ fs = []) (hd : ∀ d ∈ fs, '0' ≤ d ∧ d ≤ '9')
    (hr : ∀ d l, r = d :: l → ¬ ('0' ≤ d ∧ d ≤ '9') ∧ d ≠ '.') : splitPoint (pt ++ r) = (fs, r) := by
  rcases h with rfl | ⟨rfl, rfl⟩
  · obtain ⟨h1, h2⟩ := takeWhile_digits hd (fun d l h => (hr d l h).1)
    simp only [List.cons_append, splitPoint, h1, h2]
  · rw [List.nil_append]
    unfold splitPoint
    split
    · exact absurd rfl (hr _ _ rfl).2
    · rfl

/-- What the extraction does with a decimal number. -/
theorem parseFloat_eq {p : ℕ} {emin emax : ℤ} {t r : List Char} {q : ℚ} (ht : IsDecimal t q) (hr : NoDecimal r) :
    parseFloat p emin emax (t ++ r) =
      if |rnd p emin q| < 2 ^ emax then ⟨some (.of p emin q), r, true, r.isEmpty⟩
      else ⟨some (if q < 0 then -Fl.largest p emin emax else Fl.largest p emin emax), r, false, r.isEmpty⟩ := by
  obtain ⟨sg, u, q', rfl, hs, hu, rfl⟩ := ht
  have hq0 := hu.nonneg
  unfold parseFloat
  rw [splitSign_udecimal hs hu]
  dsimp only
  obtain ⟨ip, pt, fs, ex, e, rfl, hd, hne, hpt, hex, hq'⟩ := hu
  have hexr : ∀ d l, ex ++ r = d :: l → ¬ ('0' ≤ d ∧ d ≤ '9') ∧ d ≠ '.' := by
    intro d l h
    rcases hex with ⟨rfl, -⟩ | ⟨c, n, rfl, hc, -⟩
    · exact ⟨(hr d l h).1, (hr d l h).2.1⟩
    · obtain ⟨rfl, -⟩ := List.cons.inj h
      rcases hc with rfl | rfl <;> exact ⟨by decide, by decide⟩
  have hnd : NoDigit (pt ++ (ex ++ r)) := by
    rcases hpt with rfl | ⟨rfl, -⟩
    · intro d l h
      obtain ⟨rfl, -⟩ := List.cons.inj h
      decide
    · exact fun d l h => (hexr d l h).1
  obtain ⟨h1, h2⟩ := takeWhile_digits (fun d hm => hd d (List.mem_append_left _ hm)) hnd
  rw [show ip ++ pt ++ ex ++ r = ip ++ (pt ++ (ex ++ r)) by simp, h1, h2,
    splitPoint_of hpt (fun d hm => hd d (List.mem_append_right _ hm)) hexr]
  dsimp only
  have he : (ip ++ fs).isEmpty = false := by
    cases hl : ip ++ fs with
    | nil => exact absurd hl hne
    | cons d ds => rfl
  rw [he, if_neg (by decide), splitExp_of hex hr]
  dsimp only
  rw [natOf_eq, ← hq']
  have hn := rnd_rat_nonneg (p := p) (emin := emin) hq0
  by_cases hm : sg = ['-']
  · simp only [hm, decide_true, if_true, neg_mul, one_mul, rnd_neg, abs_neg, abs_of_nonneg hn]
    by_cases hb : rnd p emin q' < 2 ^ emax
    · rw [if_pos hb, if_neg (not_le.2 hb)]
    · have : 0 < q' := by
        rcases hq0.lt_or_eq with h | h
        · exact h
        · exfalso
          rw [← h] at hb
          apply hb
          have : rnd p emin (0 : ℚ) = 0 := by
            simp only [rnd, zero_div, show rne (0 : ℚ) = 0 by exact_mod_cast rne_int (K := ℚ) 0]; simp
          rw [this]; exact two_zpow_pos _
      rw [if_neg hb, if_pos (not_lt.1 hb), if_pos (by linarith)]
  · simp only [hm, decide_false, if_false, Bool.false_eq_true, one_mul, abs_of_nonneg hn]
    by_cases hb : rnd p emin q' < 2 ^ emax
    · rw [if_pos hb, if_neg (not_le.2 hb)]
    · rw [if_neg hb, if_pos (not_lt.1 hb), if_neg (not_lt.2 hq0)]

theorem decimal_head {t r : List Char} {q : ℚ} (h : IsDecimal t q) : ∃ c l, t ++ r = c :: l ∧ isSpace c = false := by
  obtain ⟨sg, u, q', rfl, hs, hu, -⟩ := h
  rcases hs with rfl | rfl | rfl
  · obtain ⟨c, l, h1, h2, -⟩ := udecimal_head (r := r) hu
    exact ⟨c, l, h1, h2⟩
  · exact ⟨'+', _, rfl, by decide⟩
  · exact ⟨'-', _, rfl, by decide⟩

/-- C112: a decimal number in a text is read as the nearest number of the format, halves to even; one that is too large leaves the
largest number and makes the stream fail. -/
theorem C112_number {p : ℕ} {emin emax : ℤ} (P : Nat) {ws t r : List Char} {q : ℚ} (hws : AllSpace ws) (ht : IsDecimal t q)
    (hr : NoDecimal r) :
    (floatCodec p emin emax P).read ⟨ws ++ t ++ r, false, false⟩ =
      if |rnd p emin q| < 2 ^ emax then (some (.of p emin q), ⟨r, r.isEmpty, false⟩)
      else (some (if q < 0 then -Fl.largest p emin emax else Fl.largest p emin emax), ⟨r, r.isEmpty, true⟩) := by
  have hsen : sentry ⟨ws ++ t ++ r, false, false⟩ = (some (t ++ r), ⟨t ++ r, false, false⟩) := by
    unfold sentry
    rw [if_neg (by simp)]
    dsimp only
    obtain ⟨c, l, hc, hc'⟩ := decimal_head (r := r) ht
    rw [List.append_assoc, dropWhile_space hws ⟨c, l, hc, hc'⟩, hc]
  unfold Codec.read
  rw [hsen]
  dsimp only
  rw [show (floatCodec p emin emax P).parse = parseFloat p emin emax from rfl, parseFloat_eq ht hr]
  split <;> rfl

theorem splitPoint_spec (l : List Char) : ∃ pt, l = pt ++ (splitPoint l).2 ∧ (∀ d ∈ (splitPoint l).1, '0' ≤ d ∧ d ≤ '9') ∧
    (pt = '.' :: (splitPoint l).1 ∨ pt = [] ∧ (splitPoint l).1 = []) := by
  unfold splitPoint
  split
  · rename_i l
    obtain ⟨h1, h2, -⟩ := digits_split l
    exact ⟨'.' :: l.takeWhile isDigit, by dsimp only; rw [List.cons_append, ← h1], h2, Or.inl rfl⟩
  · exact ⟨[], rfl, by simp, Or.inr ⟨rfl, rfl⟩⟩

theorem splitExp_spec {l r : List Char} {e : Int} (h : splitExp l = (some e, r)) :
    ∃ ex, l = ex ++ r ∧ (ex = [] ∧ e = 0 ∨ ∃ c n, ex = c :: n ∧ (c = 'e' ∨ c = 'E') ∧ IsNumeral n e) := by
  cases l with
  | nil => obtain ⟨h1, rfl⟩ := Prod.mk.inj h; exact ⟨[], rfl, Or.inl ⟨rfl, (Option.some.inj h1).symm⟩⟩
  | cons c l =>
    rw [splitExp] at h
    split at h
    · rename_i hc
      obtain ⟨sg, hsg, hl, hneg⟩ := splitSign_spec l
      obtain ⟨hd1, hd2, -⟩ := digits_split (splitSign l).2
      dsimp only at h
      obtain ⟨h1, h2⟩ := Prod.mk.inj h
      split at h1
      · cases h1
      rename_i hne
      refine ⟨c :: (sg ++ (splitSign l).2.takeWhile isDigit), ?_, Or.inr ⟨c, _, rfl, hc, sg, _, rfl, hsg, ?_, hd2, ?_⟩⟩
      · rw [← h2, List.cons_append, List.append_assoc, ← hd1, ← hl]
      · intro h0; rw [h0] at hne; exact hne rfl
      · rw [← Option.some.inj h1, hneg, natOf_eq]
        by_cases hm : sg = ['-']
        · simp [hm]
        · simp [hm]
    · obtain ⟨h1, rfl⟩ := Prod.mk.inj h; exact ⟨[], rfl, Or.inl ⟨rfl, (Option.some.inj h1).symm⟩⟩

/-- C112: if reading a floating point number does not fail, a decimal number stands in the text, and the number read is the one
nearest to it. -/
theorem C112_number_exact {p : ℕ} {emin emax : ℤ} {P : Nat} {s s' : IStream} {x : Fl ℚ p emin}
    (h : (floatCodec p emin emax P).read s = (some x, s')) (hf : s'.fail = false) :
    ∃ ws t q, s.rest = ws ++ t ++ s'.rest ∧ AllSpace ws ∧ IsDecimal t q ∧ x.val = rnd p emin q ∧ |x.val| < 2 ^ emax := by
  unfold Codec.read at h
  split at h
  · rename_i l s0 hsen
    obtain ⟨ws, hws, hl⟩ := sentry_some hsen
    obtain ⟨h1, h2⟩ := Prod.mk.inj h
    rw [show (floatCodec p emin emax P).parse l = parseFloat p emin emax l from rfl] at h1 h2
    obtain ⟨sg, hsg, hl2, hneg⟩ := splitSign_spec l
    obtain ⟨hd1, hd2, -⟩ := digits_split (splitSign l).2
    obtain ⟨pt, hp1, hp2, hp3⟩ := splitPoint_spec ((splitSign l).2.dropWhile isDigit)
    unfold parseFloat at h1 h2
    dsimp only at h1 h2
    split at h1
    · rename_i c; rw [if_pos c] at h2; subst h2; cases hf
    rename_i c
    rw [if_neg c] at h2
    split at h1
    · rename_i r he; rw [he] at h2; subst h2; cases hf
    rename_i e r he
    rw [he] at h2
    dsimp only at h2
    obtain ⟨ex, hx1, hx2⟩ := splitExp_spec he
    split at h1
    · rename_i c; rw [if_pos c] at h2; subst h2; cases hf
    rename_i c2
    rw [if_neg c2] at h2
    subst h2
    have h1 := Option.some.inj h1
    have hu : IsUDecimal ((splitSign l).2.takeWhile isDigit ++ pt ++ ex) _ := ⟨_, pt, _, ex, e, rfl, by
        intro d hd
        rcases List.mem_append.1 hd with hd | hd
        · exact hd2 d hd
        · exact hp2 d hd, fun h0 => c (by rw [h0]; rfl), hp3, hx2, rfl⟩
    rw [← natOf_eq] at hu
    have hn := rnd_rat_nonneg (p := p) (emin := emin) hu.nonneg
    refine ⟨ws, sg ++ ((splitSign l).2.takeWhile isDigit ++ pt ++ ex), _, ?_, hws, ⟨sg, _, _, rfl, hsg, hu, rfl⟩, ?_, ?_⟩
    · dsimp only
      rw [hl, List.append_assoc, List.append_assoc, List.append_assoc, List.append_assoc, ← hx1, ← hp1, ← hd1, ← hl2]
    · rw [← h1, hneg]
      by_cases hm : sg = ['-']
      · simp [hm, Fl.of]
      · simp [hm, Fl.of]
    · rw [← h1, hneg]
      by_cases hm : sg = ['-']
      · simp only [hm, decide_true, if_true, Fl.of, rnd_neg, abs_neg, abs_of_nonneg hn]
        exact not_le.1 c2
      · simp only [hm, decide_false, Bool.false_eq_true, if_false, Fl.of, abs_of_nonneg hn]
        exact not_le.1 c2
  · cases (Prod.mk.inj h).1

example : (doubleCodec 6).read (.start " -12.5e-1 7".toList) = (some (.of 53 (-1074) (-5 / 4)), ⟨" 7".toList, false, false⟩) := by
  decide +kernel
example : (doubleCodec 6).read (.start "1e".toList) = (some 0, ⟨[], true, true⟩) ∧
    (doubleCodec 6).read (.start ".5x".toList) = (some (.of 53 (-1074) (1 / 2)), ⟨['x'], false, false⟩) ∧
    (singleCodec 6).read (.start "1e39".toList) = (some (Fl.largest 24 (-149) 128), ⟨[], true, true⟩) := by
  decide +kernel

/-- C112: the number that a failed extraction of a too large text gives is the largest of the format. -/
theorem C112_largest {p : ℕ} (hp : 1 ≤ p) {emin emax : ℤ} (he : emin ≤ emax - p) :
    (Fl.largest p emin emax).val < 2 ^ emax ∧ ∀ x : Fl ℚ p emin, x.val < 2 ^ emax → x.val ≤ (Fl.largest p emin emax).val := by
  have h2 : (1 : ℤ) ≤ 2 ^ p := by exact_mod_cast Nat.one_le_two_pow
  have hv : (Fl.largest p emin emax).val = ((2 ^ p - 1 : ℤ) : ℚ) * 2 ^ (emax - p) := by
    show rnd p emin _ = _
    rw [rnd_exact hp ⟨2 ^ p - 1, emax - p, he, by rw [abs_of_nonneg (by omega)]; omega, by push_cast; rfl⟩]
    push_cast; rfl
  have e2 : (2 : ℚ) ^ emax = ((2 ^ p : ℤ) : ℚ) * 2 ^ (emax - p) := by
    push_cast
    rw [← zpow_natCast, ← zpow_add₀ two_ne_zero]; congr 1; ring
  have hpos : (0 : ℚ) < 2 ^ (emax - p) := two_zpow_pos _
  refine ⟨?_, fun x hx => ?_⟩
  · rw [hv, e2]
    exact mul_lt_mul_of_pos_right (by exact_mod_cast (by omega : (2 ^ p - 1 : ℤ) < 2 ^ p)) hpos
  · obtain ⟨m, e, h1, h3, h4⟩ := x.isFl
    rw [hv]
    rw [h4] at hx ⊢
    rcases le_or_gt (emax - p) e with hle | hlt
    · obtain ⟨d, rfl⟩ : ∃ d : ℕ, e = emax - p + d := ⟨(e - (emax - p)).toNat, by omega⟩
      have e5 : (m : ℚ) * 2 ^ (emax - p + d : ℤ) = ((m * 2 ^ d : ℤ) : ℚ) * 2 ^ (emax - p) := by
        rw [zpow_add₀ two_ne_zero, zpow_natCast]; push_cast; ring
      rw [e5, e2] at hx
      rw [e5]
      have : (m * 2 ^ d : ℤ) < 2 ^ p := by exact_mod_cast lt_of_mul_lt_mul_right hx hpos.le
      exact mul_le_mul_of_nonneg_right (by exact_mod_cast (by omega : m * 2 ^ d ≤ 2 ^ p - 1)) hpos.le
    · have hm : m ≤ 2 ^ p := (le_abs_self m).trans h3
      obtain ⟨q, rfl⟩ : ∃ q, p = q + 1 := ⟨p - 1, by omega⟩
      have hq : (1 : ℤ) ≤ 2 ^ q := by exact_mod_cast Nat.one_le_two_pow
      calc (m : ℚ) * 2 ^ e ≤ ((2 ^ (q + 1) : ℤ) : ℚ) * 2 ^ (emax - (q + 1 : ℕ) - 1) := by
            refine mul_le_mul (by exact_mod_cast hm) (zpow_le_zpow_right₀ (by norm_num) (by omega)) (two_zpow_pos e).le (by positivity)
        _ = ((2 ^ q : ℤ) : ℚ) * 2 ^ (emax - (q + 1 : ℕ)) := by
            rw [zpow_sub_one₀ two_ne_zero]; push_cast; rw [pow_succ]; field_simp
        _ ≤ _ := mul_le_mul_of_nonneg_right (by exact_mod_cast (by rw [pow_succ]; omega : (2 : ℤ) ^ q ≤ 2 ^ (q + 1) - 1)) hpos.le
/-- The largest `double`. -/
example : (Fl.largest 53 (-1074) 1024).val = 2 ^ 1024 - 2 ^ 971 := by decide +kernel

/-! ## The text of a number -/

theorem fmtNatF_length (fuel k n : Nat) (h : n < fuel) (h1 : n < 10 ^ (k + 1)) (h2 : k = 0 ∨ 10 ^ k ≤ n) :
    (fmtNatF fuel n).length = k + 1 := by
  induction fuel generalizing k n with
  | zero => omega
  | succ fuel ih =>
    unfold fmtNatF
    cases k with
    | zero =>
      rw [if_pos (by simpa using h1)]; rfl
    | succ k =>
      have h2 := h2.resolve_left (by omega)
      have h3 : 1 ≤ 10 ^ k := Nat.one_le_pow _ _ (by omega)
      rw [pow_succ] at h1 h2
      rw [if_neg (by omega), List.length_append, ih k (n / 10) (by omega) (by omega) (Or.inr (by omega))]
      rfl

theorem fmtNat_length {k n : Nat} (h1 : n < 10 ^ (k + 1)) (h2 : 10 ^ k ≤ n) : (fmtNat n).length = k + 1 :=
  fmtNatF_length _ _ _ (Nat.lt_succ_self n) h1 (Or.inr h2)

theorem stripZeros_spec (l : List Char) : ∃ k, l = stripZeros l ++ List.replicate k '0' := by
  refine ⟨(l.reverse.takeWhile (· == '0')).length, ?_⟩
  have h : l.reverse.takeWhile (· == '0') = List.replicate (l.reverse.takeWhile (· == '0')).length '0' :=
    List.eq_replicate_iff.2 ⟨rfl, fun c hc => by simpa using List.mem_takeWhile_imp hc⟩
  have h2 := List.takeWhile_append_dropWhile (p := (· == '0')) (l := l.reverse)
  rw [h] at h2
  have h3 := congrArg List.reverse h2
  rw [List.reverse_append, List.reverse_reverse, List.reverse_replicate] at h3
  exact h3.symm

theorem natOf_append (l m : List Char) : natOf (l ++ m) = m.foldl (fun a c => 10 * a + (c.toNat - 48)) (natOf l) := by
  simp [natOf, List.foldl_append]

theorem natOf_zeros (l : List Char) (k : Nat) : natOf (l ++ List.replicate k '0') = natOf l * 10 ^ k := by
  induction k with
  | zero => simp
  | succ k ih =>
    rw [List.replicate_succ', ← List.append_assoc, natOf_append, ih, List.foldl_cons, List.foldl_nil, pow_succ]
    show 10 * (natOf l * 10 ^ k) + 0 = _
    ring

theorem natOf_lead (l : List Char) (k : Nat) : natOf (List.replicate k '0' ++ l) = natOf l := by
  rw [natOf_append, show natOf (List.replicate k '0') = 0 by simpa [show natOf [] = 0 from rfl] using natOf_zeros [] k]
  rfl

theorem zpow_join {s a : Nat} {i j : Int} {n : Nat} (h : s = a * 10 ^ n) (hk : (n : Int) + i = j) :
    (s : ℚ) * 10 ^ i = a * 10 ^ j := by
  rw [h, ← hk, zpow_add₀ (by norm_num), zpow_natCast]; push_cast; ring

theorem expPart_spec (X : Int) : ∃ c n, expPart X = c :: n ∧ (c = 'e' ∨ c = 'E') ∧ IsNumeral n X := by
  refine ⟨'e', _, rfl, Or.inl rfl, [if X < 0 then '-' else '+'], if X.natAbs < 10 then '0' :: fmtNat X.natAbs else fmtNat X.natAbs, rfl, ?_,
    ?_, ?_, ?_⟩
  · split <;> simp
  · split
    · simp
    · exact fmtNat_ne_nil _
  · intro d hd
    rw [← isDigit_iff]
    split at hd
    · rcases List.mem_cons.1 hd with rfl | hd
      · decide
      · exact fmtNat_digits _ d hd
    · exact fmtNat_digits _ d hd
  · rw [← natOf_eq]
    have : natOf (if X.natAbs < 10 then '0' :: fmtNat X.natAbs else fmtNat X.natAbs) = X.natAbs := by
      split
      · exact (natOf_lead (fmtNat X.natAbs) 1).trans (natOf_fmtNat _)
      · exact natOf_fmtNat _
    rw [this]
    by_cases h : X < 0
    · simp only [h, if_true]; omega
    · have h' : ¬ (['+'] = ['-']) := by decide
      simp only [h, if_false, h']; omega

theorem fracPart_spec (l : List Char) : fracPart l = '.' :: l ∨ fracPart l = [] ∧ l = [] := by
  cases l with
  | nil => exact Or.inr ⟨rfl, rfl⟩
  | cons c l => exact Or.inl rfl

/-- The text of a number with given digits has their value. -/
theorem fmtGPos_spec {P s : Nat} (X : Int) (h1 : 10 ^ (P - 1) ≤ s) (h2 : s < 10 ^ P) (hP : 1 ≤ P) :
    IsUDecimal (fmtGPos P s X) (s * 10 ^ (X + 1 - P)) := by
  have hlen : (fmtNat s).length = P := by
    rw [fmtNat_length (k := P - 1) (by rwa [Nat.sub_add_cancel hP]) h1, Nat.sub_add_cancel hP]
  have hdig : ∀ d ∈ fmtNat s, '0' ≤ d ∧ d ≤ '9' := fun d hd => (isDigit_iff d).1 (fmtNat_digits s d hd)
  -- splitting the digits somewhere
  have key : ∀ n, ∃ k, natOf ((fmtNat s).take n ++ stripZeros ((fmtNat s).drop n)) * 10 ^ k = s ∧
      (n ≤ P → n + (stripZeros ((fmtNat s).drop n)).length + k = P) ∧
      ∀ d ∈ (fmtNat s).take n ++ stripZeros ((fmtNat s).drop n), '0' ≤ d ∧ d ≤ '9' := by
    intro n
    obtain ⟨k, hk⟩ := stripZeros_spec ((fmtNat s).drop n)
    have hall : fmtNat s = (fmtNat s).take n ++ stripZeros ((fmtNat s).drop n) ++ List.replicate k '0' := by
      rw [List.append_assoc, ← hk, List.take_append_drop]
    refine ⟨k, ?_, ?_, ?_⟩
    · rw [← natOf_zeros, ← hall, natOf_fmtNat]
    · intro hn
      have := congrArg List.length hall
      rw [List.length_append, List.length_append, List.length_take, List.length_replicate, hlen] at this
      omega
    · intro d hd
      apply hdig
      rw [hall]
      exact List.mem_append_left _ hd
  have hne : ∀ n l, 1 ≤ n → (fmtNat s).take n ++ l ≠ [] := by
    intro n l hn h
    have := congrArg List.length h
    rw [List.length_append, List.length_take, hlen, List.length_nil] at this
    omega
  unfold fmtGPos
  dsimp only
  by_cases c1 : 0 ≤ X ∧ X < P
  · rw [if_pos c1]
    obtain ⟨k, hk1, hk2, hk3⟩ := key (X.toNat + 1)
    refine ⟨_, fracPart _, stripZeros ((fmtNat s).drop (X.toNat + 1)), [], 0, by simp, hk3, hne _ _ (by omega), fracPart_spec _,
      Or.inl ⟨rfl, rfl⟩, ?_⟩
    rw [← natOf_eq]
    have := hk2 (by omega)
    exact zpow_join hk1.symm (by omega)
  · rw [if_neg c1]
    by_cases c2 : -4 ≤ X ∧ X < 0
    · rw [if_pos c2]
      obtain ⟨k, hk1, hk2, hk3⟩ := key 0
      simp only [List.take_zero, List.drop_zero, List.nil_append] at hk1 hk2 hk3
      refine ⟨['0'], '.' :: (List.replicate (-X - 1).toNat '0' ++ stripZeros (fmtNat s)), _, [], 0, by simp, ?_, by simp, Or.inl rfl,
        Or.inl ⟨rfl, rfl⟩, ?_⟩
      · intro d hd
        rcases List.mem_append.1 hd with hd | hd
        · rw [List.mem_singleton.1 hd]; decide
        · rcases List.mem_append.1 hd with hd | hd
          · rw [(List.mem_replicate.1 hd).2]; decide
          · exact hk3 d hd
      · rw [← natOf_eq, List.length_append, List.length_replicate, ← List.append_assoc,
          show ['0'] ++ List.replicate (-X - 1).toNat '0' = List.replicate ((-X - 1).toNat + 1) '0' from rfl, natOf_lead]
        have := hk2 (by omega)
        exact zpow_join hk1.symm (by omega)
    · rw [if_neg c2]
      obtain ⟨k, hk1, hk2, hk3⟩ := key 1
      refine ⟨_, fracPart _, stripZeros ((fmtNat s).drop 1), expPart X, X, rfl, hk3, hne _ _ le_rfl, fracPart_spec _, Or.inr (expPart_spec X), ?_⟩
      rw [← natOf_eq]
      have := hk2 (by omega)
      exact zpow_join hk1.symm (by omega)

theorem sciDigits_spec {P : Nat} (hP : 1 ≤ P) {x : ℚ} (hx : x ≠ 0) :
    10 ^ (P - 1) ≤ (sciDigits P x).1 ∧ (sciDigits P x).1 < 10 ^ P ∧
      ((sciDigits P x).1 : ℚ) * 10 ^ ((sciDigits P x).2 + 1 - P) = rndDec P |x| := by
  obtain ⟨Q, rfl⟩ : ∃ Q, P = Q + 1 := ⟨P - 1, by omega⟩
  have hx' := abs_pos.2 hx
  set E := Int.log 10 |x| with hE
  have h10 := ten_zpow_pos (K := ℚ) (E + 1 - (Q + 1 : ℕ))
  set s := rne (|x| / 10 ^ (E + 1 - ((Q + 1 : ℕ) : ℤ))) with hs
  have h1 : (10 : ℚ) ^ E ≤ |x| := by exact_mod_cast Int.zpow_log_le_self (R := ℚ) (b := 10) (by norm_num) hx'
  have h2 : |x| < (10 : ℚ) ^ (E + 1) := by exact_mod_cast Int.lt_zpow_succ_log_self (R := ℚ) (b := 10) (by norm_num) |x|
  have hlo : (10 : ℤ) ^ Q ≤ s := by
    apply le_rne
    rw [le_div_iff₀ h10]
    push_cast
    rw [← zpow_natCast, ← zpow_add₀ (by norm_num)]
    refine (le_of_eq ?_).trans h1
    congr 1; ring
  have hhi : s ≤ (10 : ℤ) ^ (Q + 1) := by
    apply rne_le
    rw [div_le_iff₀ h10]
    push_cast
    rw [← zpow_natCast, ← zpow_add₀ (by norm_num)]
    refine h2.le.trans (le_of_eq ?_)
    congr 1; push_cast; ring
  have hQ : (0 : ℤ) < 10 ^ Q := by positivity
  obtain ⟨n, hn⟩ : ∃ n : ℕ, s = n := ⟨s.toNat, by omega⟩
  rw [hn] at hlo hhi
  have hlo' : 10 ^ Q ≤ n := by exact_mod_cast hlo
  have hhi' : n ≤ 10 ^ (Q + 1) := by exact_mod_cast hhi
  have hd : sciDigits (Q + 1) x = if n = 10 ^ (Q + 1) then (10 ^ Q, E + 1) else (n, E) := by
    unfold sciDigits
    dsimp only
    rw [← hE, ← hs, hn, Int.toNat_natCast]
    rfl
  have hr : rndDec (Q + 1) |x| = n * 10 ^ (E + 1 - ((Q + 1 : ℕ) : ℤ)) := by
    unfold rndDec
    rw [abs_abs, ← hE, ← hs, hn]; norm_cast
  rw [hd, hr, Nat.add_sub_cancel]
  by_cases hc : n = 10 ^ (Q + 1)
  · rw [if_pos hc]
    have hQ' : 0 < 10 ^ Q := by positivity
    refine ⟨le_rfl, by dsimp only; rw [pow_succ]; omega, ?_⟩
    dsimp only
    rw [hc, show E + 1 + 1 - ((Q + 1 : ℕ) : ℤ) = E + 1 - ((Q + 1 : ℕ) : ℤ) + 1 by ring, zpow_add_one₀ (by norm_num)]
    push_cast
    rw [pow_succ]
    ring
  · rw [if_neg hc]
    exact ⟨hlo', by dsimp only; omega, rfl⟩

theorem rnd_zero (p : ℕ) (emin : ℤ) : rnd p emin (0 : ℚ) = 0 := by
  simp only [rnd, zero_div, show rne (0 : ℚ) = 0 by exact_mod_cast rne_int (K := ℚ) 0]; simp

theorem rndDec_zero (P : ℕ) : rndDec P (0 : ℚ) = 0 := by
  simp [rndDec, show rne (0 : ℚ) = 0 by exact_mod_cast rne_int (K := ℚ) 0]

theorem fmtG_decimal {P : Nat} (hP : 1 ≤ P) (x : ℚ) : IsDecimal (fmtG P x) (rndDec P x) := by
  by_cases hx : x = 0
  · subst hx
    refine ⟨[], ['0'], 0, rfl, Or.inl rfl, ⟨['0'], [], [], [], 0, rfl, by decide, by decide, Or.inr ⟨rfl, rfl⟩, Or.inl ⟨rfl, rfl⟩, by simp⟩, ?_⟩
    rw [rndDec_zero]; simp
  obtain ⟨h1, h2, h3⟩ := sciDigits_spec hP hx
  unfold fmtG
  rw [if_neg hx, max_eq_left hP]
  dsimp only
  refine ⟨_, _, _, rfl, ?_, fmtGPos_spec _ h1 h2 hP, ?_⟩
  · split <;> simp
  · rw [h3]
    by_cases h0 : x < 0
    · rw [if_pos h0, if_pos rfl, abs_of_neg h0, rndDec_neg]; ring
    · rw [if_neg h0, if_neg (by decide), abs_of_nonneg (not_lt.1 h0), one_mul]

/-- C112: the text of a number is a decimal number, namely the one with the precision of the stream that is nearest to it. -/
theorem C112_text {P : Nat} (hP : 1 ≤ P) (x : ℚ) : ∃ d, IsDecimal (fmtG P x) d ∧ IsDec P d ∧
    (∀ d', IsDec P d' → |d - x| ≤ |d' - x|) ∧ |d - x| ≤ 10 ^ (1 - (P : ℤ)) / 2 * |x| :=
  ⟨rndDec P x, fmtG_decimal hP x, rndDec_isDec hP x, fun _ hd' => rndDec_nearest hP x hd', rndDec_err _ x⟩

example : fmtG 6 (1 / 3) = "0.333333".toList ∧ fmtG 6 1234567 = "1.23457e+06".toList ∧ fmtG 6 (-1 / 30000) = "-3.33333e-05".toList ∧
    fmtG 6 100000 = "100000".toList ∧ fmtG 6 (1999999 / 2) = "1e+06".toList ∧ fmtG 1 (5 / 2) = "2".toList ∧
    fmtG 6 (2469 / 20) = "123.45".toList ∧ fmtG 0 (-7 / 2) = "-4".toList := by decide +kernel

/-! ## Writing and reading back -/

/-- `y` is what becomes of `x` when it is written with `P` significant digits and read: the number of the format nearest to the
decimal nearest to `x`. -/
def Trip (P : Nat) {p : ℕ} {emin : ℤ} (x : ℚ) (y : Fl ℚ p emin) : Prop :=
  ∃ d, IsDec P d ∧ (∀ d', IsDec P d' → |d - x| ≤ |d' - x|) ∧ y.val = rnd p emin d ∧
    |y.val - x| ≤ (10 ^ (1 - (P : ℤ)) / 2 + 2 ^ (-(p : ℤ)) * (1 + 10 ^ (1 - (P : ℤ)) / 2)) * |x| + 2 ^ emin / 2

theorem noDecimal_delim {d : Char} {t : List Char} (h : isDelim d = true) : NoDecimal (d :: t) := by
  intro c r e
  obtain ⟨rfl, -⟩ := List.cons.inj e
  refine ⟨fun hd => ?_, ?_, ?_, ?_⟩
  · exact absurd ((isDigit_iff d).2 hd) (by rw [isDelim_not_digit h]; decide)
  all_goals rintro rfl; exact absurd h (by decide)

theorem floatCodec_reads {p : ℕ} {emin emax : ℤ} {P : Nat} {t : List Char} {d : ℚ} (ht : IsDecimal t d)
    (hd : |rnd p emin d| < 2 ^ emax) : (floatCodec p emin emax P).ReadsAs t (.of p emin d) := by
  refine ⟨?_, fun c r hc => ?_⟩
  · obtain ⟨c, l, h1, h2⟩ := decimal_head (r := []) ht
    rw [List.append_nil] at h1
    exact ⟨c, l, h1, h2⟩
  · rw [show (floatCodec p emin emax P).parse = parseFloat p emin emax from rfl, parseFloat_eq ht (noDecimal_delim hc), if_pos hd]
    rfl

/-- Rounding does not pass a number that is not smaller and on the grid. -/
theorem rnd_le_largest {p : ℕ} {emin emax : ℤ} (he : emin + p ≤ emax) {d : ℚ} (h : |d| ≤ (2 ^ p - 1) * 2 ^ (emax - p)) :
    |rnd p emin d| < 2 ^ emax := by
  have key : ∀ d : ℚ, 0 ≤ d → d ≤ (2 ^ p - 1) * 2 ^ (emax - p) → |rnd p emin d| < 2 ^ emax := by
    intro d h0 h
    rw [abs_of_nonneg (rnd_rat_nonneg h0)]
    have hL : ((2 : ℚ) ^ p - 1) * 2 ^ (emax - p) < 2 ^ emax := by
      have e1 : (2 : ℚ) ^ emax = 2 ^ p * 2 ^ (emax - p) := by rw [← zpow_natCast, ← zpow_add₀ two_ne_zero]; congr 1; ring
      rw [e1]
      exact mul_lt_mul_of_pos_right (by linarith) (two_zpow_pos _)
    rcases h0.lt_or_eq with h0 | h0
    swap
    · rw [← h0]
      rw [rnd_zero]; exact two_zpow_pos _
    have hlog : Int.log 2 d < emax := by
      rw [← Int.lt_zpow_iff_log_lt (by norm_num) h0]
      exact_mod_cast h.trans_lt hL
    have hle : lastExp p emin d ≤ emax - p := max_le (by rw [abs_of_pos h0]; omega) (by omega)
    obtain ⟨k, hk⟩ : ∃ k : ℕ, emax - p = lastExp p emin d + k := ⟨(emax - p - lastExp p emin d).toNat, by omega⟩
    have h2 := two_zpow_pos (K := ℚ) (lastExp p emin d)
    have h3 : ((2 : ℚ) ^ p - 1) * 2 ^ (emax - p) = (((2 ^ p - 1) * 2 ^ k : ℤ) : ℚ) * 2 ^ lastExp p emin d := by
      rw [hk, zpow_add₀ two_ne_zero, zpow_natCast]; push_cast; ring
    have h4 : rne (d / 2 ^ lastExp p emin d) ≤ (2 ^ p - 1) * 2 ^ k := rne_le (by
      rw [div_le_iff₀ h2, ← h3]; exact h)
    refine lt_of_le_of_lt ?_ hL
    rw [h3]
    exact mul_le_mul_of_nonneg_right (by exact_mod_cast h4) h2.le
  rcases le_total 0 d with h0 | h0
  · rw [abs_of_nonneg h0] at h
    exact key d h0 h
  · rw [abs_of_nonpos h0] at h
    have := key (-d) (by linarith) h
    rwa [rnd_neg, abs_neg] at this

/-- The text of a number is read as the number `Trip` says. -/
theorem fmtG_reads {p : ℕ} {emin emax : ℤ} (he : emin + p ≤ emax) {P : Nat} (hP : 1 ≤ P) (Q : Nat) {x : ℚ}
    (hx : (1 + 10 ^ (1 - (P : ℤ)) / 2) * |x| ≤ (2 ^ p - 1) * 2 ^ (emax - p)) :
    ∃ y : Fl ℚ p emin, (floatCodec p emin emax Q).ReadsAs (fmtG P x) y ∧ Trip P x y := by
  obtain ⟨d, h1, h2, h3, h4⟩ := C112_text hP x
  have hd : |d| ≤ (1 + 10 ^ (1 - (P : ℤ)) / 2) * |x| := by
    have := abs_add_le (d - x) x
    rw [sub_add_cancel] at this
    linarith
  refine ⟨_, floatCodec_reads h1 (rnd_le_largest he (hd.trans hx)), d, h2, h3, rfl, ?_⟩
  have h5 := rnd_err p emin d
  have h6 : |rnd p emin d - x| ≤ |rnd p emin d - d| + |d - x| := by
    have := abs_add_le (rnd p emin d - d) (d - x)
    rwa [sub_add_sub_cancel] at this
  have h7 := mul_le_mul_of_nonneg_left hd (two_zpow_pos (K := ℚ) (-(p : ℤ))).le
  show |rnd p emin d - x| ≤ _
  linarith

/-- C112 (partial): a vector of floating point numbers written to a file with the precision `P` (six if it was not changed) is read
as the vector of the numbers nearest to the decimals nearest to them. Missing: numbers so large that the decimal exceeds the largest
number of the format (`C112_overflow_false`), and the equality the user may expect (`C112_lossy_false`). -/
theorem C112_vector_partial {p p' : ℕ} {emin emin' emax : ℤ} (he : emin + p ≤ emax) {P : Nat} (hP : 1 ≤ P) (Q : Nat)
    (fmtM : Fl ℚ p' emin' → List Char) (v : List (Fl ℚ p' emin')) (old : List (Fl ℚ p emin)) (hv : v.length < allocMax)
    (hx : ∀ x ∈ v, (1 + 10 ^ (1 - (P : ℤ)) / 2) * |x.val| ≤ (2 ^ p - 1) * 2 ^ (emax - p)) (ws tail : List Char) (hws : AllSpace ws) :
    ∃ text y, writeVec fmtM (fun x => fmtG P x.val) v = .ok text ∧ List.Forall₂ (fun x y => Trip P x.val y) v y ∧ ∃ ws', AllSpace ws' ∧
      readVec (floatCodec p emin emax Q) ⟨ws ++ text ++ tail, false, false⟩ old = .ok (⟨ws' ++ tail, false, false⟩, y) := by
  have hy : ∃ y : List (Fl ℚ p emin), List.Forall₂ (fun x y => (floatCodec p emin emax Q).ReadsAs (fmtG P x.val) y ∧ Trip P x.val y) v y := by
    clear hv
    induction v with
    | nil => exact ⟨[], .nil⟩
    | cons x v ih =>
      obtain ⟨y, hy⟩ := ih fun x h => hx x (List.mem_cons_of_mem _ h)
      obtain ⟨y0, h0⟩ := fmtG_reads he hP Q (hx x (by simp))
      exact ⟨y0 :: y, .cons h0 hy⟩
  obtain ⟨y, hy⟩ := hy
  obtain ⟨text, h1, h2⟩ := C66_texts (floatCodec p emin emax Q) fmtM (fun x => fmtG P x.val) v y old hv
    (hy.imp fun _ _ h => h.1) ws tail hws
  exact ⟨text, y, h1, hy.imp fun _ _ h => h.2, h2⟩

/-- C112 for matrices and views. -/
theorem C112_matrix_partial {p p' : ℕ} {emin emin' emax : ℤ} (he : emin + p ≤ emax) {P : Nat} (hP : 1 ≤ P) (Q : Nat)
    (fmtM : Fl ℚ p' emin' → List Char) {b : MB (Fl ℚ p' emin')} {n m : Nat} {e} (h : Rep b n m e)
    (hx : ∀ i j, i < n → j < m → (1 + 10 ^ (1 - (P : ℤ)) / 2) * |(e i j).val| ≤ (2 ^ p - 1) * 2 ^ (emax - p))
    {old : Mat (Fl ℚ p emin)} (hold : old.WF) (ws tail : List Char) (hws : AllSpace ws) :
    ∃ text, writeMat fmtM (fun x => fmtG P x.val) b = .ok text ∧ ∃ ws' A y, AllSpace ws' ∧
      readMat (floatCodec p emin emax Q) ⟨ws ++ text ++ tail, false, false⟩ old = .ok (⟨ws' ++ tail, false, false⟩, A) ∧
      A.Holds n m y ∧ ∀ i j, i < n → j < m → Trip P (e i j).val (y i j) := by
  have hy : ∀ i j, ∃ y : Fl ℚ p emin, i < n → j < m →
      (floatCodec p emin emax Q).ReadsAs (fmtG P (e i j).val) y ∧ Trip P (e i j).val y := by
    intro i j
    by_cases hij : i < n ∧ j < m
    · obtain ⟨y, hy⟩ := fmtG_reads he hP Q (hx i j hij.1 hij.2)
      exact ⟨y, fun _ _ => hy⟩
    · exact ⟨0, fun h1 h2 => absurd ⟨h1, h2⟩ hij⟩
  choose y hy using hy
  obtain ⟨text, h1, ws', A, h2, h3, h4⟩ := C67_texts (floatCodec p emin emax Q) fmtM (fun x => fmtG P x.val) h (y := y)
    (fun i j hi hj => (hy i j hi hj).1) hold ws tail hws
  exact ⟨text, h1, ws', A, y, h2, h3, h4, fun i j hi hj => (hy i j hi hj).2⟩

/-! ## When nothing is lost -/

theorem reads_of_rnd {p : ℕ} {emin emax : ℤ} {P : Nat} (hP : 1 ≤ P) {x : Fl ℚ p emin} (hx : |x.val| < 2 ^ emax)
    (h : rnd p emin (rndDec P x.val) = x.val) : (floatCodec p emin emax P).Reads x := by
  have := floatCodec_reads (P := P) (emax := emax) (fmtG_decimal hP x.val) (by rw [h]; exact hx)
  rwa [show Fl.of p emin (rndDec P x.val) = x from Fl.ext h] at this

/-- C112: written with enough digits, 17 for `double` and 9 for `float`, every number of the format is read back as it was. -/
theorem C112_digits {P p : ℕ} (hp : 1 ≤ p) (hP : 2 ^ p < 10 ^ (P - 1)) {emin emax : ℤ} {x : Fl ℚ p emin} (hx : |x.val| < 2 ^ emax) :
    (floatCodec p emin emax P).Reads x := by
  have hP1 : 1 ≤ P := by
    by_contra hc
    have h1 : P = 0 := by omega
    rw [h1] at hP
    have : 1 ≤ 2 ^ p := Nat.one_le_two_pow
    omega
  apply reads_of_rnd hP1 hx
  by_cases h0 : x.val = 0
  · rw [h0, rndDec_zero, rnd_zero]
  apply rnd_near hp x.isFl h0
  refine (rndDec_err P x.val).trans_lt (mul_lt_mul_of_pos_right ?_ (abs_pos.2 h0))
  have : (10 : ℚ) ^ (1 - (P : ℤ)) < 2 ^ (-(p : ℤ)) := by
    rw [show 1 - (P : ℤ) = -((P - 1 : ℕ) : ℤ) by omega, zpow_neg, zpow_neg, zpow_natCast, zpow_natCast]
    exact inv_strictAnti₀ (by positivity) (by exact_mod_cast hP)
  linarith

/-- C112: so is, with the six digits used by default or up to 15 for `double` (six for `float`), every number that is nearest to a
decimal with so many digits. -/
theorem C112_decimals {P p : ℕ} (hP1 : 1 ≤ P) (hP : 2 * 10 ^ P < 2 ^ p) {emin emax : ℤ} {x : Fl ℚ p emin} (hx : |x.val| < 2 ^ emax)
    {d : ℚ} (hd : IsDec P d) (hn : d = 0 ∨ 2 ^ (emin + p - 1) ≤ |d|) (hxd : x.val = rnd p emin d) : (floatCodec p emin emax P).Reads x := by
  apply reads_of_rnd hP1 hx
  rcases hn with rfl | hn
  · rw [hxd, rnd_zero, rndDec_zero, rnd_zero]
  have h0 : d ≠ 0 := abs_pos.1 ((two_zpow_pos _).trans_le hn)
  rw [show rndDec P x.val = d from ?_, hxd]
  apply rndDec_near hP1 hd h0
  have hlog : emin + p - 1 ≤ Int.log 2 |d| := (Int.zpow_le_iff_le_log (by norm_num) (abs_pos.2 h0)).1 (by exact_mod_cast hn)
  have hle : lastExp p emin d = Int.log 2 |d| + 1 - p := max_eq_left (by omega)
  have h1 := rnd_err_ulp p emin d
  rw [hle] at h1
  have h2 := ulp_le (p := p) h0
  rw [hxd]
  refine (h1.trans h2).trans_lt (mul_lt_mul_of_pos_right ?_ (abs_pos.2 h0))
  rw [zpow_neg, zpow_neg, zpow_natCast, zpow_natCast, show ((10 : ℚ) ^ P)⁻¹ / 2 = (2 * 10 ^ P)⁻¹ by rw [mul_inv]; ring]
  exact inv_strictAnti₀ (by positivity) (by exact_mod_cast hP)

/-- C112: in particular whole numbers with at most six digits, in `double`. -/
theorem C112_whole {x : Double} {z : ℤ} (hz : |z| < 10 ^ 6) (hx : x.val = z) : (doubleCodec 6).Reads x := by
  have hzq : |(z : ℚ)| < 10 ^ 6 := by exact_mod_cast hz
  have hb : |x.val| < 2 ^ (1024 : ℤ) := by
    rw [hx]
    refine hzq.trans_le ?_
    calc (10 : ℚ) ^ 6 ≤ 2 ^ (20 : ℤ) := by norm_num
      _ ≤ _ := zpow_le_zpow_right₀ one_le_two (by norm_num)
  refine C112_decimals (d := z) (by norm_num) (by norm_num) hb ⟨z, 0, hz, by simp⟩ ?_ ?_
  · by_cases h0 : z = 0
    · exact Or.inl (by exact_mod_cast h0)
    · refine Or.inr ?_
      have h1 : (1 : ℚ) ≤ |(z : ℚ)| := by exact_mod_cast Int.one_le_abs h0
      refine le_trans ?_ h1
      calc (2 : ℚ) ^ (-1074 + (53 : ℕ) - 1 : ℤ) ≤ 2 ^ (0 : ℤ) := zpow_le_zpow_right₀ one_le_two (by norm_num)
        _ = 1 := by simp
  · rw [← hx]
    exact (rnd_exact (by norm_num) x.isFl).symm

/-- C112: what has been written and read once does not change when it is written and read again. -/
theorem C112_again {P p : ℕ} (hP1 : 1 ≤ P) (hP : 2 * 10 ^ P < 2 ^ p) {emin emax : ℤ} {x : ℚ} {y : Fl ℚ p emin} (h : Trip P x y)
    (hx : x = 0 ∨ 2 ^ (emin + p) ≤ |x|) (hy : |y.val| < 2 ^ emax) : (floatCodec p emin emax P).Reads y := by
  obtain ⟨d, h1, h2, h3, -⟩ := h
  refine C112_decimals hP1 hP hy h1 ?_ h3
  have h4 := (h2 _ (rndDec_isDec hP1 x)).trans (rndDec_err P x)
  rcases hx with rfl | hx
  · rw [abs_zero, mul_zero, sub_zero] at h4
    exact Or.inl (abs_eq_zero.1 (le_antisymm h4 (abs_nonneg d)))
  · refine Or.inr ?_
    have h5 : (10 : ℚ) ^ (1 - (P : ℤ)) ≤ 1 := by
      rw [← zpow_zero (10 : ℚ)]
      exact zpow_le_zpow_right₀ (by norm_num) (by omega)
    have h6 : |d - x| ≤ 1 / 2 * |x| := h4.trans (mul_le_mul_of_nonneg_right (by linarith) (abs_nonneg x))
    have h7 := abs_sub_abs_le_abs_sub x d
    rw [abs_sub_comm] at h7
    rw [zpow_sub_one₀ two_ne_zero]
    linarith

/-- C112: vectors of such numbers are read back as they were. -/
theorem C112_vector_exact {p : ℕ} {emin emax : ℤ} {P : Nat} (fmtM : Fl ℚ p emin → List Char) (v old : List (Fl ℚ p emin))
    (hv : v.length < allocMax) (hx : ∀ x ∈ v, |x.val| < 2 ^ emax)
    (hP : 1 ≤ p ∧ 2 ^ p < 10 ^ (P - 1) ∨ 1 ≤ P ∧ 2 * 10 ^ P < 2 ^ p ∧
      ∀ x ∈ v, ∃ d, IsDec P d ∧ (d = 0 ∨ 2 ^ (emin + p - 1) ≤ |d|) ∧ x.val = rnd p emin d)
    (ws tail : List Char) (hws : AllSpace ws) :
    ∃ text, writeVec fmtM (floatCodec p emin emax P).fmt v = .ok text ∧ ∃ ws', AllSpace ws' ∧
      readVec (floatCodec p emin emax P) ⟨ws ++ text ++ tail, false, false⟩ old = .ok (⟨ws' ++ tail, false, false⟩, v) := by
  refine C66_round_trip_partial _ fmtM v old hv (fun x hm => ?_) ws tail hws
  rcases hP with ⟨hp, hP⟩ | ⟨hP1, hP, hd⟩
  · exact C112_digits hp hP (hx x hm)
  · obtain ⟨d, h1, h2, h3⟩ := hd x hm
    exact C112_decimals hP1 hP (hx x hm) h1 h2 h3

/-- C112: and so are matrices and views. -/
theorem C112_matrix_exact {p : ℕ} {emin emax : ℤ} {P : Nat} (fmtM : Fl ℚ p emin → List Char) {b : MB (Fl ℚ p emin)} {n m : Nat} {e}
    (h : Rep b n m e) (hx : ∀ i j, i < n → j < m → |(e i j).val| < 2 ^ emax)
    (hP : 1 ≤ p ∧ 2 ^ p < 10 ^ (P - 1) ∨ 1 ≤ P ∧ 2 * 10 ^ P < 2 ^ p ∧
      ∀ i j, i < n → j < m → ∃ d, IsDec P d ∧ (d = 0 ∨ 2 ^ (emin + p - 1) ≤ |d|) ∧ (e i j).val = rnd p emin d)
    {old : Mat (Fl ℚ p emin)} (hold : old.WF) (ws tail : List Char) (hws : AllSpace ws) :
    ∃ text, writeMat fmtM (floatCodec p emin emax P).fmt b = .ok text ∧ ∃ ws' A, AllSpace ws' ∧
      readMat (floatCodec p emin emax P) ⟨ws ++ text ++ tail, false, false⟩ old = .ok (⟨ws' ++ tail, false, false⟩, A) ∧ A.Holds n m e := by
  refine C67_round_trip_partial _ fmtM h (fun i j hi hj => ?_) hold ws tail hws
  rcases hP with ⟨hp, hP⟩ | ⟨hP1, hP, hd⟩
  · exact C112_digits hp hP (hx i j hi hj)
  · obtain ⟨d, h1, h2, h3⟩ := hd i j hi hj
    exact C112_decimals hP1 hP (hx i j hi hj) h1 h2 h3

/-- C112: complex numbers of `double` with 17 digits. -/
theorem C112_complex_exact (fmtM : Double × Double → List Char) (v old : List (Double × Double)) (hv : v.length < allocMax)
    (hx : ∀ z ∈ v, |z.1.val| < 2 ^ (1024 : ℤ) ∧ |z.2.val| < 2 ^ (1024 : ℤ)) (ws tail : List Char) (hws : AllSpace ws) :
    ∃ text, writeVec fmtM (complexCodec (doubleCodec 17)).fmt v = .ok text ∧ ∃ ws', AllSpace ws' ∧
      readVec (complexCodec (doubleCodec 17)) ⟨ws ++ text ++ tail, false, false⟩ old = .ok (⟨ws' ++ tail, false, false⟩, v) :=
  C66_complex _ fmtM v old hv (fun z hz => ⟨C112_digits (by norm_num) (by norm_num) (hx z hz).1,
    C112_digits (by norm_num) (by norm_num) (hx z hz).2⟩) ws tail hws

/-- `float`, evaluated over the rationals. -/
abbrev Single := Fl ℚ 24 (-149)

example : ∃ text ws', writeVec (doubleCodec 6).fmt (doubleCodec 6).fmt [.of 53 (-1074) (1 / 10), .of 53 (-1074) (-250)] = .ok text ∧
    text = "V 2\n 0.1 -250\n".toList ∧
    readVec (doubleCodec 6) (.start text) [] = .ok (⟨ws', false, false⟩, [.of 53 (-1074) (1 / 10), .of 53 (-1074) (-250)]) :=
  ⟨_, ['\n'], by decide +kernel, rfl, by decide +kernel⟩
example : (doubleCodec 17).fmt (.of 53 (-1074) (1 / 10)) = "0.10000000000000001".toList := by decide +kernel

/-- C112 violated: with the default precision a third of one is not read back. -/
theorem C112_lossy_false : ∃ (x : Double) (text : List Char) (s : IStream) (y : List Double),
    writeVec (doubleCodec 6).fmt (doubleCodec 6).fmt [x] = .ok text ∧ readVec (doubleCodec 6) (.start text) [] = .ok (s, y) ∧
      s.fail = false ∧ y ≠ [x] :=
  ⟨.of 53 (-1074) (1 / 3), "V 1\n0.333333\n".toList, ⟨['\n'], false, false⟩, [.of 53 (-1074) (333333 / 1000000)],
    by decide +kernel, by decide +kernel, rfl, by decide +kernel⟩

/-- C112 violated: with five digits the largest `double` is written as a number that is too large, reading fails there and the
elements after it are not read. -/
theorem C112_overflow_false : ∃ (text : List Char) (s : IStream),
    writeVec (doubleCodec 5).fmt (doubleCodec 5).fmt [Fl.largest 53 (-1074) 1024, .of 53 (-1074) 1] = .ok text ∧
      readVec (doubleCodec 5) (.start text) [] = .ok (s, [Fl.largest 53 (-1074) 1024, 0]) ∧ s.fail = true :=
  ⟨"V 2\n1.7977e+308           1\n".toList, ⟨"           1\n".toList, false, true⟩, by decide +kernel, by decide +kernel, rfl⟩

/-- C112 violated: digits enough for `float` are not enough when the file is read into a vector of `double`: one tenth in `float`,
written with nine digits, is another number as a `double`. -/
theorem C112_widen_false : ∃ (x : Single) (text : List Char) (s : IStream) (y : Double),
    writeVec (singleCodec 9).fmt (singleCodec 9).fmt [x] = .ok text ∧ readVec (doubleCodec 9) (.start text) [] = .ok (s, [y]) ∧
      s.fail = false ∧ y.val ≠ x.val :=
  ⟨.of 24 (-149) (1 / 10), "V 1\n0.100000001\n".toList, ⟨['\n'], false, false⟩, .of 53 (-1074) (100000001 / 1000000000),
    by decide +kernel, by decide +kernel, rfl, by decide +kernel⟩

end Malg
