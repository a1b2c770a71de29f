import Verif.Props.Io
import Mathlib.Data.Nat.Digits.Defs
/-!
# C68: what is accepted is what the file says

The numbers in a text, described without reference to the reader, and the converse of the round trip: if reading does not fail,
the elements are the numbers written in the text.
-/
namespace Malg
open Io

/-- `t` is an integer in decimal notation, with the value `x`: an optional sign and at least one digit. -/
def IsNumeral (t : List Char) (x : Int) : Prop :=
  ∃ (sg ds : List Char), t = sg ++ ds ∧ (sg = [] ∨ sg = ['+'] ∨ sg = ['-']) ∧ ds ≠ [] ∧ (∀ d ∈ ds, '0' ≤ d ∧ d ≤ '9') ∧
    x = (if sg = ['-'] then -1 else 1) * ((Nat.ofDigits 10 (ds.reverse.map fun d => d.toNat - 48) : Nat) : Int)

/-- The text does not continue with a digit. -/
def NoDigit (l : List Char) : Prop := ∀ d r, l = d :: r → ¬ ('0' ≤ d ∧ d ≤ '9')

/-- The text `l` starts with the numbers `xs`, separated by white space or signs only, after which `r` is left. -/
inductive Numerals (l : List Char) : List Int → List Char → Prop
  | nil : Numerals l [] l
  | snoc {xs x ws t r} : Numerals l xs (ws ++ t ++ r) → AllSpace ws → IsNumeral t x → NoDigit r → Numerals l (xs ++ [x]) r

theorem isDigit_iff (c : Char) : isDigit c = true ↔ '0' ≤ c ∧ c ≤ '9' := by
  simp only [isDigit, Bool.and_eq_true, decide_eq_true_eq]
  rfl

theorem natOf_eq (l : List Char) : natOf l = Nat.ofDigits 10 (l.reverse.map fun d => d.toNat - 48) := by
  unfold natOf
  rw [List.foldl_eq_foldr_reverse]
  generalize l.reverse = l
  induction l with
  | nil => rfl
  | cons c l ih => rw [List.foldr_cons, ih, List.map_cons, Nat.ofDigits_cons]; simp [Nat.add_comm]

theorem takeWhile_digits {ds r : List Char} (h : ∀ d ∈ ds, '0' ≤ d ∧ d ≤ '9') (hr : NoDigit r) :
    (ds ++ r).takeWhile isDigit = ds ∧ (ds ++ r).dropWhile isDigit = r := by
  induction ds with
  | nil =>
    cases r with
    | nil => exact ⟨rfl, rfl⟩
    | cons d r =>
      have := (isDigit_iff d).not.2 (hr d r rfl)
      simp [this]
  | cons d ds ih =>
    have h1 := (isDigit_iff d).2 (h d (by simp))
    obtain ⟨h2, h3⟩ := ih fun d hd => h d (by simp [hd])
    simp [h1, h2, h3]

theorem splitSign_numeral {sg ds r : List Char} (hs : sg = [] ∨ sg = ['+'] ∨ sg = ['-']) (hd : ds ≠ [])
    (h : ∀ d ∈ ds, '0' ≤ d ∧ d ≤ '9') : splitSign (sg ++ ds ++ r) = (decide (sg = ['-']), ds ++ r) := by
  rcases hs with rfl | rfl | rfl
  · cases ds with
    | nil => exact absurd rfl hd
    | cons d ds =>
      have h1 := h d (by simp)
      unfold splitSign
      simp only [List.nil_append, List.cons_append]
      split
      · rename_i e
        obtain ⟨rfl, -⟩ := List.cons.inj e
        exact absurd h1 (by decide)
      · rename_i e
        obtain ⟨rfl, -⟩ := List.cons.inj e
        exact absurd h1 (by decide)
      · rfl
  · rfl
  · rfl

theorem numeral_head {t r : List Char} {x : Int} (h : IsNumeral t x) : ∃ c l, t ++ r = c :: l ∧ isSpace c = false := by
  obtain ⟨sg, ds, rfl, hs, hd, h, -⟩ := h
  rcases hs with rfl | rfl | rfl
  · cases ds with
    | nil => exact absurd rfl hd
    | cons d ds =>
      have h1 := (isDigit_iff d).2 (h d (by simp))
      refine ⟨d, ds ++ r, rfl, ?_⟩
      simp only [isDigit, Bool.and_eq_true, decide_eq_true_eq] at h1
      unfold isSpace
      have h2 : d ≠ ' ' := by rintro rfl; exact absurd h1 (by decide)
      simp [h2]
      omega
  · exact ⟨'+', _, rfl, by decide⟩
  · exact ⟨'-', _, rfl, by decide⟩

theorem dropWhile_space {ws l : List Char} (h : AllSpace ws) (hl : ∃ c r, l = c :: r ∧ isSpace c = false) :
    (ws ++ l).dropWhile isSpace = l := by
  induction ws with
  | nil =>
    obtain ⟨c, r, rfl, hc⟩ := hl
    simp [hc]
  | cons c ws ih =>
    have h1 := h c (by simp)
    simp [h1, ih fun c hc => h c (by simp [hc])]

/-- C68: a number that fits is read as it is; one that does not leaves the nearest limit and makes the stream fail. -/
theorem C68_number {lo hi : Int} {ws t r : List Char} {x : Int} (hws : AllSpace ws) (ht : IsNumeral t x) (hr : NoDigit r) :
    (intCodec lo hi).read ⟨ws ++ t ++ r, false, false⟩ =
      (some (if x < lo then lo else if hi < x then hi else x), ⟨r, r.isEmpty, decide (x < lo ∨ hi < x)⟩) := by
  obtain ⟨sg, ds, rfl, hs, hd, h, hx⟩ := id ht
  obtain ⟨h1, h2⟩ := takeWhile_digits h hr
  have hsen : sentry ⟨ws ++ (sg ++ ds) ++ r, false, false⟩ = (some (sg ++ ds ++ r), ⟨sg ++ ds ++ r, false, false⟩) := by
    unfold sentry
    rw [if_neg (by simp)]
    dsimp only
    obtain ⟨c, l, hc, hc'⟩ := numeral_head (r := r) ht
    rw [List.append_assoc, dropWhile_space hws ⟨c, l, hc, hc'⟩, hc]
  unfold Codec.read
  rw [hsen]
  dsimp only
  have hv : (if decide (sg = ['-']) = true then -(natOf ds : Int) else natOf ds) = x := by
    rw [hx, natOf_eq]
    by_cases hm : sg = ['-']
    · simp [hm]
    · simp [hm]
  have he : ds.isEmpty = false := by
    cases ds with
    | nil => exact absurd rfl hd
    | cons d ds => rfl
  have hp : parseInt lo hi (sg ++ ds ++ r) =
      ⟨some (if x < lo then lo else if hi < x then hi else x), r, !decide (x < lo ∨ hi < x), r.isEmpty⟩ := by
    unfold parseInt
    rw [splitSign_numeral hs hd h]
    dsimp only
    rw [h1, h2, hv, he, if_neg (by decide)]
    by_cases c1 : x < lo
    · rw [if_pos c1, if_pos c1, decide_eq_true (Or.inl c1)]; rfl
    · rw [if_neg c1, if_neg c1]
      by_cases c2 : hi < x
      · rw [if_pos c2, if_pos c2, decide_eq_true (Or.inr c2)]; rfl
      · rw [if_neg c2, if_neg c2, decide_eq_false (by omega)]; rfl
  rw [show (intCodec lo hi).parse = parseInt lo hi from rfl, hp]
  simp

theorem splitSign_spec (l : List Char) : ∃ sg, (sg = [] ∨ sg = ['+'] ∨ sg = ['-']) ∧ l = sg ++ (splitSign l).2 ∧
    (splitSign l).1 = decide (sg = ['-']) := by
  unfold splitSign
  split
  · exact ⟨['-'], .inr (.inr rfl), rfl, rfl⟩
  · exact ⟨['+'], .inr (.inl rfl), rfl, rfl⟩
  · exact ⟨[], .inl rfl, rfl, rfl⟩

theorem digits_split (l : List Char) :
    l = l.takeWhile isDigit ++ l.dropWhile isDigit ∧ (∀ d ∈ l.takeWhile isDigit, '0' ≤ d ∧ d ≤ '9') ∧ NoDigit (l.dropWhile isDigit) := by
  refine ⟨List.takeWhile_append_dropWhile.symm, fun d hd => (isDigit_iff d).1 (List.mem_takeWhile_imp hd), fun d r h => ?_⟩
  rw [← isDigit_iff]
  have := List.head_dropWhile_not (p := isDigit) (l := l) (by rw [h]; simp)
  simp only [h, List.head_cons] at this
  simp [this]

theorem sentry_some {s : IStream} {l : List Char} {s' : IStream} (h : sentry s = (some l, s')) :
    ∃ ws, AllSpace ws ∧ s.rest = ws ++ l := by
  unfold sentry at h
  split at h
  · cases h
  · split at h
    · cases h
    · rename_i c r e
      cases h
      exact ⟨s.rest.takeWhile isSpace, fun c hc => List.mem_takeWhile_imp hc, by rw [← e, List.takeWhile_append_dropWhile]⟩

/-- C68: if reading an integer does not fail, the number stands in the text, and it fits. -/
theorem C68_number_exact {lo hi : Int} {s s' : IStream} {x : Int} (h : (intCodec lo hi).read s = (some x, s')) (hf : s'.fail = false) :
    lo ≤ x ∧ x ≤ hi ∧ ∃ ws t, s.rest = ws ++ t ++ s'.rest ∧ AllSpace ws ∧ IsNumeral t x ∧ NoDigit s'.rest := by
  unfold Codec.read at h
  split at h
  · rename_i l s0 hsen
    obtain ⟨ws, hws, hl⟩ := sentry_some hsen
    obtain ⟨h1, h2⟩ := Prod.mk.inj h
    obtain ⟨sg, hsg, hl2, hneg⟩ := splitSign_spec l
    obtain ⟨hd1, hd2, hd3⟩ := digits_split (splitSign l).2
    have hp : (intCodec lo hi).parse l = parseInt lo hi l := rfl
    rw [hp] at h1 h2
    unfold parseInt at h1 h2
    dsimp only at h1 h2
    generalize hv : (if (splitSign l).1 = true then -(natOf ((splitSign l).2.takeWhile isDigit) : Int)
      else (natOf ((splitSign l).2.takeWhile isDigit) : Int)) = v at h1 h2
    split at h1
    · rename_i c; rw [if_pos c] at h2; subst h2; cases hf
    rename_i c
    rw [if_neg c] at h2
    split at h1
    · rename_i c; rw [if_pos c] at h2; subst h2; cases hf
    rename_i c1
    rw [if_neg c1] at h2
    split at h1
    · rename_i c; rw [if_pos c] at h2; subst h2; cases hf
    rename_i c2
    rw [if_neg c2] at h2
    subst h2
    have h1 := Option.some.inj h1
    subst h1
    refine ⟨not_lt.1 c1, not_lt.1 c2, ws, sg ++ (splitSign l).2.takeWhile isDigit, ?_, hws, ⟨sg, _, rfl, hsg, ?_, hd2, ?_⟩, hd3⟩
    · dsimp only
      rw [hl, List.append_assoc, List.append_assoc, ← hd1, ← hl2]
    · intro h0
      rw [h0] at c
      exact c rfl
    · rw [← hv, hneg, natOf_eq]
      by_cases hm : sg = ['-']
      · simp [hm]
      · simp [hm]
  · cases (Prod.mk.inj h).1

/-- C68: a number that is used as a size: negative ones count from `2^64`; one whose absolute value does not fit in 64 bits leaves the
largest size and makes the stream fail. -/
theorem C68_size {ws t r : List Char} {z : Int} (hws : AllSpace ws) (ht : IsNumeral t z) (hr : NoDigit r) :
    sizeCodec.read ⟨ws ++ t ++ r, false, false⟩ =
      (some (if 2 ^ 64 ≤ z.natAbs then 2 ^ 64 - 1 else (z % 2 ^ 64).toNat), ⟨r, r.isEmpty, decide (2 ^ 64 ≤ z.natAbs)⟩) := by
  obtain ⟨sg, ds, rfl, hs, hd, h, hx⟩ := id ht
  obtain ⟨h1, h2⟩ := takeWhile_digits h hr
  have hsen : sentry ⟨ws ++ (sg ++ ds) ++ r, false, false⟩ = (some (sg ++ ds ++ r), ⟨sg ++ ds ++ r, false, false⟩) := by
    unfold sentry
    rw [if_neg (by simp)]
    dsimp only
    obtain ⟨c, l, hc, hc'⟩ := numeral_head (r := r) ht
    rw [List.append_assoc, dropWhile_space hws ⟨c, l, hc, hc'⟩, hc]
  unfold Codec.read
  rw [hsen]
  dsimp only
  have he : ds.isEmpty = false := by
    cases ds with
    | nil => exact absurd rfl hd
    | cons d ds => rfl
  have hp : parseSize (sg ++ ds ++ r) =
      ⟨some (if 2 ^ 64 ≤ z.natAbs then 2 ^ 64 - 1 else (z % 2 ^ 64).toNat), r, !decide (2 ^ 64 ≤ z.natAbs), r.isEmpty⟩ := by
    unfold parseSize
    rw [splitSign_numeral hs hd h]
    dsimp only
    rw [h1, h2, he, if_neg (by decide), W_eq]
    rw [← natOf_eq] at hx
    have hz : z.natAbs = natOf ds := by rw [hx]; split <;> omega
    rw [hz]
    by_cases c1 : 2 ^ 64 ≤ natOf ds
    · rw [if_pos c1, if_pos c1, decide_eq_true c1]; rfl
    · rw [if_neg c1, if_neg c1, decide_eq_false c1]
      congr 2
      by_cases hm : sg = ['-']
      · simp only [hm, decide_true, if_true, wsub, W_eq] at hx ⊢
        omega
      · simp only [hm, decide_false, Bool.false_eq_true, if_false, one_mul] at hx ⊢
        omega
  rw [show sizeCodec.parse = parseSize from rfl, hp]
  simp

/-- C68: a size that is read without a failure stands in the text. -/
theorem C68_size_exact {s s' : IStream} {n : Nat} (h : sizeCodec.read s = (some n, s')) (hf : s'.fail = false) :
    ∃ ws t z, s.rest = ws ++ t ++ s'.rest ∧ AllSpace ws ∧ IsNumeral t z ∧ NoDigit s'.rest ∧ z.natAbs < 2 ^ 64 ∧
      (n : Int) = z % 2 ^ 64 := by
  unfold Codec.read at h
  split at h
  · rename_i l s0 hsen
    obtain ⟨ws, hws, hl⟩ := sentry_some hsen
    obtain ⟨h1, h2⟩ := Prod.mk.inj h
    obtain ⟨sg, hsg, hl2, hneg⟩ := splitSign_spec l
    obtain ⟨hd1, hd2, hd3⟩ := digits_split (splitSign l).2
    have hp : sizeCodec.parse l = parseSize l := rfl
    rw [hp] at h1 h2
    unfold parseSize at h1 h2
    dsimp only at h1 h2
    split at h1
    · rename_i c; rw [if_pos c] at h2; subst h2; cases hf
    rename_i c
    rw [if_neg c] at h2
    split at h1
    · rename_i c; rw [if_pos c] at h2; subst h2; cases hf
    rename_i c1
    rw [if_neg c1] at h2
    subst h2
    have h1 := Option.some.inj h1
    have hW : natOf ((splitSign l).2.takeWhile isDigit) < 2 ^ 64 := by rw [← W_eq]; exact not_le.1 c1
    refine ⟨ws, sg ++ (splitSign l).2.takeWhile isDigit, (if sg = ['-'] then -1 else 1) * (natOf ((splitSign l).2.takeWhile isDigit) : Int),
      ?_, hws, ⟨sg, _, rfl, hsg, ?_, hd2, ?_⟩, hd3, ?_, ?_⟩
    · dsimp only
      rw [hl, List.append_assoc, List.append_assoc, ← hd1, ← hl2]
    · intro h0
      rw [h0] at c
      exact c rfl
    · rw [natOf_eq]
    · split <;> omega
    · rw [← h1, hneg]
      by_cases hm : sg = ['-']
      · simp only [hm, decide_true, if_true, wsub, W_eq]
        omega
      · simp only [hm, decide_false, Bool.false_eq_true, if_false, one_mul]
        omega
  · cases (Prod.mk.inj h).1

theorem took_numerals {lo hi : Int} {s s' : IStream} {xs : List Int} (h : Took (intCodec lo hi) s xs s') :
    Numerals s.rest xs s'.rest ∧ ∀ x ∈ xs, lo ≤ x ∧ x ≤ hi := by
  induction h with
  | nil => exact ⟨.nil, by simp⟩
  | snoc h1 h2 h3 ih =>
    obtain ⟨a, b, ws, t, e, hws, ht, hn⟩ := C68_number_exact h2 h3
    refine ⟨.snoc (e ▸ ih.1) hws ht hn, fun y hy => ?_⟩
    rcases List.mem_append.1 hy with hy | hy
    · exact ih.2 y hy
    · rw [List.mem_singleton.1 hy]; exact ⟨a, b⟩

theorem took_fail {c : Io.Codec T} {s s' : IStream} {xs : List T} (h : Took c s xs s') (hf : s'.fail = false) : s.fail = false := by
  induction h with
  | nil => exact hf
  | snoc h1 h2 h3 ih =>
    refine ih ?_
    by_contra hc
    rw [read_fail (by simpa using hc)] at h2
    cases (Prod.mk.inj h2).1

theorem tag_split {text : List Char} {t : Char} (ht : (readChar (.start text)).1 = some t) :
    ∃ ws, AllSpace ws ∧ text = ws ++ t :: (readChar (.start text)).2.rest := by
  unfold readChar at ht ⊢
  rcases hsen : sentry (.start text) with ⟨o, s0⟩
  rw [hsen] at ht
  match o, ht with
  | none, ht => cases ht
  | some [], ht => cases ht
  | some (c :: l), ht =>
    obtain ⟨ws, hws, e⟩ := sentry_some hsen
    cases ht
    exact ⟨ws, hws, e⟩

theorem int_sane (lo hi : Int) : (intCodec lo hi).Sane := by
  intro l hl
  rw [show (intCodec lo hi).parse = parseInt lo hi from rfl] at hl
  unfold parseInt at hl
  dsimp only at hl
  split_ifs at hl

/-- C68: a vector of integers that is read without a failure is what the text says: after the tag there are the size and then, one after the
other, the elements, all of which are in the range of the element type. -/
theorem C68_vector_exact {lo hi : Int} {text : List Char} {old v : List Int} {s' : IStream}
    (h : readVec (intCodec lo hi) (.start text) old = .ok (s', v)) (hf : s'.fail = false) :
    (∃ ws t r, text = ws ++ t :: r ∧ AllSpace ws ∧ t ≠ 'V' ∧ v = old) ∨
    ∃ ws ws2 t z r, text = ws ++ 'V' :: (ws2 ++ t ++ r) ∧ AllSpace ws ∧ AllSpace ws2 ∧ IsNumeral t z ∧ NoDigit r ∧
      (v.length : Int) = z % 2 ^ 64 ∧ Numerals r v s'.rest ∧ ∀ x ∈ v, lo ≤ x ∧ x ≤ hi := by
  rcases C68_vector_partial (intCodec lo hi) (int_sane lo hi) (.start text) old h with
    ⟨h1, t, h2, h3⟩ | ⟨n, s1, k, xs, s2, h1, h2, h3, h4, h5, h6, h7, h8, h9⟩
  · obtain ⟨ws, hws, e⟩ := tag_split h2
    exact .inl ⟨ws, t, _, e, hws, h3, h1⟩
  · obtain ⟨ws, hws, e⟩ := tag_split h1
    obtain ⟨rfl, rfl, rfl⟩ := h9 hf
    obtain ⟨ws2, t, z, e2, hws2, ht, hn, -, hz⟩ := C68_size_exact h2 (took_fail h6 hf)
    obtain ⟨h10, h11⟩ := took_numerals h6
    refine .inr ⟨ws, ws2, t, z, s1.rest, ?_, hws, hws2, ht, hn, ?_, h10, h11⟩
    · rw [e, e2]
    · rw [h3, hz]

/-- C68: the same for matrices; the elements are in the text in row order. -/
theorem C68_matrix_exact {lo hi : Int} {text : List Char} {old B : Mat Int} {s' : IStream} (hold : old.WF)
    (h : readMat (intCodec lo hi) (.start text) old = .ok (s', B)) (hf : s'.fail = false) :
    (∃ ws t r, text = ws ++ t :: r ∧ AllSpace ws ∧ t ≠ 'M' ∧ B = old) ∨
    ∃ ws n m sn s1, text = ws ++ 'M' :: (readChar (.start text)).2.rest ∧ AllSpace ws ∧
      sizeCodec.read (readChar (.start text)).2 = (some n, sn) ∧ sizeCodec.read sn = (some m, s1) ∧ (Fits n m →
      ∃ ws2 ws3 t z t' z' r xs f, text = ws ++ 'M' :: (ws2 ++ t ++ (ws3 ++ t' ++ r)) ∧ AllSpace ws2 ∧ AllSpace ws3 ∧
        IsNumeral t z ∧ IsNumeral t' z' ∧ NoDigit r ∧ (n : Int) = z % 2 ^ 64 ∧ (m : Int) = z' % 2 ^ 64 ∧
        B.Holds n m f ∧ Numerals r xs s'.rest ∧ xs.length = n * m ∧ (∀ i j, i < n → j < m → xs[i * m + j]? = some (f i j)) ∧
        ∀ x ∈ xs, lo ≤ x ∧ x ≤ hi) := by
  rcases C68_matrix_partial (intCodec lo hi) (int_sane lo hi) (.start text) hold h with
    ⟨h1, t, h2, h3⟩ | ⟨n, m, sn, s1, h1, h2, h3, h4⟩
  · obtain ⟨ws, hws, e⟩ := tag_split h2
    exact .inl ⟨ws, t, _, e, hws, h3, h1⟩
  · obtain ⟨ws, hws, e⟩ := tag_split h1
    refine .inr ⟨ws, n, m, sn, s1, e, hws, h2, h3, fun hfit => ?_⟩
    obtain ⟨k, xs, s2, f, hB, h5, h6, h7, h8, -, h9⟩ := h4 hfit
    obtain ⟨rfl, rfl⟩ := h9 hf
    have hs1 := took_fail h7 hf
    have hsn : sn.fail = false := by
      by_contra hc
      rw [read_fail (by simpa using hc)] at h3
      cases (Prod.mk.inj h3).1
    obtain ⟨ws2, t, z, e2, hws2, ht, -, -, hz⟩ := C68_size_exact h2 hsn
    obtain ⟨ws3, t', z', e3, hws3, ht', hn', -, hz'⟩ := C68_size_exact h3 hs1
    obtain ⟨h10, h11⟩ := took_numerals h7
    refine ⟨ws2, ws3, t, z, t', z', s1.rest, xs, f, ?_, hws2, hws3, ht, ht', hn', hz, hz', hB, h10, h6,
      fun i j hi hj => h8 i j hi hj (lin_lt hi hj), h11⟩
    conv_lhs => rw [e, e2, e3]

example : IsNumeral "-12".toList (-12) := ⟨['-'], ['1', '2'], rfl, .inr (.inr rfl), by decide, by decide, by decide⟩
/-- A number that is too big makes the reading fail. -/
example : readVec (intCodec (-128) 127) (.start "V 2\n5 128\n".toList) [] = .ok (⟨"\n".toList, false, true⟩, [5, 127]) := by
  decide +kernel
example : readVec (intCodec (-128) 127) (.start "V 2\n5 -128\n".toList) [] = .ok (⟨"\n".toList, false, false⟩, [5, -128]) := by
  decide +kernel

end Malg
