import Verif.Model.Io
import Verif.Lemmas.Construct
import Mathlib.Data.List.TakeWhile
/-!
# Text, streams and the reading loops
-/
namespace Malg
namespace Io
variable {T : Type}

/-! ## separators -/

theorem intercalate_concat (sep : List Char) (l : List (List Char)) (x : List Char) :
    sep.intercalate (l ++ [x]) = if l = [] then x else sep.intercalate l ++ sep ++ x := by
  induction l with
  | nil => simp
  | cons a l ih =>
    cases l with
    | nil => simp [List.intercalate_cons_cons]
    | cons b l =>
      rw [List.cons_append, List.cons_append, List.intercalate_cons_cons, ← List.cons_append, ih]
      simp [List.intercalate_cons_cons]

theorem vtab_succ' (n : Nat) (f : Nat → T) : vtab (n + 1) f = vtab n f ++ [f n] := by
  simp [vtab, List.range_succ]

/-- The printing loops: `n` pieces with a separator between them. -/
theorem sepLoop {n : Nat} (hn : n < W) (sep : List Char) (out : List Char) {cell : Nat → List Char}
    {body : Nat → List Char → Res (List Char)}
    (hb : ∀ i o, i < n → body i o = .ok (if i < wsub n 1 then o ++ cell i ++ sep else o ++ cell i)) :
    forRange 0 n out body = .ok (out ++ sep.intercalate (vtab n cell)) := by
  rw [forRange_eq (Nat.zero_le n) (fun k => out ++ sep.intercalate (vtab k cell) ++ (if 0 < k ∧ k < n then sep else []))]
  · simp
  · simp [vtab]
  · intro i _ hi
    rw [hb i _ hi, vtab_succ', intercalate_concat, wsub_eq (by omega) hn]
    congr 1
    by_cases h0 : i = 0
    · subst h0
      by_cases h1 : 1 < n
      · simp [vtab, h1]
      · simp [vtab, h1]
    · have hne : vtab i cell ≠ [] := by
        intro h; have := congrArg List.length h; simp at this; exact h0 this
      by_cases h1 : i + 1 < n
      · have : i < n - 1 := by omega
        simp [hne, h1, this, Nat.pos_of_ne_zero h0, hi]
      · have : ¬ i < n - 1 := by omega
        simp [hne, h1, this, Nat.pos_of_ne_zero h0, hi]

/-- Separators between are separators in front, up to the first. -/
theorem intercalate_pre (sep : List Char) (n : Nat) (cell : Nat → List Char) (hn : 0 < n) :
    sep ++ sep.intercalate (vtab n cell) = (List.range n).flatMap fun i => sep ++ cell i := by
  induction n with
  | zero => omega
  | succ n ih =>
    rw [vtab_succ', intercalate_concat, List.range_succ, List.flatMap_append]
    by_cases h0 : n = 0
    · subst h0; simp [vtab]
    · have hne : vtab n cell ≠ [] := by
        intro h; have := congrArg List.length h; simp at this; exact h0 this
      rw [if_neg hne, ← ih (Nat.pos_of_ne_zero h0)]; simp

theorem intercalate_pre' (sep : List Char) (n : Nat) (cell : Nat → List Char) :
    sep.intercalate (vtab n cell) = (List.range n).flatMap fun i => (if i = 0 then [] else sep) ++ cell i := by
  induction n with
  | zero => simp [vtab]
  | succ n ih =>
    rw [vtab_succ', intercalate_concat, List.range_succ, List.flatMap_append, ← ih]
    by_cases h0 : n = 0
    · subst h0; simp [vtab]
    · have hne : vtab n cell ≠ [] := by
        intro h; have := congrArg List.length h; simp at this; exact h0 this
      simp [h0, hne]

theorem flatMap_congr_range {α β : Type} {l : List α} {f g : α → List β} (h : ∀ a ∈ l, f a = g a) :
    l.flatMap f = l.flatMap g := by
  simp only [List.flatMap]; rw [List.map_congr_left h]

theorem flatMap_nested {α : Type} (n m : Nat) (G : Nat → Nat → List α) :
    ((List.range n).flatMap fun r => (List.range m).flatMap fun c => G r c) =
      (List.range (n * m)).flatMap fun k => G (k / m) (k % m) := by
  induction n with
  | zero => simp
  | succ n ih =>
    rw [List.range_succ, List.flatMap_append, ih, Nat.succ_mul, List.range_add, List.flatMap_append]
    congr 1
    simp only [List.flatMap_cons, List.flatMap_nil, List.append_nil, List.flatMap_map]
    apply flatMap_congr_range
    intro c hc
    have hc := List.mem_range.1 hc
    rw [lin_div hc, lin_mod hc]

/-! ## the longest value -/

/-- `w` is the largest of the `n` lengths, zero if there are none. -/
def IsMax (n : Nat) (len : Nat → Nat) (w : Nat) : Prop :=
  (∀ i, i < n → len i ≤ w) ∧ (w = 0 ∨ ∃ i, i < n ∧ len i = w)

theorem longest_ok {fmtM : T → List Char} {n : Nat} {get : Nat → Res T} {x : Nat → T}
    (h : ∀ i, i < n → get i = .ok (x i)) :
    ∃ w, longest fmtM n get = .ok w ∧ IsMax n (fun i => (fmtM (x i)).length) w := by
  obtain ⟨w, h1, h2⟩ := forRange_inv (Nat.zero_le n) (fun k w => IsMax k (fun i => (fmtM (x i)).length) w) (s := 0)
    (body := fun i w => do
      let x ← get i
      return (if w < (fmtM x).length then (fmtM x).length else w))
    ⟨fun i hi => by omega, Or.inl rfl⟩
    (by
      intro i w _ hi hI
      simp only [h i hi, Res.ok_bind, Res.pure_eq]
      refine ⟨_, rfl, ?_⟩
      by_cases hlt : w < (fmtM (x i)).length
      · rw [if_pos hlt]
        refine ⟨fun k hk => ?_, Or.inr ⟨i, by omega, rfl⟩⟩
        by_cases hki : k = i
        · subst hki; exact Nat.le_refl _
        · exact le_of_lt (lt_of_le_of_lt (hI.1 k (by omega)) hlt)
      · rw [if_neg hlt]
        refine ⟨fun k hk => ?_, ?_⟩
        · by_cases hki : k = i
          · subst hki; exact Nat.le_of_not_lt hlt
          · exact hI.1 k (by omega)
        · rcases hI.2 with h0 | ⟨k, hk, hk2⟩
          · exact Or.inl h0
          · exact Or.inr ⟨k, by omega, hk2⟩)
  exact ⟨w, h1, h2⟩

/-! ## streams -/

theorem dropWhile_space {ws l : List Char} (hws : ∀ c ∈ ws, isSpace c = true) :
    (ws ++ l).dropWhile isSpace = l.dropWhile isSpace := by
  induction ws with
  | nil => rfl
  | cons c ws ih =>
    rw [List.cons_append, List.dropWhile_cons, if_pos (hws c (by simp))]
    exact ih fun d hd => hws d (by simp [hd])

theorem sentry_skip {ws l : List Char} {c : Char} (hws : ∀ c ∈ ws, isSpace c = true) (hc : isSpace c = false) :
    sentry ⟨ws ++ c :: l, false, false⟩ = (some (c :: l), ⟨c :: l, false, false⟩) := by
  have : (ws ++ c :: l).dropWhile isSpace = c :: l := by
    rw [dropWhile_space hws, List.dropWhile_cons, if_neg (by simp [hc])]
  simp [sentry, this]

theorem readChar_skip {ws l : List Char} {c : Char} (hws : ∀ c ∈ ws, isSpace c = true) (hc : isSpace c = false) :
    readChar ⟨ws ++ c :: l, false, false⟩ = (some c, ⟨l, false, false⟩) := by
  simp only [readChar, sentry_skip hws hc]

/-- Characters that can follow a number. -/
def isDelim (c : Char) : Bool := isSpace c || c == ',' || c == ')'

/-- The text `s` is read as `x`, when something that is no part of a number follows. -/
structure Codec.ReadsAs (c : Codec T) (s : List Char) (x : T) : Prop where
  head : ∃ d l, s = d :: l ∧ isSpace d = false
  parse : ∀ d t, isDelim d = true → c.parse (s ++ d :: t) = ⟨some x, d :: t, true, false⟩

/-- Reading back what was written. -/
abbrev Codec.Reads (c : Codec T) (x : T) : Prop := c.ReadsAs (c.fmt x) x

theorem Codec.ReadsAs.read {c : Codec T} {s : List Char} {x : T} (h : c.ReadsAs s x) {ws : List Char} {d : Char} {t : List Char}
    (hws : ∀ c ∈ ws, isSpace c = true) (hd : isDelim d = true) :
    c.read ⟨ws ++ (s ++ d :: t), false, false⟩ = (some x, ⟨d :: t, false, false⟩) := by
  obtain ⟨e, l, he, hs⟩ := h.head
  have hp := h.parse d t hd
  rw [he] at hp ⊢
  rw [List.cons_append] at hp ⊢
  simp only [Codec.read, sentry_skip hws hs, hp, Bool.not_true]

/-! ## decimal numbers -/

theorem digit_toNat {d : Nat} (h : d < 10) : (digit d).toNat = 48 + d := by
  have : d = 0 ∨ d = 1 ∨ d = 2 ∨ d = 3 ∨ d = 4 ∨ d = 5 ∨ d = 6 ∨ d = 7 ∨ d = 8 ∨ d = 9 := by omega
  rcases this with h | h | h | h | h | h | h | h | h | h <;> subst h <;> decide +kernel

theorem isDigit_digit {d : Nat} (h : d < 10) : isDigit (digit d) = true := by
  simp only [isDigit, digit_toNat h, Bool.and_eq_true, decide_eq_true_eq]; omega

theorem fmtNatF_spec (fuel n : Nat) (h : n < fuel) :
    (∀ c ∈ fmtNatF fuel n, isDigit c = true) ∧ natOf (fmtNatF fuel n) = n ∧ fmtNatF fuel n ≠ [] := by
  induction fuel generalizing n with
  | zero => omega
  | succ fuel ih =>
    unfold fmtNatF
    by_cases hn : n < 10
    · rw [if_pos hn]
      refine ⟨?_, ?_, by simp⟩
      · intro c hc; simp only [List.mem_singleton] at hc; subst hc; exact isDigit_digit hn
      · simp [natOf, digit_toNat hn]
    · rw [if_neg hn]
      obtain ⟨h1, h2, h3⟩ := ih (n / 10) (by omega)
      have hm : n % 10 < 10 := Nat.mod_lt _ (by omega)
      refine ⟨?_, ?_, by simp⟩
      · intro c hc
        rcases List.mem_append.1 hc with hc | hc
        · exact h1 c hc
        · simp only [List.mem_singleton] at hc; subst hc; exact isDigit_digit hm
      · simp only [natOf] at h2
        simp only [natOf, List.foldl_append, h2, List.foldl_cons, List.foldl_nil, digit_toNat hm]
        omega

theorem fmtNat_digits (n : Nat) : ∀ c ∈ fmtNat n, isDigit c = true := (fmtNatF_spec _ _ (Nat.lt_succ_self n)).1
theorem natOf_fmtNat (n : Nat) : natOf (fmtNat n) = n := (fmtNatF_spec _ _ (Nat.lt_succ_self n)).2.1
theorem fmtNat_ne_nil (n : Nat) : fmtNat n ≠ [] := (fmtNatF_spec _ _ (Nat.lt_succ_self n)).2.2

theorem isDelim_not_digit {d : Char} (h : isDelim d = true) : isDigit d = false := by
  simp only [isDelim, isSpace, Bool.or_eq_true, beq_iff_eq, Bool.and_eq_true, decide_eq_true_eq] at h
  rcases h with ((h | h) | h) | h
  · subst h; decide +kernel
  · simp only [isDigit, Bool.and_eq_false_iff, decide_eq_false_iff_not]; omega
  · subst h; decide +kernel
  · subst h; decide +kernel

theorem takeWhile_digits {l : List Char} {d : Char} {t : List Char} (hl : ∀ c ∈ l, isDigit c = true)
    (hd : isDigit d = false) :
    (l ++ d :: t).takeWhile isDigit = l ∧ (l ++ d :: t).dropWhile isDigit = d :: t := by
  induction l with
  | nil => simp [hd]
  | cons c l ih =>
    have hc := hl c (by simp)
    have := ih fun x hx => hl x (by simp [hx])
    simp [hc, this]

theorem isSpace_of_isDigit {c : Char} (h : isDigit c = true) : isSpace c = false := by
  simp only [isDigit, Bool.and_eq_true, decide_eq_true_eq] at h
  have hne : c ≠ ' ' := by intro he; subst he; revert h; decide +kernel
  simp only [isSpace, Bool.or_eq_false_iff, Bool.and_eq_false_iff, decide_eq_false_iff_not, beq_eq_false_iff_ne]
  exact ⟨hne, Or.inr (by omega)⟩

theorem splitSign_digit {c : Char} {l : List Char} (h : isDigit c = true) : splitSign (c :: l) = (false, c :: l) := by
  have h1 : c ≠ '-' := by intro he; subst he; revert h; decide +kernel
  have h2 : c ≠ '+' := by intro he; subst he; revert h; decide +kernel
  unfold splitSign
  split
  · rename_i h; exact absurd (List.cons.inj h).1 h1
  · rename_i h; exact absurd (List.cons.inj h).1 h2
  · rfl

theorem fmtNat_head (n : Nat) : ∃ d l, fmtNat n = d :: l ∧ isDigit d = true := by
  cases h : fmtNat n with
  | nil => exact absurd h (fmtNat_ne_nil n)
  | cons d l => exact ⟨d, l, rfl, fmtNat_digits n d (by rw [h]; simp)⟩

theorem splitSign_fmtNat (n : Nat) (t : List Char) : splitSign (fmtNat n ++ t) = (false, fmtNat n ++ t) := by
  obtain ⟨d, l, h, hd⟩ := fmtNat_head n
  rw [h, List.cons_append]; exact splitSign_digit hd

theorem sizeCodec_reads {n : Nat} (h : n < W) : sizeCodec.Reads n := by
  refine ⟨?_, ?_⟩
  · obtain ⟨d, l, h, hd⟩ := fmtNat_head n
    exact ⟨d, l, h, isSpace_of_isDigit hd⟩
  · intro d t hd
    obtain ⟨h1, h2⟩ := takeWhile_digits (t := t) (fmtNat_digits n) (isDelim_not_digit hd)
    show parseSize (fmtNat n ++ d :: t) = _
    simp only [parseSize, splitSign_fmtNat, h1, h2, natOf_fmtNat]
    simp [fmtNat_ne_nil, Nat.not_le.2 h]

theorem intCodec_reads {lo hi x : Int} (h1 : lo ≤ x) (h2 : x ≤ hi) : (intCodec lo hi).Reads x := by
  by_cases hx : x < 0
  · refine ⟨⟨'-', fmtNat x.natAbs, by simp [intCodec, fmtInt, hx], by decide +kernel⟩, ?_⟩
    intro d t hd
    obtain ⟨h3, h4⟩ := takeWhile_digits (t := t) (fmtNat_digits x.natAbs) (isDelim_not_digit hd)
    have hsp : splitSign ('-' :: (fmtNat x.natAbs ++ d :: t)) = (true, fmtNat x.natAbs ++ d :: t) := rfl
    have hv : -(x.natAbs : Int) = x := by omega
    simp only [intCodec, fmtInt, hx, if_true, List.cons_append, parseInt, hsp, h3, h4, natOf_fmtNat, hv]
    simp [fmtNat_ne_nil, Int.not_lt.2 h1, Int.not_lt.2 h2]
  · refine ⟨?_, ?_⟩
    · obtain ⟨d, l, h, hd⟩ := fmtNat_head x.natAbs
      exact ⟨d, l, by simp [intCodec, fmtInt, hx, h], isSpace_of_isDigit hd⟩
    · intro d t hd
      obtain ⟨h3, h4⟩ := takeWhile_digits (t := t) (fmtNat_digits x.natAbs) (isDelim_not_digit hd)
      have hv : (x.natAbs : Int) = x := by omega
      simp only [intCodec, fmtInt, hx, if_false, parseInt, splitSign_fmtNat, h3, h4, natOf_fmtNat, hv]
      simp [fmtNat_ne_nil, Int.not_lt.2 h1, Int.not_lt.2 h2]

theorem charCodec_reads {x : Char} (h : isSpace x = false) : charCodec.Reads x :=
  ⟨⟨x, [], rfl, h⟩, fun _ _ _ => rfl⟩

theorem complexCodec_readsAs {c : Codec T} {s1 s2 : List Char} {z : T × T} (h1 : c.ReadsAs s1 z.1) (h2 : c.ReadsAs s2 z.2) :
    (complexCodec c).ReadsAs (['('] ++ s1 ++ [','] ++ s2 ++ [')']) z := by
  refine ⟨⟨'(', _, rfl, by decide +kernel⟩, ?_⟩
  intro d t _
  have hp : ∀ l, readChar ⟨'(' :: l, false, false⟩ = (some '(', ⟨l, false, false⟩) :=
    fun l => readChar_skip (ws := []) (by simp) (by decide +kernel)
  have hk : ∀ l, readChar ⟨',' :: l, false, false⟩ = (some ',', ⟨l, false, false⟩) :=
    fun l => readChar_skip (ws := []) (by simp) (by decide +kernel)
  have hq : ∀ l, readChar ⟨')' :: l, false, false⟩ = (some ')', ⟨l, false, false⟩) :=
    fun l => readChar_skip (ws := []) (by simp) (by decide +kernel)
  have e1 := h1.read (ws := []) (d := ',') (t := s2 ++ ')' :: d :: t) (by simp) (by decide +kernel)
  have e2 := h2.read (ws := []) (d := ')') (t := d :: t) (by simp) (by decide +kernel)
  have hshape : ['('] ++ s1 ++ [','] ++ s2 ++ [')'] ++ d :: t =
      '(' :: (s1 ++ ',' :: (s2 ++ ')' :: d :: t)) := by simp
  rw [hshape]
  simp only [List.nil_append] at e1 e2
  simp only [complexCodec, hp, e1, hk, e2, hq, Bool.not_false]

theorem complexCodec_reads {c : Codec T} {z : T × T} (h1 : c.Reads z.1) (h2 : c.Reads z.2) :
    (complexCodec c).Reads z := complexCodec_readsAs h1 h2

/-! ## reading loops -/

/-- Remaining text in front of the `k`-th of `n` elements, each preceded by its white space. -/
def remain (fmt : T → List Char) (ws : Nat → List Char) (x : Nat → T) (fin : List Char) (n k : Nat) : List Char :=
  ((List.range (n - k)).flatMap fun i => ws (k + i) ++ fmt (x (k + i))) ++ fin

theorem remain_last (fmt : T → List Char) (ws x fin) (n : Nat) : remain fmt ws x fin n n = fin := by simp [remain]

theorem remain_step (fmt : T → List Char) (ws x fin) {n k : Nat} (h : k < n) :
    remain fmt ws x fin n k = ws k ++ (fmt (x k) ++ remain fmt ws x fin n (k + 1)) := by
  obtain ⟨m, hm⟩ : ∃ m, n - k = m + 1 := ⟨n - k - 1, by omega⟩
  have h2 : n - (k + 1) = m := by omega
  simp only [remain, hm, h2, List.range_succ_eq_map, List.flatMap_cons, List.flatMap_map, Nat.add_zero]
  simp only [List.append_assoc]
  congr 3
  apply flatMap_congr_range
  intro i _
  have : k + (i + 1) = k + 1 + i := by omega
  simp [this]

/-- Every element is followed by white space. -/
theorem remain_head (fmt : T → List Char) {ws : Nat → List Char} {x fin} {n k : Nat} (h : k ≤ n)
    (hws : ∀ k, ∃ d l, ws k = d :: l ∧ isSpace d = true) (hfin : ∃ d l, fin = d :: l ∧ isSpace d = true) :
    ∃ d t, remain fmt ws x fin n k = d :: t ∧ isSpace d = true := by
  rcases Nat.lt_or_ge k n with hk | hk
  · rw [remain_step _ _ _ _ hk]
    obtain ⟨d, l, h1, h2⟩ := hws k
    exact ⟨d, _, by rw [h1, List.cons_append], h2⟩
  · obtain rfl : k = n := by omega
    rw [remain_last]; exact hfin

theorem read_remain {S : Type} {c : Codec T} {fmt : S → List Char} {ws : Nat → List Char} {x : Nat → S} {y : T} {fin : List Char} {n k : Nat}
    (h : k < n)
    (hsp : ∀ k, ∀ d ∈ ws k, isSpace d = true)
    (hws : ∀ k, ∃ d l, ws k = d :: l ∧ isSpace d = true) (hfin : ∃ d l, fin = d :: l ∧ isSpace d = true)
    (hx : c.ReadsAs (fmt (x k)) y) :
    c.read ⟨remain fmt ws x fin n k, false, false⟩ = (some y, ⟨remain fmt ws x fin n (k + 1), false, false⟩) := by
  obtain ⟨d, t, h1, h2⟩ := remain_head (x := x) fmt (Nat.succ_le_of_lt h) hws hfin
  rw [remain_step _ _ _ _ h, h1]
  exact hx.read (hsp k) (by simp [isDelim, h2])

/-! ## the texts -/

theorem printVec_eq {fmtM fmt : T → List Char} {v : List T} {n : Nat} {x : Nat → T} (h : VRep v n x) :
    ∃ w, IsMax n (fun i => (fmtM (x i)).length) w ∧
      printVec fmtM fmt v = .ok ([' '].intercalate (vtab n fun i => pad w (fmt (x i)))) ∧
      writeVec fmtM fmt v = .ok (['V', ' '] ++ fmtNat n ++ ['\n'] ++
        [' '].intercalate (vtab n fun i => pad w (fmt (x i))) ++ ['\n']) := by
  obtain ⟨h1, h2, h3⟩ := h
  have hg : ∀ i, i < n → vget v i = .ok (x i) := fun i hi => vget_ok_iff.2 (h3 i hi)
  obtain ⟨w, e1, e2⟩ := longest_ok (fmtM := fmtM) hg
  refine ⟨w, e2, ?_, ?_⟩
  · simp only [printVec, h2, e1, Res.ok_bind]
    rw [sepLoop (lt_trans h1 allocMax_lt_W) [' '] [] (cell := fun i => pad w (fmt (x i)))]
    · rfl
    · intro i o hi; simp only [hg i hi, Res.ok_bind, Res.pure_eq]
  · simp only [writeVec, h2, e1, Res.ok_bind]
    rw [sepLoop (lt_trans h1 allocMax_lt_W) [' '] [] (cell := fun i => pad w (fmt (x i)))]
    · rfl
    · intro i o hi; simp only [hg i hi, Res.ok_bind, Res.pure_eq]

/-- The rows of a matrix as text. -/
def rowsText (w : Nat) (fmt : T → List Char) (n m : Nat) (e : Nat → Nat → T) : List Char :=
  ['\n'].intercalate (vtab n fun r => [' '].intercalate (vtab m fun c => pad w (fmt (e r c))))

theorem printRows_eq {fmt : T → List Char} {A : MB T} {n m : Nat} {e} (h : RepAt A n m e) (w : Nat) :
    printRows w fmt A = .ok (rowsText w fmt n m e) := by
  simp only [printRows, h.rows, h.cols]
  rw [sepLoop h.fits.2.1 ['\n'] [] (cell := fun r => [' '].intercalate (vtab m fun c => pad w (fmt (e r c))))]
  · rfl
  · intro r o hr
    rw [sepLoop h.fits.2.2 [' '] o (cell := fun c => pad w (fmt (e r c)))]
    · rfl
    · intro c o hc; simp only [h.get r c hr hc, Res.ok_bind, Res.pure_eq]

theorem longestMat_ok {fmtM : T → List Char} {A : MB T} {n m : Nat} {e} (h : Rep A n m e) :
    ∃ w, longest fmtM A.size A.lin = .ok w ∧ IsMax (n * m) (fun i => (fmtM (e (i / m) (i % m))).length) w := by
  rw [h.size]
  exact longest_ok fun i hi => h.lin' hi

/-! ## flat form of nested loops -/

theorem forRange_nested {σ : Type} (n m : Nat) (s : σ) (body : Nat → Nat → σ → Res σ) :
    (forRange 0 n s fun r s => forRange 0 m s fun c s => body r c s) =
      forRange 0 (n * m) s fun k s => body (k / m) (k % m) s := by
  induction n with
  | zero => simp
  | succ n ih =>
    rw [forRange_succ_last (Nat.zero_le n), ih, Nat.succ_mul,
      forRange_append (Nat.zero_le (n * m)) (Nat.le_add_right _ _)]
    congr 1; funext s'
    have : forRange (n * m) (n * m + m) s' (fun k s => body (k / m) (k % m) s) =
        forRange 0 m s' fun c s => body n c s := by
      unfold forRange
      have e1 : n * m + m - n * m = m - 0 := by omega
      rw [e1, Nat.sub_zero]
      suffices ∀ k j s', j + k = m → loopN (fun k s => body (k / m) (k % m) s) k (n * m + j) s' =
          loopN (fun c s => body n c s) k j s' from this m 0 s' (by omega)
      intro k
      induction k with
      | zero => intros; rfl
      | succ k ih =>
        intro j s' hj
        simp only [loopN]
        rw [lin_div (by omega), lin_mod (by omega)]
        congr 1; funext s''
        exact ih (j + 1) s'' (by omega)
    rw [this]

end Io
end Malg
