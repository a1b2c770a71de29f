import Verif.Lemmas.Io
/-!
# Reading back what was written, and what an arbitrary stream does to the target
-/
namespace Malg
namespace Io
variable {T : Type}

/-- White space only. -/
def AllSpace (ws : List Char) : Prop := ∀ c ∈ ws, isSpace c = true

theorem lead_intercalate (lead sep : List Char) {n : Nat} (cell : Nat → List Char) (hn : 0 < n) :
    lead ++ sep.intercalate (vtab n cell) =
      (List.range n).flatMap fun i => (if i = 0 then lead else sep) ++ cell i := by
  obtain ⟨k, rfl⟩ : ∃ k, n = k + 1 := ⟨n - 1, by omega⟩
  rw [intercalate_pre', List.range_succ_eq_map, List.flatMap_cons, List.flatMap_cons, List.flatMap_map,
    List.flatMap_map]
  simp

theorem pad_eq (w : Nat) (s : List Char) : pad w s = List.replicate (w - s.length) ' ' ++ s := rfl

theorem pad_space (k : Nat) : AllSpace (List.replicate k ' ') := by
  intro c hc; rw [List.eq_of_mem_replicate hc]; decide +kernel

/-- White space in front of the `k`-th element of a file with rows of length `m`. -/
def gap (fmt : T → List Char) (w : Nat) (x : Nat → T) (first : Nat → Prop) [DecidablePred first] (k : Nat) :
    List Char :=
  (if first k then '\n' else ' ') :: List.replicate (w - (fmt (x k)).length) ' '

theorem gap_space (fmt : T → List Char) (w : Nat) (x : Nat → T) (first : Nat → Prop) [DecidablePred first] (k : Nat) :
    ∀ d ∈ gap fmt w x first k, isSpace d = true := by
  intro d hd
  simp only [gap, List.mem_cons] at hd
  rcases hd with h | h
  · by_cases hf : first k
    · rw [if_pos hf] at h; subst h; decide +kernel
    · rw [if_neg hf] at h; subst h; decide +kernel
  · exact pad_space _ d h

theorem gap_head (fmt : T → List Char) (w : Nat) (x : Nat → T) (first : Nat → Prop) [DecidablePred first] (k : Nat) :
    ∃ d l, gap fmt w x first k = d :: l ∧ isSpace d = true :=
  ⟨_, _, rfl, gap_space fmt w x first k _ (by simp [gap])⟩

theorem vec_body (fmt : T → List Char) (w : Nat) {n : Nat} (x : Nat → T) (fin : List Char) (hn : 0 < n) :
    '\n' :: ([' '].intercalate (vtab n fun i => pad w (fmt (x i))) ++ fin) =
      remain fmt (gap fmt w x (· = 0)) x fin n 0 := by
  have := lead_intercalate ['\n'] [' '] (fun i => pad w (fmt (x i))) hn
  have h2 : '\n' :: ([' '].intercalate (vtab n fun i => pad w (fmt (x i))) ++ fin) =
      (['\n'] ++ [' '].intercalate (vtab n fun i => pad w (fmt (x i)))) ++ fin := by simp
  rw [h2, this]
  simp only [remain, Nat.sub_zero, Nat.zero_add]
  congr 1
  apply flatMap_congr_range
  intro i _
  simp only [gap, pad_eq]
  split <;> simp

theorem mat_body (fmt : T → List Char) (w : Nat) {n m : Nat} (e : Nat → Nat → T) (fin : List Char) (hn : 0 < n)
    (hm : 0 < m) :
    '\n' :: (rowsText w fmt n m e ++ fin) =
      remain fmt (gap fmt w (fun k => e (k / m) (k % m)) (fun k => k % m = 0)) (fun k => e (k / m) (k % m)) fin
        (n * m) 0 := by
  have h1 := lead_intercalate ['\n'] ['\n'] (fun r => [' '].intercalate (vtab m fun c => pad w (fmt (e r c)))) hn
  have h2 : '\n' :: (rowsText w fmt n m e ++ fin) = (['\n'] ++ rowsText w fmt n m e) ++ fin := by simp
  rw [h2]
  unfold rowsText
  rw [h1]
  simp only [remain, Nat.sub_zero, Nat.zero_add, ite_self]
  congr 1
  rw [show ((List.range n).flatMap fun r => ['\n'] ++ [' '].intercalate (vtab m fun c => pad w (fmt (e r c)))) =
      (List.range n).flatMap fun r => (List.range m).flatMap fun c =>
        (if c = 0 then ['\n'] else [' ']) ++ pad w (fmt (e r c)) from
    flatMap_congr_range fun r _ => lead_intercalate ['\n'] [' '] (fun c => pad w (fmt (e r c))) hm]
  rw [flatMap_nested]
  apply flatMap_congr_range
  intro i _
  simp only [gap, pad_eq]
  split <;> simp

theorem intercalate_mem {sep : List Char} {l : List (List Char)} {c : Char} (h : c ∈ sep.intercalate l) :
    c ∈ sep ∨ ∃ x ∈ l, c ∈ x := by
  induction l with
  | nil => simp at h
  | cons a l ih =>
    cases l with
    | nil => right; exact ⟨a, by simp, by simpa using h⟩
    | cons b l =>
      rw [List.intercalate_cons_cons] at h
      rcases List.mem_append.1 h with h | h
      · rcases List.mem_append.1 h with h | h
        · exact Or.inr ⟨a, by simp, h⟩
        · exact Or.inl h
      · rcases ih h with h | ⟨x, hx, h⟩
        · exact Or.inl h
        · exact Or.inr ⟨x, by simp only [List.mem_cons] at hx ⊢; tauto, h⟩

theorem rowsText_empty (fmt : T → List Char) (w : Nat) {n m : Nat} (e : Nat → Nat → T) (h : n * m = 0) :
    AllSpace (rowsText w fmt n m e) := by
  intro c hc
  rcases intercalate_mem hc with h1 | ⟨x, hx, h2⟩
  · simp only [List.mem_singleton] at h1; subst h1; decide +kernel
  · rcases Nat.mul_eq_zero.1 h with h0 | h0
    · subst h0; simp [vtab] at hx
    · subst h0
      simp only [vtab, List.range_zero, List.map_nil, List.intercalate_nil, List.mem_map] at hx
      obtain ⟨_, _, hx⟩ := hx
      subst hx; simp at h2

theorem vresize_length [Zero T] {v : List T} {n : Nat} (h : n < allocMax) :
    ∃ u, vresize v n = .ok u ∧ u.length = n ∧
      ∀ i, i < n → u[i]? = some (v.getD i 0) := by
  refine ⟨v.take n ++ List.replicate (n - v.length) 0, by simp only [vresize, if_pos h], ?_, ?_⟩
  · simp only [List.length_append, List.length_take, List.length_replicate]; omega
  · intro i hi
    rcases Nat.lt_or_ge i v.length with h1 | h1
    · have : i < (v.take n).length := by simp; omega
      rw [List.getElem?_append_left this, List.getElem?_take_of_lt hi, List.getElem?_eq_getElem h1]
      simp [List.getD, h1]
    · have h3 : (v.take n).length = v.length := by simp; omega
      rw [List.getElem?_append_right (by omega), h3]
      have : i - v.length < n - v.length := by omega
      simp [this, List.getD, h1]

/-- Header of a vector file. -/
theorem readVec_head [Zero T] {c : Codec T} {ws : List Char} (hws : AllSpace ws) {n : Nat} (hn : n < W) {d : Char}
    (hd : isSpace d = true) (l : List Char) (old : List T) :
    readVec c ⟨ws ++ 'V' :: ' ' :: (fmtNat n ++ d :: l), false, false⟩ old = (do
      let v ← vresize old n
      forRange 0 v.length (⟨d :: l, false, false⟩, v) fun i q => readItem c i q) := by
  have e1 := readChar_skip (c := 'V') (l := ' ' :: (fmtNat n ++ d :: l)) hws (by decide +kernel)
  have e2 := (sizeCodec_reads hn).read (ws := [' ']) (d := d) (t := l) (by
    intro c hc; simp only [List.mem_singleton] at hc; subst hc; decide +kernel) (by simp [isDelim, hd])
  have e3 : sizeCodec.read ⟨' ' :: (fmtNat n ++ d :: l), false, false⟩ = (some n, ⟨d :: l, false, false⟩) := e2
  simp only [readVec, e1, e3, ne_eq, not_true_eq_false, if_false]

theorem readVec_trip [Zero T] {S : Type} {c : Codec T} {fmt : S → List Char} {ws : List Char} (hws : AllSpace ws) {n : Nat} {x : Nat → S}
    {y : Nat → T} (hn : n < allocMax) (hx : ∀ i, i < n → c.ReadsAs (fmt (x i)) (y i)) (w : Nat) (tail : List Char) (old : List T) :
    ∃ ws', AllSpace ws' ∧
      readVec c ⟨ws ++ (['V', ' '] ++ fmtNat n ++ ['\n'] ++
        [' '].intercalate (vtab n fun i => pad w (fmt (x i))) ++ ['\n']) ++ tail, false, false⟩ old =
        .ok (⟨ws' ++ tail, false, false⟩, vtab n y) := by
  have hshape : ws ++ (['V', ' '] ++ fmtNat n ++ ['\n'] ++
        [' '].intercalate (vtab n fun i => pad w (fmt (x i))) ++ ['\n']) ++ tail =
      ws ++ 'V' :: ' ' :: (fmtNat n ++ '\n' :: ([' '].intercalate (vtab n fun i => pad w (fmt (x i))) ++
        '\n' :: tail)) := by simp
  have hnl : AllSpace ['\n'] := by
    intro c hc; simp only [List.mem_singleton] at hc; subst hc; decide +kernel
  rw [hshape, readVec_head hws (lt_trans hn allocMax_lt_W) (by decide +kernel)]
  obtain ⟨u, hu1, hu2, _⟩ := vresize_length (v := old) hn
  rw [hu1, Res.ok_bind, hu2]
  rcases Nat.eq_zero_or_pos n with h0 | hpos
  · subst h0
    refine ⟨['\n', '\n'], ?_, ?_⟩
    · intro c hc; simp only [List.mem_cons, List.not_mem_nil, or_false, or_self] at hc; subst hc; decide +kernel
    · rw [forRange_self]
      congr 2
      rw [List.length_eq_zero_iff.1 hu2]; rfl
  · refine ⟨['\n'], hnl, ?_⟩
    rw [vec_body fmt w x ('\n' :: tail) hpos]
    obtain ⟨f0, hf0⟩ : ∃ f0, u = vtab n f0 := ⟨fun i => u.getD i 0, by rw [← hu2]; exact list_eq_vtab_getD u 0⟩
    rw [hf0]
    rw [forRange_eq (Nat.zero_le n) (fun k =>
      ((⟨remain fmt (gap fmt w x (· = 0)) x ('\n' :: tail) n k, false, false⟩ : IStream),
        vtab n fun i => if i < k then y i else f0 i))]
    · rw [remain_last]
      congr 2
      apply vtab_congr; intro i hi; simp [hi]
    · simp
    · intro i _ hi
      simp only [readItem]
      rw [read_remain hi (gap_space _ _ _ _) (gap_head _ _ _ _) ⟨'\n', tail, rfl, by decide +kernel⟩ (hx i hi)]
      dsimp only
      rw [vset_vtab hi, Res.ok_bind, Res.pure_eq]
      congr 2
      apply vtab_congr; intro k hk
      simp only [Function.update_apply]
      by_cases hki : k = i
      · subst hki; simp
      · have : k < i + 1 ↔ k < i := by omega
        simp [hki, this]

/-- Header of a matrix file. -/
theorem readMat_head [Zero T] {c : Codec T} {ws : List Char} (hws : AllSpace ws) {n m : Nat} (hn : n < W) (hm : m < W)
    {d : Char} (hd : isSpace d = true) (l : List Char) (A : Mat T) :
    readMat c ⟨ws ++ 'M' :: ' ' :: (fmtNat n ++ ' ' :: (fmtNat m ++ d :: l)), false, false⟩ A = (do
      let A ← A.resize n m
      forRange 0 A.rows (⟨d :: l, false, false⟩, A) fun r q =>
        forRange 0 A.cols q fun k q => readEntry c r k q) := by
  have e1 := readChar_skip (c := 'M') (l := ' ' :: (fmtNat n ++ ' ' :: (fmtNat m ++ d :: l))) hws (by decide +kernel)
  have hsp : ∀ c ∈ [' '], isSpace c = true := by
    intro c hc; simp only [List.mem_singleton] at hc; subst hc; decide +kernel
  have e2 : sizeCodec.read ⟨' ' :: (fmtNat n ++ ' ' :: (fmtNat m ++ d :: l)), false, false⟩ =
      (some n, ⟨' ' :: (fmtNat m ++ d :: l), false, false⟩) :=
    (sizeCodec_reads hn).read (ws := [' ']) (d := ' ') (t := fmtNat m ++ d :: l) hsp (by decide +kernel)
  have e3 : sizeCodec.read ⟨' ' :: (fmtNat m ++ d :: l), false, false⟩ = (some m, ⟨d :: l, false, false⟩) :=
    (sizeCodec_reads hm).read (ws := [' ']) (d := d) (t := l) hsp (by simp [isDelim, hd])
  simp only [readMat, e1, e2, e3, ne_eq, not_true_eq_false, if_false]

theorem readMat_trip [Zero T] {S : Type} {c : Codec T} {fmt : S → List Char} {ws : List Char} (hws : AllSpace ws) {n m : Nat} {e : Nat → Nat → S}
    {y : Nat → Nat → T} (hf : Fits n m) (hx : ∀ i j, i < n → j < m → c.ReadsAs (fmt (e i j)) (y i j)) (w : Nat) (tail : List Char) {A : Mat T} (hA : A.WF) :
    ∃ ws', AllSpace ws' ∧
      readMat c ⟨ws ++ (['M', ' '] ++ fmtNat n ++ [' '] ++ fmtNat m ++ ['\n'] ++ rowsText w fmt n m e ++ ['\n']) ++
        tail, false, false⟩ A = .ok (⟨ws' ++ tail, false, false⟩, Mat.ofFn n m y) := by
  have hshape : ws ++ (['M', ' '] ++ fmtNat n ++ [' '] ++ fmtNat m ++ ['\n'] ++ rowsText w fmt n m e ++ ['\n']) ++
        tail =
      ws ++ 'M' :: ' ' :: (fmtNat n ++ ' ' :: (fmtNat m ++ '\n' :: (rowsText w fmt n m e ++ '\n' :: tail))) := by simp
  have hnl : AllSpace ['\n'] := by
    intro c hc; simp only [List.mem_singleton] at hc; subst hc; decide +kernel
  rw [hshape, readMat_head hws hf.2.1 hf.2.2 (by decide +kernel)]
  rw [WF.eq_ofFn hA 0, Mat.resize_eq hA.2 hf, Res.ok_bind]
  simp only [ofFn_rows, ofFn_cols]
  rcases Nat.eq_zero_or_pos (n * m) with h0 | hpos
  · refine ⟨'\n' :: (rowsText w fmt n m e ++ ['\n']), ?_, ?_⟩
    · intro d hd
      simp only [List.mem_cons, List.mem_append, List.not_mem_nil, or_false] at hd
      rcases hd with h | h | h
      · subst h; decide +kernel
      · exact rowsText_empty _ _ _ h0 d h
      · subst h; decide +kernel
    · rw [forRange_nested n m _ (fun r k q => readEntry c r k q), h0, forRange_self]
      congr 2
      · simp
      · apply ofFn_congr
        intro r k hr hk
        have := lin_lt hr hk
        omega
  · have hn : 0 < n := Nat.pos_of_mul_pos_right hpos
    have hm : 0 < m := Nat.pos_of_mul_pos_left hpos
    refine ⟨['\n'], hnl, ?_⟩
    rw [mat_body fmt w e ('\n' :: tail) hn hm]
    rw [fillRectIt (n := n) (m := m) (fun k f =>
      ((⟨remain fmt (gap fmt w (fun k => e (k / m) (k % m)) (fun k => k % m = 0)) (fun k => e (k / m) (k % m))
        ('\n' :: tail) (n * m) k, false, false⟩ : IStream), Mat.ofFn n m f)) (hSt := ?_) (e := y) (hs := rfl)]
    · rw [remain_last]; rfl
    · intro r k f hr hk
      have hlt := lin_lt hr hk
      have hre := read_remain (c := c) (fmt := fmt) (x := fun k => e (k / m) (k % m)) (y := y r k) hlt
        (gap_space fmt w (fun k => e (k / m) (k % m)) (fun k => k % m = 0)) (gap_head _ _ _ _)
        ⟨'\n', tail, rfl, by decide +kernel⟩ (by
          rw [lin_div hk, lin_mod hk]; exact hx r k hr hk)
      simp only [readEntry]
      rw [hre]
      dsimp only
      rw [ofFn_setAt hf hr hk]
      rfl
    · intro k f g hfg; rw [ofFn_congr hfg]

/-! ## arbitrary streams -/

/-- From `s` the elements `xs` can be extracted one after the other without a failure, which leads to `s'`. -/
inductive Took (c : Codec T) : IStream → List T → IStream → Prop
  | nil (s) : Took c s [] s
  | snoc {s xs s1 x s2} : Took c s xs s1 → c.read s1 = (some x, s2) → s2.fail = false → Took c s (xs ++ [x]) s2

/-- A codec that leaves the variable alone only when it reports a failure. -/
def Codec.Sane (c : Codec T) : Prop := ∀ l, (c.parse l).value = none → (c.parse l).ok = false

theorem sentry_fail {s : IStream} (h : s.fail = true) : sentry s = (none, { s with fail := true }) := by
  simp [sentry, h]

theorem read_fail {c : Codec T} {s : IStream} (h : s.fail = true) : c.read s = (none, { s with fail := true }) := by
  simp [Codec.read, sentry_fail h]

theorem sentry_none {s s' : IStream} (h : sentry s = (none, s')) : s'.fail = true := by
  unfold sentry at h
  split at h
  · rw [← (Prod.mk.inj h).2]
  · split at h
    · rw [← (Prod.mk.inj h).2]
    · exact absurd (Prod.mk.inj h).1 (by simp)

theorem read_none {c : Codec T} (hc : c.Sane) {s s' : IStream} (h : c.read s = (none, s')) : s'.fail = true := by
  unfold Codec.read at h
  split at h
  · rename_i l _ _
    have h1 := (Prod.mk.inj h).1
    have h2 := (Prod.mk.inj h).2
    rw [← h2]
    simp [hc l h1]
  · rename_i s1 hs
    rw [← (Prod.mk.inj h).2]
    exact sentry_none hs

/-- What a loop of extractions does to its target. -/
theorem readLoop {σ : Type} {c : Codec T} (hc : c.Sane) {N : Nat} (St : (Nat → T) → σ)
    {body : Nat → IStream × σ → Res (IStream × σ)}
    (hb1 : ∀ k f s s', k < N → c.read s = (none, s') → body k (s, St f) = .ok (s', St f))
    (hb2 : ∀ k f s s' x, k < N → c.read s = (some x, s') → body k (s, St f) = .ok (s', St (Function.update f k x)))
    (s : IStream) (f : Nat → T) :
    ∃ s' f' k xs s2, forRange 0 N (s, St f) body = .ok (s', St f') ∧ k ≤ N ∧ xs.length = k ∧ Took c s xs s2 ∧
      (∀ i, i < k → xs[i]? = some (f' i)) ∧ (∀ i, k < i → i < N → f' i = f i) ∧
      (k < N → s'.fail = true) ∧ (k = N → s' = s2) := by
  obtain ⟨q, h1, h2⟩ := forRange_inv (Nat.zero_le N) (fun i (q : IStream × σ) =>
    ∃ s' f' k xs s2, q = (s', St f') ∧ k ≤ i ∧ xs.length = k ∧ Took c s xs s2 ∧
      (∀ i, i < k → xs[i]? = some (f' i)) ∧ (∀ j, k < j → f' j = f j) ∧
      (k < i → s'.fail = true) ∧ (k = i → s' = s2 ∧ f' k = f k)) (s := (s, St f)) (body := body)
    ⟨s, f, 0, [], s, rfl, Nat.le_refl 0, rfl, Took.nil s, fun i hi => by omega, fun _ _ => rfl,
      fun h => absurd h (Nat.lt_irrefl 0), fun _ => ⟨rfl, rfl⟩⟩
    (by
      rintro i _ _ hi ⟨s', f', k, xs, s2, rfl, hk, hl, ht, h1, h2, h3, h4⟩
      rcases hr : c.read s' with ⟨x, s1⟩
      rcases Nat.lt_or_ge k i with hlt | hge
      · have hf := h3 hlt
        rw [read_fail hf] at hr
        have e1 := (Prod.mk.inj hr).1
        have e2 := (Prod.mk.inj hr).2
        subst e1
        refine ⟨_, hb1 i f' s' s1 hi (by rw [read_fail hf, e2]), s1, f', k, xs, s2, rfl, by omega, hl, ht, h1, h2, ?_, ?_⟩
        · intro _; rw [← e2]
        · intro h; omega
      · obtain rfl : k = i := by omega
        obtain ⟨rfl, h5⟩ := h4 rfl
        cases x with
        | none =>
          refine ⟨_, hb1 k f' s' s1 hi hr, s1, f', k, xs, s', rfl, by omega, hl, ht, h1, h2, ?_, ?_⟩
          · intro _; exact read_none hc hr
          · intro h; omega
        | some x =>
          cases hfl : s1.fail with
          | true =>
            refine ⟨_, hb2 k f' s' s1 x hi hr, s1, _, k, xs, s', rfl, by omega, hl, ht, ?_, ?_, fun _ => hfl, ?_⟩
            · intro j hj; rw [h1 j hj, Function.update_of_ne (by omega)]
            · intro j hj; rw [Function.update_of_ne (by omega)]; exact h2 j hj
            · intro h; omega
          | false =>
            refine ⟨_, hb2 k f' s' s1 x hi hr, s1, _, k + 1, xs ++ [x], s1, rfl, Nat.le_refl _, by simp [hl],
              Took.snoc ht hr hfl, ?_, ?_, ?_, ?_⟩
            · intro j hj
              by_cases hjk : j = k
              · subst hjk; rw [Function.update_self, List.getElem?_append_right (by omega), hl]; simp
              · rw [Function.update_of_ne hjk, List.getElem?_append_left (by omega)]; exact h1 j (by omega)
            · intro j hj; rw [Function.update_of_ne (by omega)]; exact h2 j (by omega)
            · intro h; omega
            · intro _; exact ⟨rfl, by rw [Function.update_of_ne (by omega)]; exact h2 _ (by omega)⟩)
  obtain ⟨s', f', k, xs, s2, rfl, hk, hl, ht, h3, h4, h5, h6⟩ := h2
  exact ⟨s', f', k, xs, s2, h1, hk, hl, ht, h3, fun i hi _ => h4 i hi, h5, fun h => (h6 h).1⟩

theorem intCodec_sane (lo hi : Int) : (intCodec lo hi).Sane := by
  intro l h
  exfalso
  change (parseInt lo hi l).value = none at h
  unfold parseInt at h
  dsimp only at h
  by_cases h1 : (List.takeWhile isDigit (splitSign l).2).isEmpty = true
  · rw [if_pos h1] at h; exact absurd h (by simp)
  · rw [if_neg h1] at h
    generalize (if (splitSign l).1 = true then -(natOf (List.takeWhile isDigit (splitSign l).2) : Int)
      else (natOf (List.takeWhile isDigit (splitSign l).2) : Int)) = v at h
    by_cases h2 : v < lo
    · rw [if_pos h2] at h; exact absurd h (by simp)
    · rw [if_neg h2] at h
      by_cases h3 : hi < v
      · rw [if_pos h3] at h; exact absurd h (by simp)
      · rw [if_neg h3] at h; exact absurd h (by simp)

theorem charCodec_sane : charCodec.Sane := by
  intro l h; cases l <;> simp [charCodec] at h ⊢

theorem complexCodec_sane (c : Codec T) : (complexCodec c).Sane := by
  intro l h
  simp only [complexCodec] at h ⊢
  split <;> try rfl
  split <;> try rfl
  split <;> try rfl
  split <;> try rfl
  split <;> try rfl
  simp_all

end Io
end Malg
