import Verif.Lemmas.Mat
/-!
# Construction, assignment and resizing of matrices as table equations
-/
namespace Malg
variable {T S : Type}

/-- Row-by-row fill with a running counter. -/
theorem fillRectIt {σ : Type} {n m : Nat} (St : Nat → (Nat → Nat → T) → σ)
    (hSt : ∀ k f g, (∀ r c, r < n → c < m → f r c = g r c) → St k f = St k g)
    {e f0 : Nat → Nat → T} {body : Nat → Nat → σ → Res σ} {s : σ}
    (hs : s = St 0 f0)
    (hb : ∀ r c f, r < n → c < m →
      body r c (St (r * m + c) f) = .ok (St (r * m + c + 1) (upd f r c (e r c)))) :
    forRange 0 n s (fun r s => forRange 0 m s (fun c s => body r c s)) = .ok (St (n * m) e) := by
  subst hs
  let F : Nat → Nat → Nat → T := fun k i j => if i * m + j < k then e i j else f0 i j
  have inner : ∀ r, r < n →
      forRange 0 m (St (r * m) (F (r * m))) (fun c s => body r c s) =
        .ok (St ((r + 1) * m) (F ((r + 1) * m))) := by
    intro r h2
    rw [forRange_eq (Nat.zero_le m) (fun c => St (r * m + c) (F (r * m + c)))]
    · rw [Nat.succ_mul]
    · rfl
    · intro c _ h4
      rw [hb r c _ h2 h4]
      congr 1
      apply hSt
      intro i j hi hj
      simp only [upd, F]
      by_cases h : i = r ∧ j = c
      · rw [if_pos h, if_pos (by rw [h.1, h.2]; omega), h.1, h.2]
      · rw [if_neg h]
        have hne : i * m + j ≠ r * m + c := fun h' => h (lin_inj hj h4 h')
        apply if_congr _ rfl rfl; omega
  rw [forRange_eq (Nat.zero_le n) (fun r => St (r * m) (F (r * m)))]
  · congr 1; apply hSt; intro r c hr hc; simp [F, lin_lt hr hc]
  · simp only [Nat.zero_mul]; apply hSt; intro r c hr hc; simp [F]
  · intro r _ h2; exact inner r h2

theorem Mat.ofFlat_eq [Zero T] {n m : Nat} (hf : Fits n m) {l : List T} {e : Nat → Nat → T}
    (h : ∀ r c, r < n → c < m → l[r * m + c]? = some (e r c)) :
    Mat.ofFlat n m l = .ok (Mat.ofFn n m e) := by
  simp only [Mat.ofFlat, Mat.new_eq hf, Res.ok_bind]
  rw [fillRectIt (n := n) (m := m) (fun k f => (Mat.ofFn n m f, k)) (hSt := ?_) (e := e) (f0 := fun _ _ => 0)]
  · rfl
  · rfl
  · intro r c f hr hc
    simp only [vget_ok_iff.2 (h r c hr hc), Res.ok_bind, ofFn_setAt hf hr hc, Res.pure_eq]
  · intro k f g hfg; rw [ofFn_congr hfg]

theorem Mat.ofNested_eq [Zero T] {l : List (List T)} {n m : Nat} (hn : 0 < n) (hm : 0 < m)
    (hf : Fits n m) {e : Nat → Nat → T} (hl : l.length = n)
    (h0 : ∃ first, l[0]? = some first ∧ first.length = m)
    (h : ∀ r, r < n → ∃ row, l[r]? = some row ∧ ∀ c, c < m → row[c]? = some (e r c)) :
    Mat.ofNested l = .ok (Mat.ofFn n m e) := by
  obtain ⟨first, h1, h2⟩ := h0
  have hnew : (⟨n, m, List.replicate (n * m) 0⟩ : Mat T) = Mat.ofFn n m fun _ _ => 0 := by
    rw [replicate_eq_vtab]; rfl
  simp only [Mat.ofNested, hl, Nat.ne_of_gt hn, if_false, vget_ok_iff.2 h1, Res.ok_bind, h2,
    Nat.ne_of_gt hm, hf.wmul, vnew_ok hf.1, hnew]
  have : ∀ i A, 0 ≤ i → i < n →
      (do let row ← vget l i
          forRange 0 m A fun j A => do
            let x ← vget row j
            Mat.setAt A i j x) =
      forRange 0 m A fun j A => (do
            let row ← vget l i
            let x ← vget row j
            return x) >>= fun x => Mat.setAt A i j x := by
    intro i A _ hi
    obtain ⟨row, h3, h4⟩ := h i hi
    simp only [vget_ok_iff.2 h3, Res.ok_bind]
  rw [forRange_congr this]
  apply fill_pure hf rfl
  intro r c hr hc
  obtain ⟨row, h3, h4⟩ := h r hr
  simp only [vget_ok_iff.2 h3, Res.ok_bind, vget_ok_iff.2 (h4 c hc)]

theorem Mat.ofMB_eq [Zero T] {b : MB S} {n m : Nat} {e} (h : Rep b n m e) (conv : S → T) :
    Mat.ofMB b conv = .ok (Mat.ofFn n m fun r c => conv (e r c)) := by
  simp only [Mat.ofMB, h.rows, h.cols, h.fits.wmul, vnew_ok h.fits.1, Res.ok_bind]
  rw [vfill_eq (e := fun i => conv (e (i / m) (i % m)))]
  · rfl
  · simp
  · intro i f hi _
    rw [h.lin' hi, Res.ok_bind, vset_vtab hi]

theorem Mat.assign_eq [Zero T] {A : Mat T} {b : MB S} {conv : S → T} {n m : Nat} {e}
    (h : RepAt b n m e) (hpos : 0 < n * m) :
    A.assignFrom (fun _ => b) conv = .ok (Mat.ofFn n m fun r c => conv (e r c)) := by
  have hnew : (⟨n, m, List.replicate (n * m) 0⟩ : Mat T) = Mat.ofFn n m fun _ _ => 0 := by
    rw [replicate_eq_vtab]; rfl
  simp only [Mat.assignFrom, h.size, gt_iff_lt, hpos, if_true, h.rows, h.cols, h.fits.wmul,
    vnew_ok h.fits.1, Res.ok_bind, hnew]
  apply fill_all (f0 := fun _ _ => 0) rfl
  intro r c f hr hc _ _
  rw [h.get r c hr hc, Res.ok_bind, ofFn_setAt h.fits hr hc]

theorem Mat.resize_eq [Zero T] {n m n' m' : Nat} {e : Nat → Nat → T} (hf : Fits n m) (hf' : Fits n' m') :
    (Mat.ofFn n m e).resize n' m' =
      .ok (Mat.ofFn n' m' fun r c => if r < n ∧ c < m then e r c else 0) := by
  unfold Mat.resize
  by_cases h1 : n = n' ∧ m = m'
  · obtain ⟨rfl, rfl⟩ := h1
    rw [if_pos (by exact ⟨rfl, rfl⟩)]
    congr 1; apply ofFn_congr; intro r c hr hc; simp [hr, hc]
  · rw [if_neg (by exact h1)]
    by_cases h2 : m = m'
    · subst h2
      rw [if_pos (by rfl)]
      simp only [vresize, hf'.wmul, hf'.1, if_true, Res.ok_bind, Res.pure_eq]
      congr 1
      unfold Mat.ofFn
      congr 1
      apply List.ext_getElem
      · have : n' * m ≤ n * m ∨ n * m ≤ n' * m := Nat.le_total _ _
        simp only [List.length_append, List.length_take, List.length_map, List.length_range,
          List.length_replicate]
        omega
      · intro i h3 h4
        simp only [List.length_map, List.length_range] at h4
        have hi := lin_of_lt h4
        simp only [List.getElem_append, List.length_take, List.length_map, List.length_range,
          List.getElem_take, List.getElem_map, List.getElem_range, List.getElem_replicate]
        have hcond : (i < min (n' * m) (n * m)) ↔ (i / m < n ∧ i % m < m) := by
          constructor
          · intro h; have := lin_of_lt (n := n) (m := m) (i := i) (by omega); exact ⟨this.1, this.2.1⟩
          · intro h; have := lin_lt h.1 h.2; omega
        by_cases hh : i < min (n' * m) (n * m)
        · rw [dif_pos hh, if_pos (hcond.1 hh)]
        · rw [dif_neg hh, if_neg (fun h => hh (hcond.2 h))]
    · rw [if_neg (by exact h2), Mat.new_eq hf', Res.ok_bind]
      show (forRange 0 (min n n') _ (fun i m_1 => forRange 0 (min m m') m_1 _) >>= _) = _
      rw [fillRect (Nat.zero_le _) (Nat.zero_le _) (Mat.ofFn n' m') (e := e) (f0 := fun _ _ => 0) rfl]
      · simp only [Res.ok_bind, Res.pure_eq]
        congr 1
        show Mat.ofFn n' m' (fun i j => if 0 ≤ i ∧ i < min n n' ∧ 0 ≤ j ∧ j < min m m' then e i j else 0) = _
        apply ofFn_congr
        intro r c hr hc
        apply if_congr _ rfl rfl
        omega
      · intro r c f _ hr _ hc _ _
        rw [ofFn_at hf (by omega) (by omega), Res.ok_bind, ofFn_setAt hf' (by omega) (by omega)]

end Malg
