import Verif.Spec.Ref
import Verif.Lemmas.View
/-!
# In-place loops through references
-/
namespace Malg
variable {T : Type}

theorem Store.put_same (s : Store T) (v : Nat) (A : Mat T) : s.put v A v = A := by simp [Store.put]
theorem Store.put_ne (s : Store T) {v w : Nat} (A : Mat T) (h : w ≠ v) : s.put v A w = s w := by
  simp [Store.put, h]
theorem Store.put_put (s : Store T) (v : Nat) (A B : Mat T) : (s.put v A).put v B = s.put v B := by
  funext w; simp only [Store.put]; split <;> rfl
theorem Store.put_self (s : Store T) (v : Nat) : s.put v (s v) = s := by
  funext w; simp only [Store.put]; split <;> simp_all

theorem eq_put {s s' : Store T} {v : Nat} {A : Mat T} (h1 : s' v = A) (h2 : ∀ w, w ≠ v → s' w = s w) :
    s' = s.put v A := by
  funext w
  by_cases h : w = v
  · subst h; rw [Store.put_same, h1]
  · rw [Store.put_ne _ _ h, h2 w h]

theorem On.write_eq {m : MRef (Store T) T} {v N M n k : Nat} {ρ κ} (h : On m v N M n k ρ κ)
    {s : Store T} {e} (hs : (s v).Holds N M e) {r c : Nat} (hr : r < n) (hc : c < k) (x : T) :
    m.setAt s r c x = .ok (s.put v (Mat.ofFn N M (upd e (ρ r) (κ c) x))) := by
  obtain ⟨s', h1, h2, h3⟩ := h.write s e r c x hs hr hc
  rw [h1]; congr 1
  exact eq_put h2.eq h3

/-- A variable denotes itself. -/
theorem On.var {v N M : Nat} : On (MRef.var (T := T) v) v N M N M id id where
  rho_lt _ h := h
  kap_lt _ h := h
  rho_inj _ _ _ _ h := h
  kap_inj _ _ _ _ h := h
  reads s e h := h.rep
  write s e r c x h hr hc := by
    refine ⟨s.put v (Mat.ofFn N M (upd e r c x)), ?_, ?_, fun w hw => Store.put_ne _ _ hw⟩
    · show (do let A ← (s v).setAt r c x; pure (s.put v A) : Res (Store T)) = _
      rw [h.eq, ofFn_setAt h.fits hr hc]; rfl
    · rw [Store.put_same]; exact ofFn_holds h.fits _
  writeLin s e r c x h hr hc := by
    show (do let A ← (s v).setLin (r * M + c) x; pure (s.put v A) : Res (Store T)) =
      (do let A ← (s v).setAt r c x; pure (s.put v A) : Res (Store T))
    rw [h.eq, ofFn_setAt h.fits hr hc, ofFn_setLin (lin_lt hr hc), lin_div hc, lin_mod hc]

/-- Views of views. -/
theorem On.sub {m : MRef (Store T) T} {v N M n k : Nat} {ρ κ} (h : On m v N M n k ρ κ)
    (hn : n < W) (hk : k < W)
    {row col : Range} (hr : row.start ≤ n) (hr' : row.start ≤ row.stop)
    (hc : col.start ≤ k) (hc' : col.start ≤ col.stop) :
    On (m.sub row col) v N M (min row.stop n - row.start) (min col.stop k - col.start)
      (fun r => ρ (row.start + r)) (fun c => κ (col.start + c)) where
  rho_lt r hr := h.rho_lt _ (by omega)
  kap_lt c hc := h.kap_lt _ (by omega)
  rho_inj r r' h1 h2 h3 := by
    have := h.rho_inj _ _ (by omega) (by omega) h3; omega
  kap_inj r r' h1 h2 h3 := by
    have := h.kap_inj _ _ (by omega) (by omega) h3; omega
  reads s e hs := view_repAt (h.reads s e hs).toRepAt hr hr' hc hc'
  write s e r c x hs h1 h2 := by
    have := h.write s e (row.start + r) (col.start + c) x hs (by omega) (by omega)
    rw [← wadd_eq (a := row.start) (b := r) (by omega), ← wadd_eq (a := col.start) (b := c) (by omega)] at this
    show ∃ s', m.setAt s (wadd row.start r) (wadd col.start c) x = _ ∧ _
    rw [wadd_eq (a := row.start) (b := r) (by omega), wadd_eq (a := col.start) (b := c) (by omega)] at this ⊢
    exact this
  writeLin s e r c x hs h1 h2 := by
    have hcols : ((m.view s).view row col).cols = min col.stop k - col.start :=
      view_cols (h.reads s e hs).cols hk hc hc'
    show (if ((m.view s).view row col).cols = 0 then _ else _) = m.setAt s (wadd row.start r) (wadd col.start c) x
    rw [if_neg (by rw [hcols]; omega), hcols, lin_div h2, lin_mod h2]

/-- Deleting a row and a column of a square reference. -/
theorem On.cofactor {m : MRef (Store T) T} {v N M n : Nat} {ρ κ} (h : On m v N M n n ρ κ)
    (hn : n < W) (hpos : 0 < n) (p q : Nat) :
    On (m.cofactor p q) v N M (n - 1) (n - 1) (fun r => ρ (skip p r)) (fun c => κ (skip q c)) where
  rho_lt r hr := h.rho_lt _ (skip_lt hr)
  kap_lt c hc := h.kap_lt _ (skip_lt hc)
  rho_inj r r' h1 h2 h3 := skip_inj (h.rho_inj _ _ (skip_lt h1) (skip_lt h2) h3)
  kap_inj r r' h1 h2 h3 := skip_inj (h.kap_inj _ _ (skip_lt h1) (skip_lt h2) h3)
  reads s e hs := cofactor_rep (h.reads s e hs).toRepAt hpos p q
  write s e r c x hs h1 h2 := by
    have := h.write s e (skip p r) (skip q c) x hs (skip_lt h1) (skip_lt h2)
    show ∃ s', m.setAt s (wadd r (if r ≥ p then 1 else 0)) (wadd c (if c ≥ q then 1 else 0)) x = _ ∧ _
    rw [wadd_skip h1 hn, wadd_skip h2 hn]; exact this
  writeLin s e r c x hs h1 h2 := by
    have hrows : ((m.view s).cofactor p q).rows = n - 1 :=
      (cofactor_repAt (h.reads s e hs).toRepAt hpos hpos p q).rows
    show (if ((m.view s).cofactor p q).rows = 0 then _ else
      (m.cofactor p q).setAt s ((r * (n - 1) + c) / ((m.view s).cofactor p q).rows)
        ((r * (n - 1) + c) % ((m.view s).cofactor p q).rows) x) = _
    rw [if_neg (by rw [hrows]; omega), hrows, lin_div h2, lin_mod h2]

/-! ## Scattering a table of view entries into the variable -/

open Classical in
/-- The table `e` with the entries addressed by `(ρ,κ)` replaced by `F`. -/
noncomputable def scatter (n k : Nat) (ρ κ : Nat → Nat) (e F : Nat → Nat → T) : Nat → Nat → T := fun i j =>
  if h : ∃ rc : Nat × Nat, rc.1 < n ∧ rc.2 < k ∧ ρ rc.1 = i ∧ κ rc.2 = j then F h.choose.1 h.choose.2
  else e i j

section
variable {n k : Nat} {ρ κ : Nat → Nat} {e F : Nat → Nat → T}

theorem scatter_on (hρ : ∀ r r', r < n → r' < n → ρ r = ρ r' → r = r')
    (hκ : ∀ c c', c < k → c' < k → κ c = κ c' → c = c') {r c : Nat} (hr : r < n) (hc : c < k) :
    scatter n k ρ κ e F (ρ r) (κ c) = F r c := by
  have h : ∃ rc : Nat × Nat, rc.1 < n ∧ rc.2 < k ∧ ρ rc.1 = ρ r ∧ κ rc.2 = κ c := ⟨(r, c), hr, hc, rfl, rfl⟩
  have hs := h.choose_spec
  simp only [scatter, dif_pos h]
  rw [hρ _ _ hs.1 hr hs.2.2.1, hκ _ _ hs.2.1 hc hs.2.2.2]

theorem scatter_off {i j : Nat} (h : ∀ r c, r < n → c < k → ¬ (ρ r = i ∧ κ c = j)) :
    scatter n k ρ κ e F i j = e i j := by
  simp only [scatter]
  rw [dif_neg]
  rintro ⟨⟨r, c⟩, h1, h2, h3, h4⟩
  exact h r c h1 h2 ⟨h3, h4⟩

theorem scatter_self (i j : Nat) : scatter n k ρ κ e (fun r c => e (ρ r) (κ c)) i j = e i j := by
  simp only [scatter]
  split
  · rename_i h
    rw [h.choose_spec.2.2.1, h.choose_spec.2.2.2]
  · rfl

theorem scatter_upd (hρ : ∀ r r', r < n → r' < n → ρ r = ρ r' → r = r')
    (hκ : ∀ c c', c < k → c' < k → κ c = κ c' → c = c') {r c : Nat} (hr : r < n) (hc : c < k) (x : T) :
    upd (scatter n k ρ κ e F) (ρ r) (κ c) x = scatter n k ρ κ e (upd F r c x) := by
  funext i j
  by_cases h : ∃ r' c', r' < n ∧ c' < k ∧ ρ r' = i ∧ κ c' = j
  · obtain ⟨r', c', h1, h2, rfl, rfl⟩ := h
    rw [scatter_on hρ hκ h1 h2]
    simp only [upd, scatter_on hρ hκ h1 h2]
    apply if_congr _ rfl rfl
    constructor
    · rintro ⟨a, b⟩; exact ⟨hρ _ _ h1 hr a, hκ _ _ h2 hc b⟩
    · rintro ⟨rfl, rfl⟩; exact ⟨rfl, rfl⟩
  · rw [scatter_off (F := upd F r c x) (fun r' c' h1 h2 h3 => h ⟨r', c', h1, h2, h3.1, h3.2⟩), upd_ne, scatter_off]
    · exact fun r' c' h1 h2 h3 => h ⟨r', c', h1, h2, h3.1, h3.2⟩
    · rintro ⟨rfl, rfl⟩; exact h ⟨r, c, hr, hc, rfl, rfl⟩
end

/-- The state in which the entries of `v` addressed by a reference are the table `F`. -/
noncomputable def putOn (s : Store T) (v N M n k : Nat) (ρ κ : Nat → Nat) (e F : Nat → Nat → T) : Store T :=
  s.put v (Mat.ofFn N M (scatter n k ρ κ e F))

theorem putOn_holds {s : Store T} {v N M n k : Nat} {ρ κ} {e F : Nat → Nat → T} (hf : Fits N M) :
    (putOn s v N M n k ρ κ e F v).Holds N M (scatter n k ρ κ e F) := by
  unfold putOn; rw [Store.put_same]; exact ofFn_holds hf _

theorem On.put_step {m : MRef (Store T) T} {v N M n k : Nat} {ρ κ} (h : On m v N M n k ρ κ)
    (hf : Fits N M) {s : Store T} {e F : Nat → Nat → T} {r c : Nat} (hr : r < n) (hc : c < k) (x : T) :
    m.setAt (putOn s v N M n k ρ κ e F) r c x = .ok (putOn s v N M n k ρ κ e (upd F r c x)) := by
  rw [h.write_eq (putOn_holds hf) hr hc, scatter_upd h.rho_inj h.kap_inj hr hc]
  congr 1
  unfold putOn; rw [Store.put_put]

theorem On.put_read {m : MRef (Store T) T} {v N M n k : Nat} {ρ κ} (h : On m v N M n k ρ κ)
    (hf : Fits N M) {s : Store T} {e F : Nat → Nat → T} :
    Rep (m.view (putOn s v N M n k ρ κ e F)) n k F :=
  (h.reads _ _ (putOn_holds hf)).congr (fun _ _ hr hc => scatter_on h.rho_inj h.kap_inj hr hc)

theorem putOn_init {m : MRef (Store T) T} {v N M n k : Nat} {ρ κ} (_h : On m v N M n k ρ κ)
    {s : Store T} {e : Nat → Nat → T} (hs : (s v).Holds N M e) :
    s = putOn s v N M n k ρ κ e (fun r c => e (ρ r) (κ c)) := by
  unfold putOn
  have : scatter n k ρ κ e (fun r c => e (ρ r) (κ c)) = e := by funext i j; exact scatter_self i j
  rw [this, ← hs.eq, Store.put_self]

/-- What a source shows while the target is partly overwritten. -/
theorem shows_put {m : MRef (Store T) T} {v N M n k : Nat} {ρ κ} (h : On m v N M n k ρ κ) (hf : Fits N M)
    {rhs : Store T → MB T} {w N' M' : Nat} {ρ' κ' : Nat → Nat} (hs : Shows rhs w N' M' n k ρ' κ')
    (hρ' : ∀ r, r < n → ρ' r < N') (hκ' : ∀ c, c < k → κ' c < M')
    (hnc : w = v → NoClobber n k ρ κ ρ' κ')
    {s : Store T} {e e' F : Nat → Nat → T} (he : (s v).Holds N M e) (he' : (s w).Holds N' M' e')
    {r c : Nat} (hr : r < n) (hc : c < k)
    (hF : ∀ i j, i < n → j < k → ¬ (i < r ∨ (i = r ∧ j < c)) → F i j = e (ρ i) (κ j)) :
    (rhs (putOn s v N M n k ρ κ e F)).at_ r c = .ok (e' (ρ' r) (κ' c)) ∧
    (rhs (putOn s v N M n k ρ κ e F)).lin (r * k + c) = .ok (e' (ρ' r) (κ' c)) := by
  by_cases hwv : w = v
  · subst hwv
    obtain ⟨rfl, rfl, hee⟩ := he.rep.toRepAt.unique he'.rep.toRepAt
    have hrep := hs _ _ (putOn_holds (s := s) (ρ := ρ) (κ := κ) (n := n) (k := k) (e := e) (F := F) hf)
    have : scatter n k ρ κ e F (ρ' r) (κ' c) = e' (ρ' r) (κ' c) := by
      rw [← hee _ _ (hρ' r hr) (hκ' c hc)]
      by_cases hx : ∃ i j, i < n ∧ j < k ∧ ρ i = ρ' r ∧ κ j = κ' c
      · obtain ⟨i, j, h1, h2, h3, h4⟩ := hx
        rw [← h3, ← h4, scatter_on h.rho_inj h.kap_inj h1 h2]
        exact hF i j h1 h2 (fun hlt => hnc rfl r c i j hr hc h1 h2 hlt ⟨h3, h4⟩)
      · exact scatter_off (fun i j h1 h2 h3 => hx ⟨i, j, h1, h2, h3.1, h3.2⟩)
    exact ⟨by rw [hrep.get r c hr hc, this], by rw [hrep.lin r c hr hc, this]⟩
  · have : (putOn s v N M n k ρ κ e F w).Holds N' M' e' := by
      unfold putOn; rw [Store.put_ne _ _ hwv]; exact he'
    have hrep := hs _ _ this
    exact ⟨hrep.get r c hr hc, hrep.lin r c hr hc⟩

/-- Linear traversal with an arbitrary state. -/
theorem fillLinSt {σ : Type} {n m : Nat} (St : (Nat → Nat → T) → σ)
    (hSt : ∀ f g, (∀ r c, r < n → c < m → f r c = g r c) → St f = St g)
    {s : σ} {e f0 : Nat → Nat → T}
    (hs : s = St f0) {body : Nat → σ → Res σ}
    (hb : ∀ r c f, r < n → c < m →
      (∀ i j, i < n → j < m → (i < r ∨ (i = r ∧ j < c)) → f i j = e i j) →
      (∀ i j, i < n → j < m → ¬ (i < r ∨ (i = r ∧ j < c)) → f i j = f0 i j) →
      body (r * m + c) (St f) = .ok (St (upd f r c (e r c)))) :
    forRange 0 (n * m) s body = .ok (St e) := by
  let F : Nat → Nat → Nat → T := fun k r c => if r * m + c < k then e r c else f0 r c
  rw [forRange_eq (Nat.zero_le _) (fun k => St (F k))]
  · congr 1; apply hSt; intro r c hr hc; simp [F, lin_lt hr hc]
  · rw [hs]; apply hSt; intro r c hr hc; simp [F]
  · intro i _ hi
    have h1 := lin_of_lt hi
    obtain ⟨h1, h2, h3⟩ := h1
    generalize i / m = r at h1 h3
    generalize i % m = c at h2 h3
    subst h3
    have key : ∀ i j, j < m → (i * m + j < r * m + c ↔ (i < r ∨ (i = r ∧ j < c))) := by
      intro i j hj
      constructor
      · intro h
        rcases Nat.lt_trichotomy i r with h4 | h4 | h4
        · exact Or.inl h4
        · subst h4; right; exact ⟨rfl, by omega⟩
        · exfalso
          have := Nat.mul_le_mul_right m h4
          rw [Nat.succ_mul] at this; omega
      · rintro (h | ⟨rfl, h⟩)
        · have := Nat.mul_le_mul_right m h
          rw [Nat.succ_mul] at this; omega
        · omega
    rw [hb r c (F _) h1 h2]
    · congr 1; apply hSt; intro i j hi hj
      simp only [upd, F]
      by_cases h : i = r ∧ j = c
      · rw [if_pos h, if_pos (by rw [h.1, h.2]; omega), h.1, h.2]
      · rw [if_neg h]
        have hne : i * m + j ≠ r * m + c := fun h' => h (lin_inj hj h2 h')
        apply if_congr _ rfl rfl; omega
    · intro i j _ hj h; simp only [F]; rw [if_pos ((key i j hj).2 h)]
    · intro i j _ hj h; simp only [F]; rw [if_neg (fun h' => h ((key i j hj).1 h'))]

theorem putOn_congr {s : Store T} {v N M n k : Nat} {ρ κ : Nat → Nat} {e F G : Nat → Nat → T}
    (h : ∀ r c, r < n → c < k → F r c = G r c) : putOn s v N M n k ρ κ e F = putOn s v N M n k ρ κ e G := by
  unfold putOn
  congr 2
  funext i j
  simp only [scatter]
  split
  · rename_i hh; exact h _ _ hh.choose_spec.1 hh.choose_spec.2.1
  · rfl

theorem putOn_overwritten {m : MRef (Store T) T} {v N M n k : Nat} {ρ κ} (h : On m v N M n k ρ κ)
    (hf : Fits N M) (s : Store T) (e F : Nat → Nat → T) :
    Overwritten s (putOn s v N M n k ρ κ e F) v N M e n k ρ κ F :=
  ⟨_, putOn_holds hf, fun _ _ hr hc => scatter_on h.rho_inj h.kap_inj hr hc,
    fun _ _ _ _ hx => scatter_off hx, fun _ hw => by unfold putOn; rw [Store.put_ne _ _ hw]⟩

/-- Element-wise assignment through a reference. -/
theorem On.assign_eq {R : Type} {m : MRef (Store T) T} {v N M n k : Nat} {ρ κ} (h : On m v N M n k ρ κ)
    {s : Store T} {e : Nat → Nat → T} (he : (s v).Holds N M e) {rhs : Store T → MB R} {conv : R → T}
    {x : Nat → Nat → R} (hr : (rhs s).rows = n) (hc : (rhs s).cols = k)
    (hx : ∀ r c F, r < n → c < k →
      (∀ i j, i < n → j < k → ¬ (i < r ∨ (i = r ∧ j < c)) → F i j = e (ρ i) (κ j)) →
      (rhs (putOn s v N M n k ρ κ e F)).at_ r c = .ok (x r c)) :
    m.assign rhs conv s = .ok (putOn s v N M n k ρ κ e (fun r c => conv (x r c))) := by
  have hv := h.reads s e he
  unfold MRef.assign
  rw [if_neg (by rw [hv.rows, hr]; exact fun h => h rfl), if_neg (by rw [hv.cols, hc]; exact fun h => h rfl),
    hr, hc, fillRect (e := fun r c => conv (x r c)) (Nat.zero_le n) (Nat.zero_le k)
      (putOn s v N M n k ρ κ e) (putOn_init h he)]
  · congr 1; apply putOn_congr; intro r c hr hc; rw [if_pos (by omega)]
  · intro r c f _ hr _ hc _ h2
    rw [hx r c f hr hc (fun i j hi hj hn => h2 i j (by omega)), Res.ok_bind,
      h.put_step he.fits hr hc]

end Malg
