import Verif.Spec.VecMem
import Verif.Lemmas.Loops
import Mathlib.Tactic.Convert
/-!
# The heap model refines variables holding lists
-/
namespace Malg
namespace VecMem
variable {T : Type}

/-! ## Heap -/

@[simp] theorem put_same (m : Mem T) (b : Nat) (c) : (m.put b c).blocks b = c := by simp [Mem.put]
theorem put_ne (m : Mem T) {b k : Nat} (c) (h : k ≠ b) : (m.put b c).blocks k = m.blocks k := by simp [Mem.put, h]
@[simp] theorem put_put (m : Mem T) (b : Nat) (c d) : (m.put b c).put b d = m.put b d := by
  simp only [Mem.put]; congr 1; funext k; split <;> rfl
theorem put_self {m : Mem T} {b : Nat} {c} (h : m.blocks b = c) : m.put b c = m := by
  cases m; simp only [Mem.put]; congr 1; funext k; split
  · subst k; exact h.symm
  · rfl
@[simp] theorem put_next (m : Mem T) (b : Nat) (c) : (m.put b c).next = m.next := rfl

/-- `cells` with positions `lo … i-1` overwritten. -/
def over (cells : List (Option T)) (f : Nat → T) (lo i : Nat) : List (Option T) :=
  (List.range cells.length).map fun k => if lo ≤ k ∧ k < i then some (f k) else (cells[k]?).getD none

theorem over_start (cells : List (Option T)) (f : Nat → T) (lo : Nat) : over cells f lo lo = cells := by
  apply List.ext_getElem
  · simp [over]
  · intro k h1 h2
    simp only [over, List.getElem_map, List.getElem_range]
    rw [if_neg (by omega), List.getElem?_eq_getElem h2]; rfl

theorem over_length (cells : List (Option T)) (f : Nat → T) (lo i : Nat) : (over cells f lo i).length = cells.length := by
  simp [over]

theorem over_set (cells : List (Option T)) (f : Nat → T) {lo i : Nat} (hl : lo ≤ i) :
    (over cells f lo i).set i (some (f i)) = over cells f lo (i + 1) := by
  apply List.ext_getElem
  · simp [over]
  · intro k h1 h2
    rw [List.getElem_set]
    simp only [over, List.getElem_map, List.getElem_range]
    by_cases hk : i = k
    · subst hk; rw [if_pos rfl, if_pos ⟨hl, by omega⟩]
    · rw [if_neg hk]
      by_cases hc : lo ≤ k ∧ k < i
      · rw [if_pos hc, if_pos ⟨hc.1, by omega⟩]
      · rw [if_neg hc, if_neg (by omega)]

/-- A filling loop whose right hand side may read the heap, but not the block being written. -/
theorem fill_loop {m : Mem T} {b : Nat} {cells : List (Option T)} (hb : m.blocks b = some cells) (f : Nat → T)
    {lo hi : Nat} (h1 : lo ≤ hi) (h2 : hi ≤ cells.length) (value : Mem T → Nat → Res T)
    (hv : ∀ c i, lo ≤ i → i < hi → value (m.put b c) i = .ok (f i)) :
    (forRange lo hi m fun i m => value m i >>= fun x => store m (some b) i x)
      = .ok (m.put b (some (over cells f lo hi))) := by
  rw [forRange_eq h1 (fun i => m.put b (some (over cells f lo i)))]
  · rw [over_start, put_self hb]
  · intro i hl hi'
    rw [hv _ i hl hi', Res.ok_bind]
    simp only [store, put_same]
    rw [if_pos (by rw [over_length]; omega), put_put, over_set _ _ hl]

/-! ## One vector -/

/-- `v` holds the list `l`. -/
def Owns (m : Mem T) (v : VObj) (l : List T) : Prop :=
  v.size = l.length ∧
    ((l = [] ∧ v.data = none) ∨ ∃ b, l ≠ [] ∧ v.data = some b ∧ m.blocks b = some (l.map some))

theorem Owns.nil (m : Mem T) : Owns m ⟨none, 0⟩ ([] : List T) := ⟨rfl, .inl ⟨rfl, rfl⟩⟩

theorem Owns.mk {m : Mem T} {b : Nat} {l : List T} (h : l ≠ []) (hb : m.blocks b = some (l.map some)) :
    Owns m ⟨some b, l.length⟩ l := ⟨rfl, .inr ⟨b, h, rfl, hb⟩⟩

/-- The change from `(m, v)` to `(m', v')` touches no block of another vector and loses no block. -/
structure Frame (m : Mem T) (v : VObj) (m' : Mem T) (v' : VObj) : Prop where
  other : ∀ b, v.data ≠ some b → v'.data ≠ some b → m'.blocks b = m.blocks b
  gone : ∀ b, v.data = some b → v'.data ≠ some b → m'.blocks b = none
  new : ∀ b, v'.data = some b → v.data ≠ some b → m.blocks b = none
  fresh : (∀ b, m.next ≤ b → m.blocks b = none) → ∀ b, m'.next ≤ b → m'.blocks b = none

theorem Frame.refl (m : Mem T) (v : VObj) : Frame m v m v :=
  ⟨fun _ _ _ => rfl, fun _ h h' => absurd h h', fun _ h h' => absurd h h', fun h => h⟩

/-- Rewriting the own block. -/
theorem Frame.put {m : Mem T} {v : VObj} {m' : Mem T} {v' : VObj} {b : Nat} (h : Frame m v m' v')
    (hv : v'.data = some b) {c d} (hd : m'.blocks b = some d) : Frame m v (m'.put b (some c)) v' := by
  refine ⟨fun k h1 h2 => ?_, fun k h1 h2 => ?_, h.new, fun hf k hk => ?_⟩
  · rw [put_ne _ _ (fun e => h2 (by rw [hv, e]))]; exact h.other k h1 h2
  · rw [put_ne _ _ (fun e => h2 (by rw [hv, e]))]; exact h.gone k h1 h2
  · by_cases hkb : k = b
    · subst hkb
      have := h.fresh hf k hk
      rw [this] at hd; cases hd
    · rw [put_ne _ _ hkb]; exact h.fresh hf k hk

theorem Frame.resize {m : Mem T} {v : VObj} {m' : Mem T} {v' : VObj} (h : Frame m v m' v') {n k : Nat} :
    Frame m ⟨v.data, n⟩ m' ⟨v'.data, k⟩ := ⟨h.other, h.gone, h.new, h.fresh⟩

/-- `deallocate` leaves an empty vector. -/
theorem deallocate_spec {m : Mem T} {v : VObj} {l : List T} (h : Owns m v l) :
    ∃ m', deallocate m v = .ok (m', ⟨none, 0⟩, decide (0 < v.size)) ∧ Frame m v m' ⟨none, 0⟩ ∧
      m'.calls = m.calls := by
  obtain ⟨hs, h⟩ := h
  rcases h with ⟨rfl, hd⟩ | ⟨b, hl, hd, hb⟩
  · have : v = ⟨none, 0⟩ := by cases v; simp at hs hd; simp [hs, hd]
    subst this
    exact ⟨m, by simp [deallocate], Frame.refl _ _, rfl⟩
  · have hpos : v.size > 0 := by rw [hs]; exact List.length_pos_iff.mpr hl
    refine ⟨m.put b none, ?_, ?_, rfl⟩
    · simp [deallocate, hpos, free, hd, hb]
    · refine ⟨fun k h1 _ => ?_, fun k h1 _ => ?_, fun k h1 _ => by simp at h1, fun hf k hk => ?_⟩
      · exact put_ne _ _ (fun e => h1 (by rw [hd, e]))
      · rw [hd] at h1; cases h1; exact put_same _ _ _
      · by_cases hkb : k = b
        · subst hkb; exact put_same _ _ _
        · rw [put_ne _ _ hkb]; exact hf k hk

/-- `realloc` of the block of a vector, when the allocator agrees. -/
theorem realloc_spec {cfg : Cfg} {m : Mem T} {v : VObj} {l : List T} (h : Owns m v l)
    (hfr : ∀ b, m.next ≤ b → m.blocks b = none) {n : Nat} (hn : 0 < n) (hsz : 0 < cfg.sz) (hsm : Small cfg.sz n)
    (hd : cfg.dec m.calls ≠ .fail) :
    ∃ m' b, realloc cfg m v.data (wmul cfg.sz n) = .ok (m', some b) ∧ Frame m v m' ⟨some b, n⟩ ∧
      m'.blocks b = some ((l.map some).take n ++ List.replicate (n - l.length) none) ∧ m'.calls = m.calls + 1 := by
  have hsm' : cfg.sz * n < 2 ^ 63 := hsm
  rw [wmul_eq (by rw [W_eq]; omega)]
  have hn0 : cfg.sz * n ≠ 0 := Nat.mul_ne_zero (Nat.ne_of_gt hsz) (Nat.ne_of_gt hn)
  have hdiv : cfg.sz * n / cfg.sz = n := Nat.mul_div_cancel_left n hsz
  have href : ¬ (cfg.dec m.calls = .fail ∨ 2 ^ 63 ≤ cfg.sz * n) := by
    rintro (h | h)
    · exact hd h
    · omega
  obtain ⟨hs, h⟩ := h
  rcases h with ⟨rfl, hdat⟩ | ⟨b, hl, hdat, hb⟩
  · refine ⟨_, m.next, by simp only [realloc, hdat]; rw [if_neg href, hdiv], ?_, ?_, rfl⟩
    · refine ⟨fun k _ h2 => ?_, fun k h1 _ => (by rw [hdat] at h1; cases h1),
        fun k h1 _ => ?_, fun hf k hk => ?_⟩
      · exact put_ne _ _ (fun e => h2 (by simp [e]))
      · cases h1; exact hfr _ (Nat.le_refl _)
      · have hk' : m.next + 1 ≤ k := hk
        show (m.put m.next _).blocks k = none
        rw [put_ne _ _ (by omega)]; exact hf k (by omega)
    · show (m.put m.next _).blocks m.next = _
      rw [put_same]; simp
  · have hbn : b ≠ m.next := by
      rintro rfl; rw [hfr _ (Nat.le_refl _)] at hb; cases hb
    by_cases hst : cfg.dec m.calls = .stay
    · refine ⟨_, b, by
        simp only [realloc, hdat, hb]; rw [if_neg hn0, if_neg href, if_pos hst, hdiv], ?_, ?_, rfl⟩
      · refine ⟨fun k h1 _ => ?_, fun k h1 h2 => ?_, fun k h1 h2 => ?_, fun hf k hk => ?_⟩
        · exact put_ne _ _ (fun e => h1 (by rw [hdat, e]))
        · exact absurd (hdat ▸ h1) h2
        · exact absurd (hdat ▸ h1) h2
        · have hk' : m.next ≤ k := hk
          have : k ≠ b := by rintro rfl; rw [hfr _ hk'] at hb; cases hb
          show (m.put b _).blocks k = none
          rw [put_ne _ _ this]; exact hf k hk'
      · show (m.put b _).blocks b = _
        rw [put_same, List.length_map]
    · refine ⟨_, m.next, by
        simp only [realloc, hdat, hb]; rw [if_neg hn0, if_neg href, if_neg hst, hdiv], ?_, ?_, rfl⟩
      · refine ⟨fun k h1 h2 => ?_, fun k h1 h2 => ?_, fun k h1 h2 => ?_, fun hf k hk => ?_⟩
        · show ((m.put b none).put m.next _).blocks k = _
          rw [put_ne _ _ (fun e => h2 (by simp [e])), put_ne _ _ (fun e => h1 (by rw [hdat, e]))]
        · rw [hdat] at h1; cases h1
          show ((m.put b none).put m.next _).blocks b = _
          rw [put_ne _ _ hbn, put_same]
        · cases h1; exact hfr _ (Nat.le_refl _)
        · have hk' : m.next + 1 ≤ k := hk
          show ((m.put b none).put m.next _).blocks k = none
          rw [put_ne _ _ (by omega)]
          by_cases hkb : k = b
          · subst hkb; exact put_same _ _ _
          · rw [put_ne _ _ hkb]; exact hf k (by omega)
      · show ((m.put b none).put m.next _).blocks m.next = _
        rw [put_same, List.length_map]

/-- The list after `resize(n)`. -/
def resized [Zero T] (l : List T) (n : Nat) : List T := l.take n ++ List.replicate (n - l.length) 0

theorem resized_length [Zero T] (l : List T) (n : Nat) : (resized l n).length = n := by
  simp [resized]; omega

theorem over_resized [Zero T] {l : List T} {n : Nat} (h : l.length < n) :
    over ((l.map some).take n ++ List.replicate (n - l.length) none) (fun _ => (0 : T)) l.length n
      = (resized l n).map some := by
  apply List.ext_getElem
  · simp [over, resized]
  · intro k h1 h2
    simp only [over, List.getElem_map, List.getElem_range, resized]
    by_cases hk : k < l.length
    · rw [if_neg (by omega), List.getElem?_append_left (by simp; omega), List.getElem_append_left (by simp; omega)]
      rw [List.getElem_take, List.getElem?_take_of_lt (by omega), List.getElem?_map, List.getElem?_eq_getElem hk]
      rfl
    · simp [resized] at h2
      rw [if_pos ⟨by omega, by omega⟩, List.getElem_append_right (by simp; omega)]
      simp

/-- `allocate`, when the allocator agrees: the list is cut or extended by zeros. -/
theorem allocate_spec [Zero T] {cfg : Cfg} {m : Mem T} {v : VObj} {l : List T} (h : Owns m v l)
    (hfr : ∀ b, m.next ≤ b → m.blocks b = none) {n : Nat} (hsz : 0 < cfg.sz) (hsm : Small cfg.sz n)
    (hd : request l.length n = 1 → cfg.dec m.calls ≠ .fail) :
    ∃ m' v' r, allocate cfg m v n = .ok (m', v', r) ∧ Frame m v m' v' ∧ Owns m' v' (resized l n) ∧
      (r = false → n = 0) ∧ m'.calls = m.calls + request l.length n := by
  unfold allocate
  by_cases hn : n = 0
  · subst hn
    obtain ⟨m', hm, hf, hc⟩ := deallocate_spec h
    exact ⟨m', _, _, by rw [if_pos rfl]; exact hm, hf, by simpa [resized] using Owns.nil m', fun _ => rfl,
      by simpa [request] using hc⟩
  rw [if_neg hn]
  by_cases hs : n = v.size
  · refine ⟨m, v, true, by rw [if_pos hs], Frame.refl _ _, ?_, by simp, by simp [request, hs, h.1]⟩
    have : resized l n = l := by rw [hs, h.1]; simp [resized]
    rw [this]; exact h
  rw [if_neg hs]
  have hreq : request l.length n = 1 := by
    unfold request; rw [if_neg]; rintro (h' | h')
    · exact hn h'
    · exact hs (h'.trans h.1.symm)
  rw [hreq]
  obtain ⟨m', b, hr, hf, hb, hc⟩ := realloc_spec h hfr (Nat.pos_of_ne_zero hn) hsz hsm (hd hreq)
  rw [hr, Res.ok_bind]
  dsimp only
  have hne : resized l n ≠ [] := by
    intro e; have := resized_length l n; rw [e] at this; exact hn this.symm
  by_cases hg : n > v.size
  · rw [if_pos hg]
    have hlt : l.length < n := by rw [← h.1]; exact hg
    have := fill_loop (lo := v.size) (hi := n) hb (fun _ => (0 : T)) (by omega) (by simp; omega)
      (fun _ _ => .ok 0) (fun _ _ _ _ => rfl)
    simp only [Res.ok_bind] at this
    rw [this, Res.ok_bind, h.1, over_resized hlt]
    refine ⟨_, _, _, rfl, Frame.put hf rfl hb, ?_, by simp, hc⟩
    have := Owns.mk (m := m'.put b (some ((resized l n).map some))) hne (put_same _ _ _)
    rwa [resized_length] at this
  · rw [if_neg hg, if_neg (by omega)]
    refine ⟨_, _, _, rfl, hf, ?_, by simp, hc⟩
    have hcut : (l.map some).take n ++ List.replicate (n - l.length) none = (resized l n).map some := by
      have : n - l.length = 0 := by have := h.1; omega
      simp [resized, this]
    rw [hcut] at hb
    have := Owns.mk hne hb
    rwa [resized_length] at this

theorem over_all {c : List (Option T)} {l : List T} (f : Nat → T) (hl : c.length = l.length)
    (hf : ∀ i (h : i < l.length), f i = l[i]) : over c f 0 l.length = l.map some := by
  apply List.ext_getElem
  · simp [over, hl]
  · intro k h1 h2
    have hk : k < l.length := by simpa using h2
    simp only [over, List.getElem_map, List.getElem_range]
    rw [if_pos ⟨Nat.zero_le _, hk⟩, hf k hk]

/-- Allocation followed by the element loop of a constructor or an assignment. -/
theorem allocFill_spec [Zero T] {cfg : Cfg} {m : Mem T} {v : VObj} {l : List T} (h : Owns m v l)
    (hfr : ∀ b, m.next ≤ b → m.blocks b = none) (hsz : 0 < cfg.sz) (k : List T) (hsm : Small cfg.sz k.length)
    (hd : request l.length k.length = 1 → cfg.dec m.calls ≠ .fail) (value : Mem T → Nat → Res T)
    (hv : ∀ m' v' b c, Frame m v m' v' → v'.data = some b → ∀ i (hi : i < k.length),
      value (m'.put b c) i = .ok k[i]) :
    ∃ m' v', (allocate cfg m v k.length >>= fun r =>
        (if r.2.2 = true then fill r.1 r.2.1 value else .ok r.1) >>= fun m => .ok (m, r.2.1))
          = .ok (m', v') ∧ Frame m v m' v' ∧ Owns m' v' k ∧ m'.calls = m.calls + request l.length k.length := by
  obtain ⟨m', v', r, ha, hf, ho, hr, hc⟩ := allocate_spec h hfr hsz hsm hd
  rw [ha, Res.ok_bind]
  dsimp only
  have hlen := ho.1
  rw [resized_length] at hlen
  by_cases hk : k = []
  · have h0 : v'.size = 0 := by rw [hlen, hk]; rfl
    refine ⟨m', v', ?_, hf, ?_, hc⟩
    · cases r <;> simp [fill, h0]
    · subst hk; simpa [resized] using ho
  · have hr1 : r = true := by
      cases r
      · exact absurd (List.length_eq_zero_iff.mp (hr rfl)) hk
      · rfl
    obtain ⟨_, ho⟩ := ho
    rcases ho with ⟨h0, _⟩ | ⟨b, _, hdat, hb⟩
    · have := resized_length l k.length
      rw [h0] at this; exact absurd (List.length_eq_zero_iff.mp this.symm) hk
    · rw [if_pos hr1]
      have hlp : 0 < k.length := List.length_pos_iff.mpr hk
      have := fill_loop (lo := 0) (hi := v'.size) hb (fun i => k.getD i k[0]) (Nat.zero_le _)
        (by simp [resized_length, hlen]) value (fun c i _ hi => by
          rw [hlen] at hi
          rw [hv _ _ b c hf hdat i hi]; simp [hi])
      unfold fill
      rw [hdat, this, Res.ok_bind]
      rw [hlen, over_all _ (by simp [resized_length]) (fun i hi => by simp [hi])]
      refine ⟨_, _, rfl, Frame.put hf hdat hb, ?_, hc⟩
      exact ⟨hlen, .inr ⟨b, hk, hdat, put_same _ _ _⟩⟩

/-! ## All vectors -/

/-- The variables hold the lists of `e`, no block has two owners, no block has none. -/
structure Inv (sz : Nat) (st : St T) (e : Env T) : Prop where
  same : ∀ x, st.vars x = none ↔ e x = none
  owns : ∀ x v l, st.vars x = some v → e x = some l → Owns st.mem v l
  sep : ∀ x y v w b, x ≠ y → st.vars x = some v → st.vars y = some w → v.data = some b → w.data ≠ some b
  held : ∀ b c, st.mem.blocks b = some c → ∃ x v, st.vars x = some v ∧ v.data = some b
  fresh : ∀ b, st.mem.next ≤ b → st.mem.blocks b = none
  small : ∀ x l, e x = some l → Small sz l.length

theorem Inv.start (sz : Nat) : Inv sz (St.init : St T) Env.init where
  same _ := ⟨fun _ => rfl, fun _ => rfl⟩
  owns _ _ _ h := by cases h
  sep _ _ _ _ _ _ h := by cases h
  held _ _ h := by cases h
  fresh _ _ := rfl
  small _ _ h := by cases h

theorem Inv.var {sz : Nat} {st : St T} {e : Env T} (h : Inv sz st e) {x : Nat} {l : List T} (hx : e x = some l) :
    ∃ v, st.vars x = some v ∧ Owns st.mem v l := by
  cases hv : st.vars x with
  | none => rw [(h.same x).mp hv] at hx; cases hx
  | some v => exact ⟨v, rfl, h.owns x v l hv hx⟩

@[simp] theorem setVar_same (st : St T) (x : Nat) (m v) : (st.setVar x m v).vars x = v := by simp [St.setVar]
theorem setVar_ne (st : St T) {x y : Nat} (m v) (h : y ≠ x) : (st.setVar x m v).vars y = st.vars y := by
  simp [St.setVar, h]
@[simp] theorem setVar_mem (st : St T) (x : Nat) (m v) : (st.setVar x m v).mem = m := rfl
@[simp] theorem set_same (e : Env T) (x : Nat) (l) : (e.set x l) x = l := by simp [Env.set]
theorem set_ne (e : Env T) {x y : Nat} (l) (h : y ≠ x) : (e.set x l) y = e y := by simp [Env.set, h]

theorem setVar_setVar (st : St T) (x : Nat) (m v m' v') : (st.setVar x m v).setVar x m' v' = st.setVar x m' v' := by
  simp only [St.setVar]; congr 1; funext z; split <;> rfl
theorem set_set (e : Env T) (x : Nat) (l k) : (e.set x l).set x k = e.set x k := by
  funext z; simp only [Env.set]; split <;> rfl

/-- One variable changes, within its frame. -/
theorem Inv.update {sz : Nat} {st : St T} {e : Env T} (h : Inv sz st e) {x : Nat} {v : VObj}
    (hx : st.vars x = some v ∨ st.vars x = none ∧ v = ⟨none, 0⟩) {m' : Mem T} {v' : VObj}
    (hf : Frame st.mem v m' v') {l : List T} (ho : Owns m' v' l) (hs : Small sz l.length) :
    Inv sz (st.setVar x m' (some v')) (e.set x (some l)) := by
  have hsepv : ∀ y w b, y ≠ x → st.vars y = some w → w.data = some b → v.data ≠ some b := by
    intro y w b hy hw hwb
    rcases hx with hx | ⟨_, rfl⟩
    · exact h.sep y x w v b hy hw hx hwb
    · simp
  have hsepv' : ∀ y w b, y ≠ x → st.vars y = some w → w.data = some b → v'.data ≠ some b := by
    intro y w b hy hw hwb hb
    have hnone := hf.new b hb (hsepv y w b hy hw hwb)
    cases hey : e y with
    | none => rw [(h.same y).mpr hey] at hw; cases hw
    | some k =>
      obtain ⟨_, hk⟩ := h.owns y w k hw hey
      rcases hk with ⟨_, hk⟩ | ⟨b', _, hd, hbb⟩
      · rw [hwb] at hk; cases hk
      · rw [hwb] at hd; cases hd; rw [hnone] at hbb; cases hbb
  refine ⟨fun y => ?_, fun y w k hw hk => ?_, fun y z w u b hyz hw hu hb => ?_, fun b c hb => ?_,
    hf.fresh h.fresh, fun y k hk => ?_⟩
  · by_cases hy : y = x
    · subst hy; simp
    · rw [setVar_ne _ _ _ hy, set_ne _ _ hy]; exact h.same y
  · by_cases hy : y = x
    · subst hy; simp at hw hk; subst hw hk; exact ho
    · rw [setVar_ne _ _ _ hy] at hw
      rw [set_ne _ _ hy] at hk
      obtain ⟨hsz, hc⟩ := h.owns y w k hw hk
      refine ⟨hsz, ?_⟩
      rcases hc with hc | ⟨b, hne, hd, hb⟩
      · exact .inl hc
      · exact .inr ⟨b, hne, hd, by
          rw [setVar_mem, hf.other b (hsepv y w b hy hw hd) (hsepv' y w b hy hw hd)]; exact hb⟩
  · by_cases hy : y = x
    · subst hy
      simp at hw; subst hw
      rw [setVar_ne _ _ _ hyz.symm] at hu
      intro hub
      exact hsepv' z u b hyz.symm hu hub hb
    · rw [setVar_ne _ _ _ hy] at hw
      by_cases hz : z = x
      · subst hz; simp at hu; subst hu; exact hsepv' y w b hy hw hb
      · rw [setVar_ne _ _ _ hz] at hu; exact h.sep y z w u b hyz hw hu hb
  · rw [setVar_mem] at hb
    by_cases hv' : v'.data = some b
    · exact ⟨x, v', by simp, hv'⟩
    · by_cases hv : v.data = some b
      · rw [hf.gone b hv hv'] at hb; cases hb
      · rw [hf.other b hv hv'] at hb
        obtain ⟨y, w, hw, hwb⟩ := h.held b c hb
        have hy : y ≠ x := by
          rintro rfl
          rcases hx with hx | ⟨hx, _⟩
          · rw [hx] at hw; cases hw; exact hv hwb
          · rw [hx] at hw; cases hw
        exact ⟨y, w, by rw [setVar_ne _ _ _ hy]; exact hw, hwb⟩
  · by_cases hy : y = x
    · subst hy; simp at hk; subst hk; exact hs
    · rw [set_ne _ _ hy] at hk; exact h.small y k hk

/-- An empty variable ends. -/
theorem Inv.drop {sz : Nat} {st : St T} {e : Env T} {x : Nat} {m : Mem T}
    (h : Inv sz (st.setVar x m (some ⟨none, 0⟩)) (e.set x (some []))) :
    Inv sz (st.setVar x m none) (e.set x none) := by
  refine ⟨fun y => ?_, fun y w k hw hk => ?_, fun y z w u b hyz hw hu hb => ?_, fun b c hb => ?_,
    h.fresh, fun y k hk => ?_⟩
  · by_cases hy : y = x
    · subst hy; simp
    · have := h.same y
      rw [setVar_ne _ _ _ hy, set_ne _ _ hy] at *; exact this
  · by_cases hy : y = x
    · subst hy; simp at hw
    · refine h.owns y w k ?_ ?_
      · rw [setVar_ne _ _ _ hy] at *; exact hw
      · rw [set_ne _ _ hy] at *; exact hk
  · have hy : y ≠ x := by rintro rfl; simp at hw
    have hz : z ≠ x := by rintro rfl; simp at hu
    refine h.sep y z w u b hyz ?_ ?_ hb
    · rw [setVar_ne _ _ _ hy] at *; exact hw
    · rw [setVar_ne _ _ _ hz] at *; exact hu
  · obtain ⟨y, w, hw, hwb⟩ := h.held b c hb
    have hy : y ≠ x := by rintro rfl; simp at hw; subst hw; simp at hwb
    exact ⟨y, w, by rw [setVar_ne _ _ _ hy] at *; exact hw, hwb⟩
  · by_cases hy : y = x
    · subst hy; simp at hk
    · exact h.small y k (by rw [set_ne _ _ hy] at *; exact hk)

/-- Two variables exchange their content. -/
theorem Inv.swap {sz : Nat} {st : St T} {e : Env T} (h : Inv sz st e) {x y : Nat} (hxy : x ≠ y) {v w : VObj}
    {l k : List T} (hx : st.vars x = some v) (hy : st.vars y = some w) (hl : e x = some l) (hk : e y = some k) :
    Inv sz ((st.setVar x st.mem (some w)).setVar y st.mem (some v)) ((e.set x (some k)).set y (some l)) := by
  have hvar : ∀ z u, ((st.setVar x st.mem (some w)).setVar y st.mem (some v)).vars z = some u →
      st.vars (if z = x then y else if z = y then x else z) = some u := by
    intro z u hu
    by_cases hzy : z = y
    · subst hzy; rw [if_neg hxy.symm, if_pos rfl]; simp at hu; rw [hx, hu]
    · rw [setVar_ne _ _ _ hzy] at hu
      by_cases hzx : z = x
      · subst hzx; simp at hu; rw [if_pos rfl, hy, hu]
      · rw [setVar_ne _ _ _ hzx] at hu; rw [if_neg hzx, if_neg hzy]; exact hu
  have henv : ∀ z u, ((e.set x (some k)).set y (some l)) z = some u →
      e (if z = x then y else if z = y then x else z) = some u := by
    intro z u hu
    by_cases hzy : z = y
    · subst hzy; rw [if_neg hxy.symm, if_pos rfl]; simp at hu; rw [hl, hu]
    · rw [set_ne _ _ hzy] at hu
      by_cases hzx : z = x
      · subst hzx; simp at hu; rw [if_pos rfl, hk, hu]
      · rw [set_ne _ _ hzx] at hu; rw [if_neg hzx, if_neg hzy]; exact hu
  refine ⟨fun z => ?_, fun z u r hu hr => ?_, fun z z' u u' b hzz hu hu' hb => ?_, fun b c hb => ?_,
    h.fresh, fun z r hr => ?_⟩
  · by_cases hzy : z = y
    · subst hzy; simp
    · rw [setVar_ne _ _ _ hzy, set_ne _ _ hzy]
      by_cases hzx : z = x
      · subst hzx; simp
      · rw [setVar_ne _ _ _ hzx, set_ne _ _ hzx]; exact h.same z
  · exact h.owns _ u r (hvar z u hu) (henv z r hr)
  · refine h.sep _ _ u u' b ?_ (hvar z u hu) (hvar z' u' hu') hb
    split <;> split <;> try split
    all_goals first | omega | (split <;> omega)
  · obtain ⟨z, u, hu, hub⟩ := h.held b c hb
    refine ⟨if z = x then y else if z = y then x else z, u, ?_, hub⟩
    by_cases hzx : z = x
    · subst hzx; rw [if_pos rfl]; rw [hx] at hu; simpa using hu
    · rw [if_neg hzx]
      by_cases hzy : z = y
      · subst hzy; rw [if_pos rfl, setVar_ne _ _ _ hxy]; rw [hy] at hu; simpa using hu
      · rw [if_neg hzy, setVar_ne _ _ _ hzy, setVar_ne _ _ _ hzx]; exact hu
  · exact h.small _ r (henv z r hr)

/-! ## Programs -/

theorem var_ok {st : St T} {x : Nat} {v : VObj} (h : st.vars x = some v) : st.var x = .ok v := by simp [St.var, h]

theorem load_ok {m : Mem T} {v : VObj} {l : List T} (h : Owns m v l) {i : Nat} (hi : i < l.length) :
    load m v.data i = .ok l[i] := by
  obtain ⟨_, ⟨rfl, _⟩ | ⟨b, _, hd, hb⟩⟩ := h
  · simp at hi
  · simp [load, hd, hb, hi]

/-- Reading one vector is not disturbed by work on another. -/
theorem load_other {m : Mem T} {w : VObj} {k : List T} (hw : Owns m w k) {v : VObj}
    (hsep : ∀ b, w.data = some b → v.data ≠ some b) {m' : Mem T} {v' : VObj} (hf : Frame m v m' v') {b : Nat}
    (hv' : v'.data = some b) (c) {i : Nat} (hi : i < k.length) : load (m'.put b c) w.data i = .ok k[i] := by
  obtain ⟨_, ⟨rfl, _⟩ | ⟨d, _, hd, hb⟩⟩ := hw
  · simp at hi
  · have hvd := hsep d hd
    have hv'd : v'.data ≠ some d := by
      intro h; rw [hf.new d h hvd] at hb; cases hb
    have hne : d ≠ b := by rintro rfl; exact hv'd hv'
    simp [load, hd, put_ne _ _ hne, hf.other d hvd hv'd, hb, hi]

/-- One operation, when the allocator agrees. -/
theorem step_spec [Zero T] {cfg : Cfg} (hsz : 0 < cfg.sz) {st : St T} {e e' : Env T}
    {o : Option (Obs T)} {op : Op T} (h : Inv cfg.sz st e) (hs : specStep cfg.sz e op = some (e', o))
    (hd : requests e op = 1 → cfg.dec st.mem.calls ≠ .fail) :
    ∃ st', step cfg st op = .ok (st', o) ∧ Inv cfg.sz st' e' ∧ st'.mem.calls = st.mem.calls + requests e op := by
  have hnew : ∀ x, e x = none → st.vars x = some ⟨none, 0⟩ ∨ st.vars x = none ∧ (⟨none, 0⟩ : VObj) = ⟨none, 0⟩ :=
    fun x hx => .inr ⟨(h.same x).mpr hx, rfl⟩
  cases op with
  | default x =>
    simp only [specStep] at hs
    split at hs <;> cases hs
    rename_i hx
    exact ⟨_, rfl, h.update (hnew x hx) (Frame.refl _ _) (Owns.nil _) (by simp [Small]), rfl⟩
  | sized x n =>
    simp only [specStep] at hs
    split at hs <;> cases hs
    rename_i hx
    obtain ⟨m', v', r, ha, hf, ho, _, hc⟩ := allocate_spec (Owns.nil st.mem) h.fresh hsz hx.2 hd
    refine ⟨_, by simp only [step, ha, Res.ok_bind]; rfl, h.update (hnew x hx.1) hf ?_ (by simpa using hx.2), hc⟩
    simpa [resized] using ho
  | filled x n a =>
    simp only [specStep] at hs
    split at hs <;> cases hs
    rename_i hx
    obtain ⟨m', v', ha, hf, ho, hc⟩ := allocFill_spec (Owns.nil st.mem) h.fresh hsz (List.replicate n a)
      (by simpa using hx.2) (by simpa [requests] using hd) (fun _ _ => .ok a) (by intros; simp)
    rw [List.length_replicate] at ha
    refine ⟨st.setVar x m' (some v'), ?_, h.update (hnew x hx.1) hf ho (by simpa using hx.2), by simpa [requests] using hc⟩
    obtain ⟨⟨m1, v1, r⟩, h1, h2⟩ := Res.bind_eq_ok.mp ha
    obtain ⟨m2, h4, h3⟩ := Res.bind_eq_ok.mp h2
    cases h3
    simp only [step, h1, Res.ok_bind]
    cases r <;> simp at h4 <;> simp [h4]
  | ofList x l =>
    simp only [specStep] at hs
    split at hs <;> cases hs
    rename_i hx
    obtain ⟨m', v', ha, hf, ho, hc⟩ := allocFill_spec (Owns.nil st.mem) h.fresh hsz l hx.2 hd
      (fun _ i => listAt l i) (by intros; simp [listAt, *])
    refine ⟨st.setVar x m' (some v'), ?_, h.update (hnew x hx.1) hf ho hx.2, hc⟩
    obtain ⟨⟨m1, v1, r⟩, h1, h2⟩ := Res.bind_eq_ok.mp ha
    obtain ⟨m2, h4, h3⟩ := Res.bind_eq_ok.mp h2
    cases h3
    simp only [step, h1, Res.ok_bind]
    cases r <;> simp at h4 <;> simp [h4]
  | sizedList x n l =>
    simp only [specStep] at hs
    split at hs <;> cases hs
    rename_i hx
    obtain ⟨m', v', ha, hf, ho, hc⟩ := allocFill_spec (Owns.nil st.mem) h.fresh hsz l hx.2.2 hd
      (fun _ i => listAt l i) (by intros; simp [listAt, *])
    refine ⟨st.setVar x m' (some v'), ?_, h.update (hnew x hx.1) hf ho hx.2.2, hc⟩
    obtain ⟨⟨m1, v1, r⟩, h1, h2⟩ := Res.bind_eq_ok.mp ha
    obtain ⟨m2, h4, h3⟩ := Res.bind_eq_ok.mp h2
    cases h3
    simp only [step]
    rw [if_pos hx.2.1, hx.2.1, h1]
    simp only [Res.ok_bind]
    cases r <;> simp at h4 <;> simp [h4]
  | copyCtor x y =>
    simp only [specStep] at hs
    split at hs <;> cases hs
    rename_i l hx hy
    obtain ⟨w, hw, how⟩ := h.var hy
    obtain ⟨m', v', ha, hf, ho, hc⟩ := allocFill_spec (Owns.nil st.mem) h.fresh hsz l (h.small y l hy)
      (by simpa [requests, Env.len, hy] using hd) (fun m i => load m w.data i)
      (fun m' v' b c hf hv i hi => load_other how (fun _ _ => by simp) hf hv c hi)
    refine ⟨st.setVar x m' (some v'), ?_, h.update (hnew x hx) hf ho (h.small y l hy),
      by simpa [requests, Env.len, hy] using hc⟩
    obtain ⟨⟨m1, v1, r⟩, h1, h2⟩ := Res.bind_eq_ok.mp ha
    obtain ⟨m2, h4, h3⟩ := Res.bind_eq_ok.mp h2
    cases h3
    simp only [step, var_ok hw, how.1, h1, Res.ok_bind]
    cases r <;> simp at h4 <;> simp [h4]
  | moveCtor x y =>
    simp only [specStep] at hs
    split at hs <;> cases hs
    rename_i l hx hy
    obtain ⟨w, hw, how⟩ := h.var hy
    have hxy : x ≠ y := by rintro rfl; rw [hx] at hy; cases hy
    refine ⟨(st.setVar x st.mem (some w)).setVar y st.mem (some ⟨none, 0⟩),
      by simp only [step, var_ok hw, Res.ok_bind, deallocate]; rfl, ?_, rfl⟩
    have h1 := h.update (hnew x hx) (Frame.refl _ _) (Owns.nil _) (by simp [Small])
    have h2 := h1.swap hxy (v := ⟨none, 0⟩) (w := w) (l := []) (k := l) (by simp)
      (by rw [setVar_ne _ _ _ hxy.symm]; exact hw) (by simp) (by rw [set_ne _ _ hxy.symm]; exact hy)
    simpa only [setVar_mem, setVar_setVar, set_set] using h2
  | destroy x =>
    simp only [specStep] at hs
    split at hs <;> cases hs
    rename_i l hx
    obtain ⟨v, hv, ho⟩ := h.var hx
    obtain ⟨m', hm, hf, hc⟩ := deallocate_spec ho
    exact ⟨_, by simp only [step, var_ok hv, Res.ok_bind, hm]; rfl,
      (h.update (.inl hv) hf (Owns.nil _) (by simp [Small])).drop, hc⟩
  | copyAssign x y =>
    simp only [specStep] at hs
    split at hs <;> cases hs
    rename_i k l hx hy
    obtain ⟨v, hv, ho⟩ := h.var hx
    obtain ⟨w, hw, how⟩ := h.var hy
    by_cases hxy : x = y
    · subst hxy
      refine ⟨st, by simp [step, var_ok hv], ?_, by simp [requests, request]⟩
      have : e.set x (some l) = e := by funext z; simp only [Env.set]; split <;> simp_all
      rw [this]; exact h
    · obtain ⟨m', v', ha, hf, ho', hc⟩ := allocFill_spec ho h.fresh hsz l (h.small y l hy)
        (by simpa [requests, Env.len, hx, hy] using hd)
        (fun m i => load m w.data i)
        (fun m' v' b c hf hv' i hi => load_other how (fun b hb => h.sep y x w v b (Ne.symm hxy) hw hv hb) hf hv' c hi)
      refine ⟨st.setVar x m' (some v'), ?_, h.update (.inl hv) hf ho' (h.small y l hy),
        by simpa [requests, Env.len, hx, hy] using hc⟩
      obtain ⟨⟨m1, v1, r⟩, h1, h2⟩ := Res.bind_eq_ok.mp ha
      obtain ⟨m2, h4, h3⟩ := Res.bind_eq_ok.mp h2
      cases h3
      simp only [step, var_ok hv, var_ok hw, how.1, Res.ok_bind]
      rw [if_pos hxy, h1, Res.ok_bind]
      cases r <;> simp at h4 <;> simp [h4]
  | moveAssign x y =>
    simp only [specStep] at hs
    split at hs
    case h_2 => cases hs
    rename_i k l hx hy
    obtain ⟨v, hv, ho⟩ := h.var hx
    obtain ⟨w, hw, how⟩ := h.var hy
    split at hs <;> cases hs
    · rename_i hxy
      subst hxy
      exact ⟨st, by simp [step, var_ok hv], h, rfl⟩
    · rename_i hxy
      obtain ⟨m', hm, hf, hc⟩ := deallocate_spec ho
      refine ⟨_, by simp only [step, var_ok hv, var_ok hw, Res.ok_bind]; rw [if_pos hxy, hm]; rfl, ?_, hc⟩
      have h1 := h.update (.inl hv) hf (Owns.nil _) (by simp [Small])
      have h2 := h1.swap hxy (v := ⟨none, 0⟩) (w := w) (l := []) (k := l) (by simp)
        (by rw [setVar_ne _ _ _ (Ne.symm hxy)]; exact hw) (by simp) (by rw [set_ne _ _ (Ne.symm hxy)]; exact hy)
      simpa only [setVar_mem, setVar_setVar, set_set] using h2
  | resize x n =>
    simp only [specStep] at hs
    split at hs
    case h_2 => cases hs
    split at hs <;> cases hs
    rename_i l hx hn
    obtain ⟨v, hv, ho⟩ := h.var hx
    obtain ⟨m', v', r, ha, hf, ho', _, hc⟩ := allocate_spec ho h.fresh hsz hn
      (by simpa [requests, Env.len, hx] using hd)
    exact ⟨_, by simp only [step, var_ok hv, ha, Res.ok_bind]; rfl,
      h.update (.inl hv) hf ho' (show Small _ (resized _ _).length by rw [resized_length]; exact hn),
      by simpa [requests, Env.len, hx] using hc⟩
  | resizeLike x y =>
    simp only [specStep] at hs
    split at hs <;> cases hs
    rename_i l k hx hy
    obtain ⟨v, hv, ho⟩ := h.var hx
    obtain ⟨w, hw, how⟩ := h.var hy
    obtain ⟨m', v', r, ha, hf, ho', _, hc⟩ := allocate_spec ho h.fresh hsz (h.small y k hy)
      (by simpa [requests, Env.len, hx, hy] using hd)
    exact ⟨_, by simp only [step, var_ok hv, var_ok hw, how.1, ha, Res.ok_bind]; rfl,
      h.update (.inl hv) hf ho' (show Small _ (resized _ _).length by rw [resized_length]; exact h.small y k hy),
      by simpa [requests, Env.len, hx, hy] using hc⟩
  | write x i a =>
    simp only [specStep] at hs
    split at hs
    case h_2 => cases hs
    split at hs <;> cases hs
    rename_i l hx hi
    obtain ⟨v, hv, ho⟩ := h.var hx
    obtain ⟨hsv, ⟨rfl, _⟩ | ⟨b, hne, hd', hb⟩⟩ := ho
    · simp at hi
    · refine ⟨⟨st.mem.put b (some ((l.map some).set i (some a))), st.vars⟩, ?_, ?_, rfl⟩
      · simp [step, var_ok hv, store, hd', hb, hi]
      · have := h.update (l := l.set i a) (.inl hv) (Frame.put (c := (l.map some).set i (some a))
          (Frame.refl st.mem v) hd' hb) ⟨by simpa using hsv, .inr ⟨b, by simpa using hne, hd', by simp⟩⟩
          (by simpa using h.small x l hx)
        convert this using 1
        simp only [St.setVar]; congr 1; funext z; split <;> simp_all
  | read x i =>
    simp only [specStep] at hs
    split at hs
    case h_2 => cases hs
    split at hs <;> cases hs
    rename_i l hx _ a hi
    obtain ⟨v, hv, ho⟩ := h.var hx
    obtain ⟨hi', rfl⟩ := List.getElem?_eq_some_iff.mp hi
    exact ⟨st, by simp [step, var_ok hv, load_ok ho hi'], h, rfl⟩
  | size x =>
    simp only [specStep] at hs
    split at hs <;> cases hs
    rename_i l hx
    obtain ⟨v, hv, ho⟩ := h.var hx
    exact ⟨st, by simp [step, var_ok hv, ho.1], h, rfl⟩

/-- A whole program, when the allocator agrees. -/
theorem run_spec [Zero T] {cfg : Cfg} (hsz : 0 < cfg.sz) {ops : List (Op T)} :
    ∀ {st : St T} {e e' : Env T} {os : List (Obs T)}, Inv cfg.sz st e → specRun cfg.sz e ops = some (e', os) →
    (∀ k, st.mem.calls ≤ k → k < st.mem.calls + totalRequests cfg.sz e ops → cfg.dec k ≠ .fail) →
    ∃ st', run cfg st ops = .ok (st', os) ∧ Inv cfg.sz st' e' ∧
      st'.mem.calls = st.mem.calls + totalRequests cfg.sz e ops := by
  induction ops with
  | nil => intro st e e' os h hs _; simp only [specRun] at hs; cases hs; exact ⟨st, rfl, h, rfl⟩
  | cons op ops ih =>
    intro st e e' os h hs hd
    simp only [specRun] at hs
    split at hs
    · cases hs
    · rename_i e1 o h1
      split at hs <;> cases hs
      rename_i os' h2
      simp only [totalRequests, h1] at hd ⊢
      obtain ⟨st1, hst1, hi1, hc1⟩ := step_spec hsz h h1 (fun hr => hd _ (Nat.le_refl _) (by omega))
      obtain ⟨st2, hst2, hi2, hc2⟩ := ih hi1 h2 (fun k hk1 hk2 => hd k (by omega) (by omega))
      exact ⟨st2, by simp [run, hst1, hst2], hi2, by omega⟩

theorem specRun_append [Zero T] (sz : Nat) (ops ops' : List (Op T)) (e : Env T) :
    specRun sz e (ops ++ ops') = (specRun sz e ops).bind fun r =>
      (specRun sz r.1 ops').map fun r' => (r'.1, r.2 ++ r'.2) := by
  induction ops generalizing e with
  | nil =>
    simp only [List.nil_append, specRun, Option.bind_some]
    cases specRun sz e ops' <;> rfl
  | cons op ops ih =>
    simp only [List.cons_append, specRun]
    split
    · rfl
    · rename_i e1 o h1
      rw [ih]
      cases h2 : specRun sz e1 ops with
      | none => rfl
      | some r =>
        simp only [Option.bind_some]
        cases specRun sz r.1 ops' with
        | none => rfl
        | some r' => simp

theorem run_append [Zero T] (cfg : Cfg) (st : St T) (ops ops' : List (Op T)) :
    run cfg st (ops ++ ops') = (run cfg st ops >>= fun r => run cfg r.1 ops' >>= fun r' =>
      .ok (r'.1, r.2 ++ r'.2)) := by
  induction ops generalizing st with
  | nil =>
    simp only [List.nil_append, run, Res.ok_bind]
    cases run cfg st ops' <;> rfl
  | cons op ops ih =>
    simp only [List.cons_append, run, ih, bind_assoc, Res.pure_eq, Res.ok_bind, List.append_assoc]

/-- Operations leave all other variables alone. -/
theorem specStep_frame [Zero T] {sz : Nat} {e e' : Env T} {o : Option (Obs T)} {op : Op T} {z : Nat}
    (h : specStep sz e op = some (e', o)) (hz : ¬ op.Changes z) : e' z = e z := by
  cases op <;> simp only [specStep] at h <;> (repeat' split at h) <;> cases h <;>
    simp only [Op.Changes, not_or] at hz <;> simp [Env.set, hz]

theorem specRun_frame [Zero T] {sz : Nat} {ops : List (Op T)} {z : Nat} : ∀ {e e' : Env T} {os : List (Obs T)},
    specRun sz e ops = some (e', os) → (∀ op ∈ ops, ¬ op.Changes z) → e' z = e z := by
  induction ops with
  | nil => intro e e' os h _; simp only [specRun] at h; cases h; rfl
  | cons op ops ih =>
    intro e e' os h hc
    simp only [specRun] at h
    split at h
    · cases h
    · rename_i e1 o h1
      split at h <;> cases h
      rename_i os' h2
      rw [ih h2 (fun op hop => hc op (List.mem_cons_of_mem _ hop)),
        specStep_frame h1 (hc op (List.mem_cons_self ..))]

/-- A refused request: null, and the heap as it was. -/
theorem realloc_refused {cfg : Cfg} {m : Mem T} {v : VObj} {l : List T} (h : Owns m v l) {n : Nat} (hn : 0 < n)
    (hsz : 0 < cfg.sz) (hsm : Small cfg.sz n) (hd : cfg.dec m.calls = .fail) :
    ∃ m', realloc cfg m v.data (wmul cfg.sz n) = .ok (m', none) ∧ m'.blocks = m.blocks := by
  have hsm' : cfg.sz * n < 2 ^ 63 := hsm
  rw [wmul_eq (by rw [W_eq]; omega)]
  have hn0 : cfg.sz * n ≠ 0 := Nat.mul_ne_zero (Nat.ne_of_gt hsz) (Nat.ne_of_gt hn)
  obtain ⟨_, ⟨_, hdat⟩ | ⟨b, _, hdat, hb⟩⟩ := h
  · exact ⟨{ m with calls := m.calls + 1 }, by simp only [realloc, hdat]; rw [if_pos (.inl hd)], rfl⟩
  · exact ⟨{ m with calls := m.calls + 1 }, by
      simp only [realloc, hdat, hb]; rw [if_neg hn0, if_pos (.inl hd)], rfl⟩

/-- Zero-filling more than the block holds. -/
theorem fill_beyond [Zero T] {m : Mem T} {b : Nat} {cells : List (Option T)} (hb : m.blocks b = some cells) {n : Nat}
    (h : cells.length < n) : (forRange 0 n m fun i m => store m (some b) i (0 : T)) = .ub .oob := by
  have := fill_loop hb (fun _ => (0 : T)) (Nat.zero_le _) (Nat.le_refl _) (fun _ _ => .ok 0) (fun _ _ _ _ => rfl)
  simp only [Res.ok_bind] at this
  rw [forRange_append (Nat.zero_le _) (Nat.le_of_lt h), this, Res.ok_bind, forRange_lt h]
  simp only [store, put_same]
  rw [if_neg (by rw [over_length]; omega)]; rfl

end VecMem
end Malg
