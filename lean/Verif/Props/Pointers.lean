import Verif.Lemmas.Pointers
import Verif.Props.VecMem
import Verif.Props.View
/-!
# C102: pointers and iterators
-/
namespace Malg
open VecMem
variable {T : Type}

/-- Pointers follow their vector through a program. -/
theorem run_owner [Zero T] {cfg : Cfg} (hsz : 0 < cfg.sz) {ops : List (Op T)} :
    ∀ {st : St T} {e e' : Env T} {os : List (Obs T)} {x y : Nat} {v : VObj}, Inv cfg.sz st e →
    specRun cfg.sz e ops = some (e', os) →
    (∀ k, st.mem.calls ≤ k → k < st.mem.calls + totalRequests cfg.sz e ops → cfg.dec k ≠ .fail) →
    st.vars x = some v → ownerRun cfg.sz e x ops = some y →
    ∃ st', run cfg st ops = .ok (st', os) ∧ Inv cfg.sz st' e' ∧ st'.vars y = some v := by
  induction ops with
  | nil =>
    intro st e e' os x y v h hs _ hv how
    simp only [specRun] at hs; cases hs; cases how
    exact ⟨st, rfl, h, hv⟩
  | cons op ops ih =>
    intro st e e' os x y v h hs hd hv how
    simp only [specRun] at hs
    split at hs
    · cases hs
    · rename_i e1 o h1
      split at hs <;> cases hs
      rename_i os' h2
      simp only [totalRequests, h1] at hd
      simp only [ownerRun, h1] at how
      split at how
      · cases how
      · rename_i z hz
        obtain ⟨st1, hst1, hi1, hc1⟩ := step_spec hsz h h1 (fun hr => hd _ (Nat.le_refl _) (by omega))
        have hv1 := step_owner h h1 hst1 hv hz
        obtain ⟨st2, hst2, hi2, hv2⟩ := ih hi1 h2 (fun k hk1 hk2 => hd k (by omega) (by omega)) hv1 how
        exact ⟨st2, by simp [run, hst1, hst2], hi2, hv2⟩

/-- Pointers that lost their vector, when the allocator always moves. -/
theorem run_dead [Zero T] {cfg : Cfg} (hsz : 0 < cfg.sz) (hmv : ∀ k, cfg.dec k = .move) {ops : List (Op T)} :
    ∀ {st : St T} {e e' : Env T} {os : List (Obs T)} {x b : Nat} {v : VObj}, Inv cfg.sz st e →
    specRun cfg.sz e ops = some (e', os) → st.vars x = some v → v.data = some b → ownerRun cfg.sz e x ops = none →
    ∃ st', run cfg st ops = .ok (st', os) ∧ Dead b st'.mem := by
  have hnf : ∀ k, cfg.dec k ≠ .fail := fun k => by rw [hmv]; simp
  induction ops with
  | nil => intro st e e' os x b v _ _ _ _ how; cases how
  | cons op ops ih =>
    intro st e e' os x b v h hs hv hb how
    simp only [specRun] at hs
    split at hs
    · cases hs
    · rename_i e1 o h1
      split at hs <;> cases hs
      rename_i os' h2
      simp only [ownerRun, h1] at how
      obtain ⟨st1, hst1, hi1, hc1⟩ := step_spec hsz h h1 (fun _ => hnf _)
      split at how
      · rename_i hz
        have hdead := step_dead hsz hmv h h1 hst1 hv hb hz
        obtain ⟨st2, hst2, _, _⟩ := run_spec hsz hi1 h2 (fun k _ _ => hnf k)
        exact ⟨st2, by simp [run, hst1, hst2], hdead.run hst2⟩
      · rename_i z hz
        have hv1 := step_owner h h1 hst1 hv hz
        obtain ⟨st2, hst2, hd2⟩ := ih hi1 h2 hv1 hb how
        exact ⟨st2, by simp [run, hst1, hst2], hd2⟩

/-- C102: after every history, a pointer `p` from `data()` or `begin()` of a vector reads exactly its elements; going from
`begin()` to `end()` visits them in order and stops; the position after the last one must not be read. -/
theorem C102_iterate [Zero T] (cfg : Cfg) (hsz : 0 < cfg.sz) (ops : List (Op T)) (e : Env T) (os : List (Obs T))
    (hs : specRun cfg.sz Env.init ops = some (e, os))
    (hd : ∀ k, k < totalRequests cfg.sz Env.init ops → cfg.dec k ≠ .fail) {x : Nat} {l : List T} (hx : e x = some l) :
    ∃ st p q, run cfg St.init ops = .ok (st, os) ∧ st.begin x = .ok p ∧ st.end_ x = .ok q ∧
      (∀ i (h : i < l.length), deref st.mem p i = .ok l[i]) ∧
      (∀ i, l.length ≤ i → ∃ u, deref st.mem p i = .ub u) ∧
      (∀ fuel, l.length < fuel → visit st.mem p q fuel = .ok l) := by
  obtain ⟨st, h1, h2, _⟩ := run_spec hsz (Inv.start cfg.sz) hs
    (fun k _ hk => hd k (by simpa [St.init, Mem.empty] using hk))
  obtain ⟨v, hv, ho⟩ := h2.var hx
  have hget : ∀ i (h : i < l.length), load st.mem v.data i = .ok l[i] := fun i h => load_ok ho h
  refine ⟨st, (v.data, 0), (v.data, v.size), h1, ?_, ?_, ?_, ?_, ?_⟩
  · simp [St.begin, var_ok hv]
  · simp [St.end_, var_ok hv]
  · intro i h; simp only [deref, Nat.zero_add]; exact hget i h
  · intro i h
    simp only [deref, Nat.zero_add]
    obtain ⟨_, ⟨rfl, hdat⟩ | ⟨b, hl, hdat, hb⟩⟩ := ho
    · rw [hdat]; exact ⟨_, rfl⟩
    · refine ⟨.oob, ?_⟩
      simp [load, hdat, hb, h]
  · have key : ∀ k i, i + k = l.length → ∀ fuel, k < fuel → visit st.mem (v.data, i) (v.data, v.size) fuel = .ok (l.drop i) := by
      intro k
      induction k with
      | zero =>
        intro i hi fuel hf
        obtain ⟨f, rfl⟩ : ∃ f, fuel = f + 1 := ⟨fuel - 1, by omega⟩
        rw [visit, if_pos (by rw [ho.1]; simp; omega)]
        rw [List.drop_eq_nil_of_le (by omega)]
      | succ k ih =>
        intro i hi fuel hf
        obtain ⟨f, rfl⟩ : ∃ f, fuel = f + 1 := ⟨fuel - 1, by omega⟩
        rw [visit, if_neg (by rw [ho.1]; simp; omega)]
        simp only [deref, Nat.add_zero]
        rw [hget i (by omega), Res.ok_bind, ih (i + 1) (by omega) f (by omega), Res.ok_bind,
          List.drop_eq_getElem_cons (show i < l.length by omega)]
        rfl
    intro fuel hf
    rw [key l.length 0 (by omega) fuel hf, List.drop_zero]

/-- C102: the pointer stays valid through every further program in which its vector is neither destroyed nor given another
size nor overwritten by a move; when the vector is moved from, the pointer belongs to the vector moved to. Reading through
it, also after advancing it by `k`, gives the elements that vector then has, and writing through it is writing to that vector. -/
theorem C102_valid [Zero T] (cfg : Cfg) (hsz : 0 < cfg.sz) (ops later : List (Op T)) (e e' : Env T)
    (os os' : List (Obs T)) (hs : specRun cfg.sz Env.init ops = some (e, os))
    (hs' : specRun cfg.sz e later = some (e', os')) (hd : ∀ k, cfg.dec k ≠ .fail) {x y : Nat} {l : List T}
    (hx : e x = some l) (how : ownerRun cfg.sz e x later = some y) :
    ∃ st p st' l', run cfg St.init ops = .ok (st, os) ∧ st.begin x = .ok p ∧ run cfg st later = .ok (st', os') ∧
      e' y = some l' ∧ l'.length = l.length ∧ st'.begin y = .ok p ∧
      (∀ k i (h : k + i < l'.length), deref st'.mem (p.1, p.2 + k) i = .ok l'[k + i]) ∧
      (∀ k i a, (assignThrough st' (p.1, p.2 + k) i a >>= fun st => .ok (st, none)) = step cfg st' (.write y (k + i) a)) := by
  obtain ⟨st, h1, h2, _⟩ := run_spec hsz (Inv.start cfg.sz) hs (fun k _ _ => hd k)
  obtain ⟨v, hv, ho⟩ := h2.var hx
  obtain ⟨st', h3, h4, h5⟩ := run_owner hsz h2 hs' (fun k _ _ => hd k) hv how
  cases hy : e' y with
  | none => rw [(h4.same y).mpr hy] at h5; cases h5
  | some l' =>
    have ho' := h4.owns y v l' h5 hy
    refine ⟨st, (v.data, 0), st', l', h1, by simp [St.begin, var_ok hv], h3, rfl, ho'.1.symm.trans ho.1,
      by simp [St.begin, var_ok h5], ?_, ?_⟩
    · intro k i h; simp only [deref, Nat.zero_add]; exact load_ok ho' h
    · intro k i a
      simp only [assignThrough, step, var_ok h5, Res.ok_bind, Nat.zero_add, bind_assoc, pure_bind]
      rfl

/-- C102, the other programs: with an allocator that puts blocks elsewhere the pointer dangles, so reading through it is
undefined from then on, whatever happens later. -/
theorem C102_dangling [Zero T] (cfg : Cfg) (hsz : 0 < cfg.sz) (hmv : ∀ k, cfg.dec k = .move) (ops later : List (Op T))
    (e e' : Env T) (os os' : List (Obs T)) (hs : specRun cfg.sz Env.init ops = some (e, os))
    (hs' : specRun cfg.sz e later = some (e', os')) {x : Nat} {l : List T} (hx : e x = some l) (hl : l ≠ [])
    (how : ownerRun cfg.sz e x later = none) :
    ∃ st p st', run cfg St.init ops = .ok (st, os) ∧ st.begin x = .ok p ∧ run cfg st later = .ok (st', os') ∧
      (∀ i, deref st'.mem p i = .ub .useAfterFree) ∧ ∀ i a, assignThrough st' p i a = .ub .useAfterFree := by
  obtain ⟨st, h1, h2, _⟩ := run_spec hsz (Inv.start cfg.sz) hs (fun k _ _ => by rw [hmv]; simp)
  obtain ⟨v, hv, ho⟩ := h2.var hx
  obtain ⟨_, ⟨hl', _⟩ | ⟨b, _, hdat, hb⟩⟩ := ho
  · exact absurd hl' hl
  · obtain ⟨st', h3, h4⟩ := run_dead hsz hmv h2 hs' hv hdat how
    refine ⟨st, (some b, 0), st', h1, by simp [St.begin, var_ok hv, hdat], h3, fun i => ?_, fun i a => ?_⟩
    · simp [deref, load, h4.1]
    · simp [assignThrough, store, h4.1]

/-- Taking a pointer and moving, overwriting and resizing to the same size keep it; after `resize(3)` it dangles or not,
depending on the allocator. -/
example : ownerRun 8 ((specRun 8 Env.init [.ofList 0 [(1 : Int), 2]]).get!.1) 0
    [.moveCtor 1 0, .write 1 0 7, .ofList 2 [5, 6], .copyAssign 1 2, .resize 1 2] = some 1 := by decide +kernel
example : ownerRun 8 ((specRun 8 Env.init [.ofList 0 [(1 : Int), 2]]).get!.1) 0 [.resize 0 3] = none := by decide +kernel
example : (run ⟨8, fun _ => .stay⟩ St.init [.ofList 0 [(1 : Int), 2]] >>= fun r => r.1.begin 0 >>= fun p =>
    run ⟨8, fun _ => .stay⟩ r.1 [.resize 0 3] >>= fun r => deref r.1.mem p 1) = .ok 2 ∧
  (run ⟨8, fun _ => .move⟩ St.init [.ofList 0 [(1 : Int), 2]] >>= fun r => r.1.begin 0 >>= fun p =>
    run ⟨8, fun _ => .move⟩ r.1 [.resize 0 3] >>= fun r => deref r.1.mem p 1) = .ub .useAfterFree := by decide +kernel

/-- C102, pointers from views: `data()` of a view points to the first element of the matrix, so it reads the elements of
the view only for views that begin at `(0,0)` and have all columns or one row. Missing: the other views
(`C102_view_false`). -/
theorem C102_view_partial {A : Mat T} {n m : Nat} {e} (hA : A.Holds n m e) {row col : Range} (hok : viewOk row col = true)
    (hr : row.start = 0) (hc : col.start = 0) (hs : m ≤ col.stop ∨ row.stop = 1) :
    ∃ w, A.toMB.mkView row col = .ok w ∧ ∀ k, k < w.rows * w.cols → viewData A row col k = w.lin k := by
  obtain ⟨w, h1, h2⟩ := C14_view hA.rep.toRepAt hok (by omega) (by omega)
  refine ⟨w, h1, fun k hk => ?_⟩
  rw [h2.rows, h2.cols, hr, hc, Nat.sub_zero, Nat.sub_zero] at hk
  have hl := h2.lin' (i := k)
  simp only [hr, hc, Nat.sub_zero, Nat.zero_add] at hl
  rw [hl hk]
  have hA' : ∀ i, i < n * m → vget A.data i = .ok (e (i / m) (i % m)) := fun i hi => hA.rep.lin' hi
  have hle : min row.stop n * min col.stop m ≤ n * m := Nat.mul_le_mul (Nat.min_le_right _ _) (Nat.min_le_right _ _)
  show vget A.data k = _
  rw [hA' k (by omega)]
  rcases hs with hs | hs
  · rw [Nat.min_eq_right hs]
  · have hk1 : k < min col.stop m := by
      refine lt_of_lt_of_le hk ?_
      calc min row.stop n * min col.stop m ≤ 1 * min col.stop m := Nat.mul_le_mul (by rw [hs]; exact Nat.min_le_left _ _) le_rfl
        _ = _ := Nat.one_mul _
    have hkm : k < m := lt_of_lt_of_le hk1 (Nat.min_le_right _ _)
    rw [Nat.div_eq_of_lt hk1, Nat.mod_eq_of_lt hk1, Nat.div_eq_of_lt hkm, Nat.mod_eq_of_lt hkm]

/-- C102 is false for views: `data()[0]` of the view of the second column is the first element of the matrix. -/
theorem C102_view_false : ∃ (A : Mat Int) (row col : Range) (w : MB Int), A.WF ∧ viewOk row col = true ∧
    A.toMB.mkView row col = .ok w ∧ w.rows = 2 ∧ w.cols = 1 ∧ w.lin 0 = .ok 2 ∧ viewData A row col 0 = .ok 1 :=
  ⟨⟨2, 2, [1, 2, 3, 4]⟩, ⟨0, 2⟩, ⟨1, 2⟩, _, by decide +kernel, by decide +kernel, rfl, by decide +kernel, by decide +kernel,
    by decide +kernel, by decide +kernel⟩

end Malg
