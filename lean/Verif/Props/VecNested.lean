import Verif.Model.VecNested
import Verif.Lemmas.VecMem
/-!
# Property C129: a vector of vectors

The elements of a `Vector` can be numbers only. As soon as the elements are vectors themselves, any vector that is not empty is undefined: the assignment that should
clear a new element reads the members of an object that was never constructed.
-/
namespace Malg
open VecMem
variable {T : Type} [Zero T]

theorem clearElem_uninit {icfg : Cfg} {m : NMem T} {b i : Nat} {cells : List (Option VObj)} (hb : m.outer.blocks b = some cells) (hi : cells[i]? = some none) :
    clearElem icfg m (some b) i = .ub .uninit := by
  simp only [clearElem, allocate, deallocate, load, hb, hi, if_pos, gt_iff_lt, Nat.lt_irrefl, if_false, Res.ok_bind, Res.ub_bind]

theorem clearElem_null {icfg : Cfg} {m : NMem T} {i : Nat} : clearElem icfg m none i = .ub .nullDeref := by
  simp only [clearElem, allocate, deallocate, load, if_pos, gt_iff_lt, Nat.lt_irrefl, if_false, Res.ok_bind, Res.ub_bind]

omit [Zero T] in
theorem forRange_first {σ : Type} {lo hi : Nat} (h : lo < hi) {s : σ} {body : Nat → σ → Res σ} {k : UB} (hb : body lo s = .ub k) :
    forRange lo hi s body = .ub k := by
  unfold forRange
  obtain ⟨n, hn⟩ : ∃ n, hi - lo = n + 1 := ⟨hi - lo - 1, by omega⟩
  rw [hn, loopN, hb, Res.ub_bind]

/-- C129: a vector of vectors cannot grow. Whatever its elements are (`cells`), however large it is, and wherever the allocator puts the block, `allocate` for more
elements is undefined: if the memory is granted because an object is read that does not exist, if it is refused because a null pointer is followed. -/
theorem C129_grow_false {cfg icfg : Cfg} (hsz : 0 < cfg.sz) {m : NMem T} {v : VObj}
    (hv : v.data = none ∧ v.size = 0 ∨ ∃ b cells, v.data = some b ∧ m.outer.blocks b = some cells ∧ cells.length = v.size) {n : Nat} (hn : v.size < n)
    (hs : cfg.sz * n < 2 ^ 63) :
    allocateN cfg icfg m v n = .ub (if cfg.dec m.outer.calls = .fail then .nullDeref else .uninit) := by
  have hw : wmul cfg.sz n = cfg.sz * n := wmul_eq (by rw [W_eq]; omega)
  have hd : cfg.sz * n / cfg.sz = n := Nat.mul_div_cancel_left _ hsz
  have hpos : cfg.sz * n ≠ 0 := Nat.pos_iff_ne_zero.1 (Nat.mul_pos hsz (by omega))
  unfold allocateN
  rw [if_neg (by omega), if_neg (by omega), hw]
  obtain ⟨h1, h2⟩ | ⟨b, cells, h1, h2, h3⟩ := hv
  · by_cases hf : cfg.dec m.outer.calls = .fail
    · rw [if_pos hf, h1]
      simp only [realloc, hf, true_or, if_true, Res.ok_bind]
      rw [if_pos hn, forRange_first hn clearElem_null, Res.ub_bind]
    · rw [if_neg hf, h1]
      simp only [realloc, hf, false_or, hd]
      rw [if_neg (by omega)]
      simp only [Res.ok_bind]
      rw [if_pos hn, forRange_first hn (clearElem_uninit (cells := List.replicate n none) (by simp [Mem.put]) (by rw [List.getElem?_replicate, if_pos hn])), Res.ub_bind]
  · by_cases hf : cfg.dec m.outer.calls = .fail
    · rw [if_pos hf, h1]
      simp only [realloc, h2, hf, true_or, if_true, if_neg hpos, Res.ok_bind]
      rw [if_pos hn, forRange_first hn clearElem_null, Res.ub_bind]
    · rw [if_neg hf, h1]
      have hc : (cells.take n ++ List.replicate (n - cells.length) none)[v.size]? = some none := by
        rw [List.getElem?_append_right (by rw [List.length_take]; omega), List.getElem?_replicate, if_pos (by rw [List.length_take]; omega)]
      simp only [realloc, h2, hf, false_or, if_neg hpos, hd]
      rw [if_neg (by omega)]
      by_cases hst : cfg.dec m.outer.calls = .stay
      · rw [if_pos hst]
        simp only [Res.ok_bind]
        rw [if_pos hn, forRange_first hn (clearElem_uninit (put_same _ _ _) hc), Res.ub_bind]
      · rw [if_neg hst]
        simp only [Res.ok_bind]
        rw [if_pos hn, forRange_first hn (clearElem_uninit (by simp [Mem.put]) hc), Res.ub_bind]

/-- C129: no list of vectors can be made a vector, except the empty one. -/
theorem C129_list_false {cfg icfg : Cfg} (hsz : 0 < cfg.sz) (m : NMem T) {ws : List VObj} (hw : ws ≠ []) (hs : cfg.sz * ws.length < 2 ^ 63) :
    ∃ k, copyN cfg icfg m ws = .ub k := by
  unfold copyN
  rw [C129_grow_false hsz (.inl ⟨rfl, rfl⟩) (List.length_pos_iff.2 hw) hs]
  exact ⟨_, rfl⟩

/-- C129: a vector of vectors without elements is a vector like any other: it can be made, and its destruction or `resize(0)` changes nothing. -/
theorem C129_partial (cfg icfg : Cfg) (m : NMem T) :
    copyN cfg icfg m [] = .ok (m, ⟨none, 0⟩) ∧ allocateN cfg icfg m ⟨none, 0⟩ 0 = .ok (m, ⟨none, 0⟩, false) := ⟨rfl, rfl⟩

/-- `Vector<Vector<int>> v(3)`, memory granted, and refused. -/
example : allocateN (T := Int) ⟨16, fun _ => .move⟩ ⟨4, fun _ => .move⟩ ⟨Mem.empty, Mem.empty⟩ ⟨none, 0⟩ 3 = .ub .uninit :=
  C129_grow_false (by decide) (.inl ⟨rfl, rfl⟩) (by decide) (by decide)
example : allocateN (T := Int) ⟨16, fun _ => .fail⟩ ⟨4, fun _ => .move⟩ ⟨Mem.empty, Mem.empty⟩ ⟨none, 0⟩ 3 = .ub .nullDeref :=
  C129_grow_false (by decide) (.inl ⟨rfl, rfl⟩) (by decide) (by decide)

/-- If the first cell happened to hold an empty vector, it could be cleared: what is missing is the construction of the elements. -/
example : (match clearElem (T := Int) ⟨4, fun _ => .move⟩ ⟨⟨fun _ => some [some ⟨none, 0⟩], 1, 1⟩, Mem.empty⟩ (some 0) 0 with
    | .ok m => m.outer.blocks 0 == some [some ⟨none, 0⟩] | _ => false) = true := rfl

end Malg
