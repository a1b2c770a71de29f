import Verif.Props.Io
import Verif.Model.Session
/-!
# Property C120: several objects in one file
-/
namespace Malg
open Io
variable {T : Type}

namespace Io
/-- Nothing is lost by writing the statement `lhs << …`: vectors and matrices come before numbers and texts, the texts are white
space, and a number is followed by some. `file` tells whether the left hand side is still the file itself. -/
def Keeps : Bool → List (Item T) → Prop
  | _, [] => True
  | file, .obj (.vec v) :: l => file = true ∧ v.length < allocMax ∧ Keeps file l
  | file, .obj (.mat A) :: l => file = true ∧ A.WF ∧ Keeps file l
  | _, .obj (.num _) :: .text ws :: l => ws ≠ [] ∧ AllSpace ws ∧ Keeps false l
  | _, .obj (.num _) :: _ => False
  | _, .text ws :: l => AllSpace ws ∧ Keeps false l

/-- The elements of an object. -/
def Obj.elems : Obj T → List T
  | .vec v => v
  | .mat A => A.data
  | .num x => [x]

/-- The objects of a statement. -/
def Item.objs : List (Item T) → List (Obj T)
  | [] => []
  | .obj o :: l => o :: Item.objs l
  | .text _ :: l => Item.objs l

/-- The variable `old` can be the target when `o` is read: it has the type of `o`. -/
def Target : Obj T → Obj T → Prop
  | .vec _, .vec _ => True
  | .mat old, .mat _ => old.WF
  | .num _, .num _ => True
  | _, _ => False

end Io

/-- The text `t` is read as the objects `os`, whatever white space is in front of it and whatever comes behind it. -/
def TextOf [Zero T] (c : Codec T) (t : List Char) (os : List (Obj T)) : Prop :=
  ∀ olds, List.Forall₂ Target olds os → ∀ ws tail, AllSpace ws → ∃ ws', AllSpace ws' ∧
    getAll c ⟨ws ++ t ++ tail, false, false⟩ olds = .ok (⟨ws' ++ tail, false, false⟩, os)

theorem AllSpace.append {a b : List Char} (ha : AllSpace a) (hb : AllSpace b) : AllSpace (a ++ b) := by
  intro c hc
  rcases List.mem_append.1 hc with h | h
  · exact ha c h
  · exact hb c h

theorem getAll_append [Zero T] {c : Codec T} {s s1 s2 : IStream} {o1 o2 a1 a2 : List (Obj T)} (h1 : getAll c s o1 = .ok (s1, a1))
    (h2 : getAll c s1 o2 = .ok (s2, a2)) : getAll c s (o1 ++ o2) = .ok (s2, a1 ++ a2) := by
  induction o1 generalizing s a1 with
  | nil =>
    obtain ⟨rfl, rfl⟩ := Prod.mk.inj (Res.ok.inj h1)
    exact h2
  | cons o l ih =>
    simp only [getAll] at h1
    cases h : getObj c s o with
    | ok q =>
      rw [h, Res.ok_bind] at h1
      cases h' : getAll c q.1 l with
      | ok r =>
        rw [h', Res.ok_bind] at h1
        obtain ⟨e1, e2⟩ := Prod.mk.inj (Res.ok.inj h1)
        obtain ⟨r1, r2⟩ := r
        dsimp only at e1 e2
        subst e1
        rw [List.cons_append]
        simp only [getAll, h, Res.ok_bind, ih h', ← e2]
        rfl
      | _ => rw [h'] at h1; cases h1
    | _ => rw [h] at h1; cases h1

theorem TextOf.append [Zero T] {c : Codec T} {t u : List Char} {os ps : List (Obj T)} (h1 : TextOf c t os) (h2 : TextOf c u ps) :
    TextOf c (t ++ u) (os ++ ps) := by
  intro olds ho ws tail hws
  obtain ⟨ws1, hw1, e1⟩ := h1 _ (List.forall₂_take_append _ _ _ ho) ws (u ++ tail) hws
  obtain ⟨ws2, hw2, e2⟩ := h2 _ (List.forall₂_drop_append _ _ _ ho) ws1 tail hw1
  refine ⟨ws2, hw2, ?_⟩
  have := getAll_append e1 (by rw [← List.append_assoc]; exact e2)
  rwa [List.take_append_drop, ← List.append_assoc, List.append_assoc ws] at this

/-- White space in front of a text does not matter. -/
theorem TextOf.space [Zero T] {c : Codec T} {t w : List Char} {os : List (Obj T)} (hw : AllSpace w) (h : TextOf c t os) :
    TextOf c (w ++ t) os := by
  intro olds ho ws tail hws
  obtain ⟨ws', h1, h2⟩ := h olds ho (ws ++ w) tail (AllSpace.append hws hw)
  exact ⟨ws', h1, by rw [← List.append_assoc]; exact h2⟩

theorem TextOf.nil [Zero T] (c : Codec T) : TextOf c [] [] := by
  intro olds ho ws tail hws
  cases ho
  exact ⟨ws, hws, by simp [getAll]⟩

theorem getAll_one [Zero T] {c : Codec T} {s s' : IStream} {o o' : Obj T} (h : getObj c s o = .ok (s', o')) :
    getAll c s [o] = .ok (s', [o']) := by
  simp only [getAll, h, Res.ok_bind]; rfl

theorem TextOf.num [Zero T] {c : Codec T} {x : T} (hx : c.Reads x) {w : List Char} (hw0 : w ≠ []) (hw : AllSpace w) :
    TextOf c (c.fmt x ++ w) [.num x] := by
  intro olds ho ws tail hws
  cases ho with
  | cons h1 h2 =>
  cases h2
  rename_i o
  cases o <;> first | exact h1.elim | skip
  obtain ⟨d, w', rfl⟩ := List.exists_cons_of_ne_nil hw0
  have hd : isDelim d = true := by simp [isDelim, hw d List.mem_cons_self]
  refine ⟨d :: w', hw, getAll_one ?_⟩
  have := Codec.ReadsAs.read (t := w' ++ tail) hx hws hd
  simp only [getObj]
  rw [show ws ++ (c.fmt x ++ d :: w') ++ tail = ws ++ (c.fmt x ++ d :: (w' ++ tail)) by simp, this]
  rfl

theorem TextOf.vec [Zero T] {c : Codec T} {fmtM : T → List Char} {v : List T} (hv : v.length < allocMax) (hx : ∀ x ∈ v, c.Reads x)
    {t : List Char} (ht : writeVec fmtM c.fmt v = .ok t) : TextOf c t [.vec v] := by
  intro olds ho ws tail hws
  cases ho with
  | cons h1 h2 =>
  cases h2
  rename_i o
  cases o <;> first | exact h1.elim | skip
  obtain ⟨t', h3, ws', h4, h5⟩ := C66_round_trip_partial c fmtM v _ hv hx ws tail hws
  obtain rfl : t = t' := Res.ok.inj (ht.symm.trans h3)
  exact ⟨ws', h4, getAll_one (by simp only [getObj]; rw [h5]; rfl)⟩

theorem mem_ofFn {n m : Nat} (e : Nat → Nat → T) {i j : Nat} (hi : i < n) (hj : j < m) : e i j ∈ (Mat.ofFn n m e).data := by
  rw [ofFn_data, vtab, List.mem_map]
  refine ⟨i * m + j, List.mem_range.2 ?_, ?_⟩
  · calc i * m + j < i * m + m := by omega
      _ = (i + 1) * m := by ring
      _ ≤ n * m := Nat.mul_le_mul_right _ hi
  · rw [Nat.mul_comm, Nat.mul_add_div (by omega), Nat.mul_add_mod, Nat.div_eq_of_lt hj, Nat.mod_eq_of_lt hj, Nat.add_zero]

theorem TextOf.mat [Zero T] {c : Codec T} {fmtM : T → List Char} {A : Mat T} (hA : A.WF) (hx : ∀ x ∈ A.data, c.Reads x)
    {t : List Char} (ht : writeMat fmtM c.fmt A.toMB = .ok t) : TextOf c t [.mat A] := by
  intro olds ho ws tail hws
  cases ho with
  | cons h1 h2 =>
  cases h2
  rename_i o
  cases o <;> first | exact h1.elim | skip
  have : Nonempty T := ⟨0⟩
  obtain ⟨e, he, h4⟩ := WF.rep hA
  obtain ⟨t', h3, ws', A', h5, h6, h7⟩ := C67_round_trip_partial c fmtM h4 (fun i j hi hj => hx _ (by
    rw [he]; exact mem_ofFn _ hi hj)) h1 ws tail hws
  obtain rfl : t = t' := Res.ok.inj (ht.symm.trans h3)
  refine ⟨ws', h5, getAll_one ?_⟩
  simp only [getObj]
  rw [h6]
  rw [← he.trans h7.eq.symm |>.symm]
  rfl

theorem putChain_text [Zero T] (c : Codec T) (fmtM : T → List Char) (file : Bool) (l : List (Item T)) (hl : Keeps file l)
    (hx : ∀ o ∈ Item.objs l, ∀ x ∈ o.elems, c.Reads x) :
    ∃ t, putChain fmtM c.fmt file l = .ok t ∧ TextOf c t (Item.objs l) := by
  induction file, l using Keeps.induct with
  | case1 file => exact ⟨[], rfl, TextOf.nil c⟩
  | case2 file v l ih =>
    obtain ⟨rfl, hv, hl⟩ := hl
    have hv' : ∀ x ∈ v, c.Reads x := hx (.vec v) List.mem_cons_self
    obtain ⟨t, h1, _⟩ := C66_round_trip_partial c fmtM v [] hv hv' [] [] (fun _ h => by cases h)
    obtain ⟨u, h2, h3⟩ := ih hl (fun o ho => hx o (List.mem_cons_of_mem _ ho))
    refine ⟨t ++ u, ?_, (TextOf.vec hv hv' h1).append h3⟩
    simp only [putChain, putItem, if_true, h1, Res.ok_bind, Res.pure_eq, h2]
  | case3 file A l ih =>
    obtain ⟨rfl, hA, hl⟩ := hl
    have hA' : ∀ x ∈ A.data, c.Reads x := hx (.mat A) List.mem_cons_self
    obtain ⟨u, h2, h3⟩ := ih hl (fun o ho => hx o (List.mem_cons_of_mem _ ho))
    have : Nonempty T := ⟨0⟩
    obtain ⟨e, he⟩ := hA.holds
    obtain ⟨t, h1, _⟩ := C67_round_trip_partial c fmtM he.rep (fun i j hi hj => hA' _ (by
      rw [he.eq]; exact mem_ofFn _ hi hj)) hA [] [] (fun _ h => by cases h)
    refine ⟨t ++ u, ?_, (TextOf.mat hA hA' h1).append h3⟩
    simp only [putChain, putItem, if_true, h1, Res.ok_bind, Res.pure_eq, h2]
  | case4 file x ws l ih =>
    obtain ⟨h0, hw, hl⟩ := hl
    obtain ⟨u, h2, h3⟩ := ih hl (fun o ho => hx o (List.mem_cons_of_mem _ ho))
    refine ⟨c.fmt x ++ ws ++ u, ?_, (TextOf.num (hx (.num x) List.mem_cons_self x List.mem_cons_self) h0 hw).append h3⟩
    simp only [putChain, putItem, Res.ok_bind, Res.pure_eq, h2, List.append_assoc]
  | case5 => exact absurd hl (by simp [Keeps])
  | case6 file ws l ih =>
    obtain ⟨hw, hl⟩ := hl
    obtain ⟨u, h2, h3⟩ := ih hl hx
    refine ⟨ws ++ u, ?_, h3.space hw⟩
    simp only [putChain, putItem, Res.ok_bind, Res.pure_eq, h2]

/-- C120: what the statements `out << …;` write to a file is read back, in the same order, by `in >> x;` into variables of the same
types, if the elements of the objects can be read back, and if in every statement the vectors and matrices come before the numbers
and the numbers are separated by white space. White space in front and other text behind do not matter.
Missing for the claim: other orders within a statement, where it is false, see `C120_order_false`. -/
theorem C120_session_partial [Zero T] (c : Codec T) (fmtM : T → List Char) (sts : List (List (Item T)))
    (hk : ∀ st ∈ sts, Keeps true st) (hx : ∀ st ∈ sts, ∀ o ∈ Item.objs st, ∀ x ∈ o.elems, c.Reads x) :
    ∃ t, putAll fmtM c.fmt sts = .ok t ∧ ∀ olds, List.Forall₂ Target olds (sts.flatMap Item.objs) →
      ∀ ws tail, AllSpace ws → ∃ ws', AllSpace ws' ∧
        getAll c ⟨ws ++ t ++ tail, false, false⟩ olds = .ok (⟨ws' ++ tail, false, false⟩, sts.flatMap Item.objs) := by
  suffices h : ∃ t, putAll fmtM c.fmt sts = .ok t ∧ TextOf c t (sts.flatMap Item.objs) from h
  induction sts with
  | nil => exact ⟨[], rfl, TextOf.nil c⟩
  | cons st l ih =>
    obtain ⟨t, h1, h2⟩ := putChain_text c fmtM true st (hk _ List.mem_cons_self) (hx _ List.mem_cons_self)
    obtain ⟨u, h3, h4⟩ := ih (fun s hs => hk s (List.mem_cons_of_mem _ hs)) (fun s hs => hx s (List.mem_cons_of_mem _ hs))
    exact ⟨t ++ u, by simp only [putAll, h1, h3, Res.ok_bind, Res.pure_eq], by rw [List.flatMap_cons]; exact h2.append h4⟩

/-- C120 violated: a vector that is written behind a number in the same statement has no header. Reading it leaves the variable as
it was, and the stream does not fail. -/
theorem C120_order_false [Zero T] (c : Codec T) (fmtM : T → List Char) (x y a : T) (ws : List Char) (v old : List T)
    (hv : (a :: v).length < allocMax) (hx : c.Reads x) (ha : c.Reads a) (hV : (c.fmt a).head? ≠ some 'V') (hws : AllSpace ws)
    (hw0 : ws ≠ []) :
    ∃ t rest, putAll fmtM c.fmt [[.obj (.num x), .text ws, .obj (.vec (a :: v))]] = .ok t ∧
      getAll c (.start t) [.num y, .vec old] = .ok (⟨rest, false, false⟩, [.num x, .vec old]) := by
  have hr : VRep (a :: v) (a :: v).length (fun i => (a :: v).getD i 0) := by
    refine ⟨hv, rfl, fun i hi => ?_⟩
    dsimp only
    rw [List.getD_eq_getElem?_getD, List.getElem?_eq_getElem hi, Option.getD_some]
  obtain ⟨w, _, h1, _⟩ := printVec_eq (fmtM := fmtM) (fmt := c.fmt) hr
  obtain ⟨d, l, hd, hs⟩ := ha.head
  obtain ⟨k, tl, hk⟩ : ∃ k tl, [' '].intercalate (vtab (a :: v).length fun i => pad w (c.fmt ((a :: v).getD i 0))) =
      List.replicate k ' ' ++ d :: tl := by
    refine ⟨w - (c.fmt a).length, ?_⟩
    rw [List.length_cons, vtab, List.range_succ_eq_map, List.map_cons, List.getD_cons_zero, pad_eq, hd]
    cases List.map (fun i => pad w (c.fmt ((a :: v).getD i 0))) (List.map Nat.succ (List.range v.length)) with
    | nil => exact ⟨l, by simp [List.intercalate]⟩
    | cons b bs => exact ⟨l ++ ([' '] ++ [' '].intercalate (b :: bs)), by simp [List.intercalate]⟩
  refine ⟨c.fmt x ++ (ws ++ (List.replicate k ' ' ++ d :: tl)), tl, ?_, ?_⟩
  · simp only [putAll, putChain, putItem, Res.ok_bind, Res.pure_eq, h1, hk, Bool.false_eq_true, if_false, List.append_nil]
  · obtain ⟨e, ws', rfl⟩ := List.exists_cons_of_ne_nil hw0
    have he : isDelim e = true := by simp [isDelim, hws e List.mem_cons_self]
    have h2 := Codec.ReadsAs.read (ws := []) (t := ws' ++ (List.replicate k ' ' ++ d :: tl)) hx (fun _ h => by cases h) he
    have h3 := readChar_skip (l := tl) (AllSpace.append hws (pad_space k)) hs
    have hV' : d ≠ 'V' := fun h => hV (by rw [hd, h]; rfl)
    simp only [getAll, getObj, IStream.start]
    rw [List.nil_append] at h2
    rw [List.cons_append, h2]
    rw [List.cons_append, List.cons_append, List.append_assoc] at h3
    simp only [Res.ok_bind, Res.pure_eq, readVec, h3, hV', ne_eq, not_false_eq_true, if_true]

/-- Three statements: a vector, a matrix and another vector at once; two numbers; a matrix. -/
example : (do
    let t ← putAll fmtInt fmtInt [[.obj (.vec [1, 20]), .obj (.mat ⟨2, 1, [3, -4]⟩), .obj (.vec [])],
      [.obj (.num 5), .text "\n".toList, .obj (.num 6), .text " ".toList], [.obj (.mat ⟨1, 2, [7, 8]⟩)]]
    let q ← getAll (intCodec (-99) 99) (.start t) [.vec [], .mat ⟨0, 0, []⟩, .vec [9], .num 0, .num 0, .mat ⟨1, 1, [0]⟩]
    return q.2) =
    .ok [.vec [1, 20], .mat ⟨2, 1, [3, -4]⟩, .vec [], .num 5, .num 6, .mat ⟨1, 2, [7, 8]⟩] := by decide +kernel

/-- The first violation, with numbers: `out << 2 << "\n" << v`. -/
example : putAll fmtInt fmtInt [[.obj (.num 2), .text "\n".toList, .obj (.vec [3, 4])]] = .ok "2\n3 4".toList ∧
    getAll (intCodec (-99) 99) (.start "2\n3 4".toList) [.num 0, .vec [9]] = .ok (⟨" 4".toList, false, false⟩, [.num 2, .vec [9]]) := by
  decide +kernel

/-- C120 violated for a matrix too: `out << "A\n" << A`, whose title is skipped by the reader; the first character of the first
element is lost, and the number that is read next is a wrong one. In a statement of its own the matrix is read. -/
theorem C120_title_false :
    putAll fmtInt fmtInt [[.text "A\n".toList, .obj (.mat ⟨2, 2, [12, 3, 4, 5]⟩)]] = .ok "A\n12  3\n 4  5".toList ∧
    getAll (intCodec (-99) 99) (.start "12  3\n 4  5".toList) [.mat ⟨1, 1, [9]⟩, .num 0] =
      .ok (⟨"  3\n 4  5".toList, false, false⟩, [.mat ⟨1, 1, [9]⟩, .num 2]) ∧
    putAll fmtInt fmtInt [[.text "A\n".toList], [.obj (.mat ⟨2, 2, [12, 3, 4, 5]⟩)]] = .ok "A\nM 2 2\n12  3\n 4  5\n".toList := by
  decide +kernel

/-- C120 violated right behind a number too: `out << 2 << v` has no header, and the first element is joined to the number. -/
theorem C120_adjacent_false :
    putAll fmtInt fmtInt [[.obj (.num 2), .obj (.vec [3, 4])]] = .ok "23 4".toList ∧
    getAll (intCodec (-99) 99) (.start "23 4".toList) [.num 0, .vec [9]] = .ok (⟨"".toList, false, false⟩, [.num 23, .vec [9]]) ∧
    putAll fmtInt fmtInt [[.obj (.num 2), .obj (.mat ⟨1, 2, [3, 4]⟩)]] = .ok "23 4".toList := by decide +kernel

/-- Numbers that are not separated become one. -/
example : (do
    let t ← putAll fmtInt fmtInt [[.obj (.num 1)], [.obj (.num 2), .text "\n".toList]]
    let q ← getAll (intCodec (-99) 99) (.start t) [.num 0, .num 0]
    return (q.2, q.1.fail)) = .ok ([.num 12, .num 0], true) := by decide +kernel

end Malg
