import Verif.Lemmas.IoRead
import Verif.Spec.Control
/-!
# Properties C66–C69: files and text exports
-/
namespace Malg
open Io
variable {T : Type}

/-! ## C66 -/

/-- C66: the characters that separate the numbers are blank, tab, line feed, vertical tab, form feed and carriage return. -/
theorem C66_space (c : Char) : isSpace c = true ↔ c ∈ [' ', '\t', '\n', '\x0b', '\x0c', '\r'] := by
  have key : ∀ d : Char, c = d ↔ c.toNat = d.toNat := fun d => ⟨fun h => h ▸ rfl, fun h => Char.toNat_inj.1 h⟩
  simp only [isSpace, Bool.or_eq_true, beq_iff_eq, Bool.and_eq_true, decide_eq_true_eq, List.mem_cons, List.not_mem_nil, or_false, key]
  rw [show (' ').toNat = 32 from rfl, show ('\t').toNat = 9 from rfl, show ('\n').toNat = 10 from rfl,
    show ('\x0b').toNat = 11 from rfl, show ('\x0c').toNat = 12 from rfl, show ('\r').toNat = 13 from rfl]
  omega

/-- C66: if the texts printed for the elements are read as certain values, whatever the types of the elements written and
read, then a vector written to a file is read as the vector of these values, into any target, and exactly its text and the white
space around it is consumed. -/
theorem C66_texts [Zero T] {S : Type} (c : Codec T) (fmtM fmt : S → List Char) (v : List S) (y old : List T) (hv : v.length < allocMax)
    (hx : List.Forall₂ (fun x y => c.ReadsAs (fmt x) y) v y) (ws tail : List Char) (hws : AllSpace ws) :
    ∃ text, writeVec fmtM fmt v = .ok text ∧ ∃ ws', AllSpace ws' ∧
      readVec c ⟨ws ++ text ++ tail, false, false⟩ old = .ok (⟨ws' ++ tail, false, false⟩, y) := by
  cases v with
  | nil =>
    cases hx
    refine ⟨_, rfl, ?_⟩
    exact readVec_trip (S := Unit) (c := c) (fmt := fun _ => []) hws (n := 0) (x := fun _ => ()) (y := fun _ => 0) hv (by simp) 0 tail old
  | cons v0 v =>
  have hl := hx.length_eq
  have hrep : VRep (v0 :: v) (v0 :: v).length (fun i => (v0 :: v).getD i v0) :=
    ⟨hv, rfl, fun i hi => by dsimp only; rw [List.getD_eq_getElem?_getD, List.getElem?_eq_getElem hi]; rfl⟩
  obtain ⟨w, _, _, h3⟩ := printVec_eq (fmtM := fmtM) (fmt := fmt) hrep
  refine ⟨_, h3, ?_⟩
  obtain ⟨ws', h4, h5⟩ := readVec_trip (fmt := fmt) hws (x := fun i => (v0 :: v).getD i v0) (y := fun i => y.getD i 0) hv (by
    intro i hi
    have := hx.get hi (hl ▸ hi)
    simp only [List.getD_eq_getElem?_getD, List.getElem?_eq_getElem hi, List.getElem?_eq_getElem (hl ▸ hi), Option.getD_some]
    exact this) w tail old
  exact ⟨ws', h4, by rw [h5, hl, ← list_eq_vtab_getD y 0]⟩

/-- C66 (partial): a vector written to a file is read back, into any target, and exactly its text and the white space
around it is consumed. Missing: element types whose printed text does not determine the value, see
`C66_precision_false`; for them `Codec.Reads` cannot hold. What happens to floating point numbers is C112. -/
theorem C66_round_trip_partial [Zero T] (c : Codec T) (fmtM : T → List Char) (v old : List T) (hv : v.length < allocMax)
    (hx : ∀ x ∈ v, c.Reads x) (ws tail : List Char) (hws : AllSpace ws) :
    ∃ text, writeVec fmtM c.fmt v = .ok text ∧ ∃ ws', AllSpace ws' ∧
      readVec c ⟨ws ++ text ++ tail, false, false⟩ old = .ok (⟨ws' ++ tail, false, false⟩, v) :=
  C66_texts c fmtM c.fmt v v old hv (List.forall₂_same.2 hx) ws tail hws

/-- C66 for every signed integer type. -/
theorem C66_int (lo hi : Int) (fmtM : Int → List Char) (v old : List Int) (hv : v.length < allocMax)
    (hx : ∀ x ∈ v, lo ≤ x ∧ x ≤ hi) (ws tail : List Char) (hws : AllSpace ws) :
    ∃ text, writeVec fmtM (intCodec lo hi).fmt v = .ok text ∧ ∃ ws', AllSpace ws' ∧
      readVec (intCodec lo hi) ⟨ws ++ text ++ tail, false, false⟩ old = .ok (⟨ws' ++ tail, false, false⟩, v) :=
  C66_round_trip_partial _ fmtM v old hv (fun x h => intCodec_reads (hx x h).1 (hx x h).2) ws tail hws

/-- C66 for complex numbers over such a type. -/
theorem C66_complex [Zero T] (c : Codec T) (fmtM : T × T → List Char) (v old : List (T × T)) (hv : v.length < allocMax)
    (hx : ∀ z ∈ v, c.Reads z.1 ∧ c.Reads z.2) (ws tail : List Char) (hws : AllSpace ws) :
    ∃ text, writeVec fmtM (complexCodec c).fmt v = .ok text ∧ ∃ ws', AllSpace ws' ∧
      readVec (complexCodec c) ⟨ws ++ text ++ tail, false, false⟩ old = .ok (⟨ws' ++ tail, false, false⟩, v) :=
  C66_round_trip_partial _ fmtM v old hv (fun z h => complexCodec_reads (hx z h).1 (hx z h).2) ws tail hws

/-- C66 for characters other than white space. -/
theorem C66_char [Zero Char] (fmtM : Char → List Char) (v old : List Char) (hv : v.length < allocMax)
    (hx : ∀ x ∈ v, isSpace x = false) (ws tail : List Char) (hws : AllSpace ws) :
    ∃ text, writeVec fmtM charCodec.fmt v = .ok text ∧ ∃ ws', AllSpace ws' ∧
      readVec charCodec ⟨ws ++ text ++ tail, false, false⟩ old = .ok (⟨ws' ++ tail, false, false⟩, v) :=
  C66_round_trip_partial _ fmtM v old hv (fun x h => charCodec_reads (hx x h)) ws tail hws

/-- C66 violated: a vector of characters with a blank in it is written, but reading what was written takes the next
character that is not white space instead, here that of the vector after it. -/
theorem C66_char_false : let _ : Zero Char := ⟨'\x00'⟩
    writeVec charCodec.fmt charCodec.fmt ['a', ' '] = .ok "V 2\na  \n".toList ∧
    readVec charCodec (.start "V 2\na  \nV 0\n\n".toList) [] = .ok (⟨" 0\n\n".toList, false, false⟩, ['a', 'V']) := by
  decide +kernel

/-- Taking the last character of a text does not look behind it. -/
example : let _ : Zero Char := ⟨'\x00'⟩
    readVec charCodec (.start "V 1\na".toList) [] = .ok (⟨[], false, false⟩, ['a']) := by decide +kernel
example : writeVec fmtInt fmtInt [1, -20, 3] = .ok "V 3\n  1 -20   3\n".toList := by decide +kernel
example : readVec (intCodec (-128) 127) (.start "V 3\n  1 -20   3\nV 0\n\n".toList) [7] =
    .ok (⟨"\nV 0\n\n".toList, false, false⟩, [1, -20, 3]) := by decide +kernel
example : readVec (complexCodec (intCodec (-128) 127)) (.start "V 2\n  (1,2) (-3,44)\n".toList) [] =
    .ok (⟨"\n".toList, false, false⟩, [(1, 2), (-3, 44)]) := by decide +kernel

/-- Several vectors written one after the other. -/
def writeVecs (fmtM fmt : T → List Char) : List (List T) → Res (List Char)
  | [] => .ok []
  | v :: l => do
    let a ← writeVec fmtM fmt v
    let b ← writeVecs fmtM fmt l
    return a ++ b

/-- Several vectors read one after the other. -/
def readVecs [Zero T] (c : Codec T) : IStream → List (List T) → Res (IStream × List (List T))
  | s, [] => .ok (s, [])
  | s, v :: l => do
    let (s, v) ← readVec c s v
    let (s, l) ← readVecs c s l
    return (s, v :: l)

/-- C66: any number of vectors in one file. -/
theorem C66_sequence [Zero T] (c : Codec T) (fmtM : T → List Char) (vs olds : List (List T))
    (hlen : olds.length = vs.length) (hv : ∀ v ∈ vs, v.length < allocMax ∧ ∀ x ∈ v, c.Reads x) (tail : List Char) :
    ∃ text, writeVecs fmtM c.fmt vs = .ok text ∧ ∀ ws, AllSpace ws → ∃ ws', AllSpace ws' ∧
      readVecs c ⟨ws ++ text ++ tail, false, false⟩ olds = .ok (⟨ws' ++ tail, false, false⟩, vs) := by
  induction vs generalizing olds with
  | nil =>
    obtain rfl := List.length_eq_zero_iff.1 hlen
    exact ⟨[], rfl, fun ws hws => ⟨ws, hws, by simp [readVecs]⟩⟩
  | cons v vs ih =>
    cases olds with
    | nil => simp at hlen
    | cons old olds =>
      obtain ⟨t2, h1, h2⟩ := ih olds (by simpa using hlen) fun v hv' => hv v (by simp [hv'])
      obtain ⟨h3, h4⟩ := hv v (by simp)
      obtain ⟨t1, h5, _⟩ := C66_round_trip_partial c fmtM v old h3 h4 [] [] (by intro c hc; simp at hc)
      refine ⟨t1 ++ t2, by simp [writeVecs, h5, h1], ?_⟩
      intro ws hws
      obtain ⟨t1', h5', ws1, h6, h7⟩ := C66_round_trip_partial c fmtM v old h3 h4 ws (t2 ++ tail) hws
      obtain rfl : t1 = t1' := by rw [h5] at h5'; exact (Res.ok.inj h5')
      obtain ⟨ws2, h8, h9⟩ := h2 ws1 h6
      refine ⟨ws2, h8, ?_⟩
      rw [List.append_assoc] at h9
      simp only [readVecs]
      rw [← List.append_assoc ws, List.append_assoc (ws ++ t1), h7, Res.ok_bind]
      dsimp only
      rw [h9]
      rfl

example : (do
    let t ← writeVecs fmtInt fmtInt [[1, 2], [], [30]]
    let q ← readVecs (intCodec (-99) 99) (.start t) [[5], [5], []]
    return q.2) = .ok [[1, 2], [], [30]] := by decide +kernel

/-- C66 violated: whenever two different values are printed alike, one of them does not survive the round trip. The
library writes floating point numbers with the precision of the stream, six digits by default. -/
theorem C66_precision_false [Zero T] (c : Codec T) (fmtM : T → List Char) {x y : T} (hxy : x ≠ y)
    (h : c.fmt x = c.fmt y) (hM : fmtM x = fmtM y) :
    ¬ ∀ z, z = x ∨ z = y → ∃ text s, writeVec fmtM c.fmt [z] = .ok text ∧
      readVec c (.start text) [] = .ok (s, [z]) := by
  intro hall
  obtain ⟨t1, s1, h1, h2⟩ := hall x (Or.inl rfl)
  obtain ⟨t2, s2, h3, h4⟩ := hall y (Or.inr rfl)
  have : writeVec fmtM c.fmt [x] = writeVec fmtM c.fmt [y] := by
    simp [writeVec, longest, forRange, loopN, vget, h, hM]
  rw [this, h3] at h1
  obtain rfl := Res.ok.inj h1
  rw [h2] at h4
  have := (Prod.mk.inj (Res.ok.inj h4)).2
  exact hxy (List.cons.inj this).1

/-! ## C67 -/

/-- C67: if the texts printed for the entries are read as certain values, a matrix or view written to a file is read as the
matrix of these values. -/
theorem C67_texts [Zero T] {S : Type} (c : Codec T) (fmtM fmt : S → List Char) {b : MB S} {n m : Nat} {e} {y : Nat → Nat → T}
    (h : Rep b n m e) (hx : ∀ i j, i < n → j < m → c.ReadsAs (fmt (e i j)) (y i j)) {old : Mat T} (hold : old.WF)
    (ws tail : List Char) (hws : AllSpace ws) :
    ∃ text, writeMat fmtM fmt b = .ok text ∧ ∃ ws' A, AllSpace ws' ∧
      readMat c ⟨ws ++ text ++ tail, false, false⟩ old = .ok (⟨ws' ++ tail, false, false⟩, A) ∧ A.Holds n m y := by
  obtain ⟨w, h1, _⟩ := longestMat_ok (fmtM := fmtM) h
  refine ⟨_, by simp only [writeMat, h1, Res.ok_bind, printRows_eq h.toRepAt, h.rows, h.cols, Res.pure_eq]; rfl, ?_⟩
  obtain ⟨ws', h2, h3⟩ := readMat_trip hws h.fits hx w tail hold
  exact ⟨ws', _, h2, h3, ofFn_WF h.fits y, ofFn_rep h.fits y⟩

/-- C67 (partial): a matrix or view written to a file is read back with the same shape and entries into any consistent
target. Missing: as in C66 the element types whose text does not determine the value, targets that were moved from
(`C67_moved_target_false`) and cofactor views that are not square (`C67_cofactor_false`). -/
theorem C67_round_trip_partial [Zero T] (c : Codec T) (fmtM : T → List Char) {b : MB T} {n m : Nat} {e}
    (h : Rep b n m e) (hx : ∀ i j, i < n → j < m → c.Reads (e i j)) {old : Mat T} (hold : old.WF)
    (ws tail : List Char) (hws : AllSpace ws) :
    ∃ text, writeMat fmtM c.fmt b = .ok text ∧ ∃ ws' A, AllSpace ws' ∧
      readMat c ⟨ws ++ text ++ tail, false, false⟩ old = .ok (⟨ws' ++ tail, false, false⟩, A) ∧ A.Holds n m e :=
  C67_texts c fmtM c.fmt h hx hold ws tail hws

/-- C67 for every signed integer type. -/
theorem C67_int (lo hi : Int) (fmtM : Int → List Char) {b : MB Int} {n m : Nat} {e} (h : Rep b n m e)
    (hx : ∀ i j, i < n → j < m → lo ≤ e i j ∧ e i j ≤ hi) {old : Mat Int} (hold : old.WF) (ws tail : List Char)
    (hws : AllSpace ws) :
    ∃ text, writeMat fmtM (intCodec lo hi).fmt b = .ok text ∧ ∃ ws' A, AllSpace ws' ∧
      readMat (intCodec lo hi) ⟨ws ++ text ++ tail, false, false⟩ old = .ok (⟨ws' ++ tail, false, false⟩, A) ∧
      A.Holds n m e :=
  C67_round_trip_partial _ fmtM h (fun i j hi hj => intCodec_reads (hx i j hi hj).1 (hx i j hi hj).2) hold ws tail hws

example : writeMat fmtInt fmtInt (⟨2, 2, [1, -20, 3, 4]⟩ : Mat Int).toMB = .ok "M 2 2\n  1 -20\n  3   4\n".toList := by
  decide +kernel
example : readMat (intCodec (-128) 127) (.start "M 2 2\n  1 -20\n  3   4\nV 1\n1\n".toList) ⟨1, 3, [7, 8, 9]⟩ =
    .ok (⟨"\nV 1\n1\n".toList, false, false⟩, ⟨2, 2, [1, -20, 3, 4]⟩) := by decide +kernel
example : writeMat fmtInt fmtInt ((⟨3, 3, [1, 2, 3, 4, 5, 6, 7, 8, 9]⟩ : Mat Int).toMB.view ⟨1, 3⟩ ⟨0, 2⟩) =
    .ok "M 2 2\n4 5\n7 8\n".toList := by decide +kernel
example : readMat (intCodec (-128) 127) (.start "M 3 0\n\n\n\n".toList) ⟨1, 1, [7]⟩ =
    .ok (⟨"\n\n\n\n".toList, false, false⟩, ⟨3, 0, []⟩) := by decide +kernel

/-- C67: a matrix after a vector in the same file. -/
theorem C67_after_vector [Zero T] (c : Codec T) (fmtM : T → List Char) (v oldV : List T) (hv : v.length < allocMax)
    (hvx : ∀ x ∈ v, c.Reads x) {b : MB T} {n m : Nat} {e} (h : Rep b n m e)
    (hx : ∀ i j, i < n → j < m → c.Reads (e i j)) {old : Mat T} (hold : old.WF) (tail : List Char) :
    ∃ t1 t2, writeVec fmtM c.fmt v = .ok t1 ∧ writeMat fmtM c.fmt b = .ok t2 ∧
      ∃ s, readVec c (.start (t1 ++ t2 ++ tail)) oldV = .ok (s, v) ∧
      ∃ ws' A, AllSpace ws' ∧ readMat c s old = .ok (⟨ws' ++ tail, false, false⟩, A) ∧ A.Holds n m e := by
  obtain ⟨t2, h1, _⟩ := C67_round_trip_partial c fmtM h hx hold [] tail (by intro c hc; simp at hc)
  obtain ⟨t1, h2, ws1, h3, h4⟩ := C66_round_trip_partial c fmtM v oldV hv hvx [] (t2 ++ tail) (by intro c hc; simp at hc)
  refine ⟨t1, t2, h2, h1, ⟨ws1 ++ (t2 ++ tail), false, false⟩, ?_, ?_⟩
  · rw [List.nil_append, ← List.append_assoc] at h4; exact h4
  · obtain ⟨t2', h1', ws2, A, h5, h6, h7⟩ := C67_round_trip_partial c fmtM h hx hold ws1 tail h3
    obtain rfl : t2 = t2' := by rw [h1] at h1'; exact Res.ok.inj h1'
    rw [List.append_assoc] at h6
    exact ⟨ws2, A, h5, h6, h7⟩

/-- C67 violated: reading into a matrix that was moved from writes outside its storage when the file has the shape the
target still claims to have. -/
theorem C67_moved_target_false :
    let A : Mat Int := ⟨1, 2, [1, 2]⟩
    (writeMat fmtInt fmtInt A.toMB >>= fun t => readMat (intCodec (-9) 9) (.start t) (A.move).2) = .ub .oob := by
  decide +kernel

/-- C67 violated: writing a cofactor view that is not square reads outside the matrix. -/
theorem C67_cofactor_false :
    writeMat fmtInt fmtInt ((⟨2, 4, [1, 2, 3, 4, 5, 6, 7, 8]⟩ : Mat Int).toMB.cofactor 0 0) = .ub .oob := by
  decide +kernel

/-! ## C68 -/

/-- C68: a stream that starts with another tag leaves the vector as it is; only the tag is consumed. -/
theorem C68_tag_vector [Zero T] (c : Codec T) (v : List T) (ws l : List Char) (hws : AllSpace ws) (t : Char)
    (ht : isSpace t = false) (hV : t ≠ 'V') :
    readVec c ⟨ws ++ t :: l, false, false⟩ v = .ok (⟨l, false, false⟩, v) := by
  simp only [readVec, readChar_skip hws ht, ne_eq, hV, not_false_eq_true, if_true]

/-- C68: the same for matrices. -/
theorem C68_tag_matrix [Zero T] (c : Codec T) (A : Mat T) (ws l : List Char) (hws : AllSpace ws) (t : Char)
    (ht : isSpace t = false) (hM : t ≠ 'M') :
    readMat c ⟨ws ++ t :: l, false, false⟩ A = .ok (⟨l, false, false⟩, A) := by
  simp only [readMat, readChar_skip hws ht, ne_eq, hM, not_false_eq_true, if_true]

example : readVec (intCodec (-9) 9) (.start "M 1 1\n3\n".toList) [4, 5] =
    .ok (⟨" 1 1\n3\n".toList, false, false⟩, [4, 5]) := by decide +kernel

/-- C68 (partial): after reading from any stream whatsoever, the vector holds the elements read up to some point, and old
elements (or zeros) after it. If the stream has not failed, all elements are new. Missing: the target does mix old and new
data when the stream failed (`C68_mixing_false`), and not every truncation is reported (`C68_cut_number_false`). -/
theorem C68_vector_partial [Zero T] (c : Codec T) (hc : c.Sane) (s : IStream) (old : List T) {s' : IStream} {v : List T}
    (h : readVec c s old = .ok (s', v)) :
    (v = old ∧ ∃ t, (readChar s).1 = some t ∧ t ≠ 'V') ∨
    ∃ n s1 k xs s2, (readChar s).1 = some 'V' ∧ sizeCodec.read (readChar s).2 = (some n, s1) ∧
      v.length = n ∧ k ≤ n ∧ xs.length = k ∧ Took c s1 xs s2 ∧ (∀ i, i < k → v[i]? = xs[i]?) ∧
      (∀ i, k < i → i < n → v[i]? = some (old.getD i 0)) ∧
      (s'.fail = false → k = n ∧ v = xs ∧ s' = s2) := by
  rcases hr : readChar s with ⟨o, s0⟩
  cases o with
  | none => simp [readVec, hr] at h
  | some t =>
    by_cases ht : t = 'V'
    · subst ht
      right
      rcases hz : sizeCodec.read s0 with ⟨o, s1⟩
      cases o with
      | none => simp [readVec, hr, hz] at h
      | some n =>
        simp only [readVec, hr, hz, ne_eq, not_true_eq_false, if_false] at h
        by_cases hn : n < allocMax
        · obtain ⟨u, hu1, hu2, hu3⟩ := vresize_length (v := old) hn
          rw [hu1, Res.ok_bind, hu2] at h
          have hu : u = vtab n (fun i => old.getD i 0) := by
            rw [list_eq_vtab_getD u 0, hu2]
            apply vtab_congr; intro i hi
            rw [List.getD_eq_getElem?_getD, hu3 i hi]; rfl
          rw [hu] at h
          obtain ⟨s3, f', k, xs, s2, h1, h2, h3, h4, h5, h6, h7, h8⟩ := readLoop hc (N := n) (vtab n)
            (body := fun i q => readItem c i q)
            (by intro k f s s' _ hk; simp only [readItem, hk])
            (by intro k f s s' x hkn hk; simp only [readItem, hk, vset_vtab hkn, Res.ok_bind, Res.pure_eq])
            s1 (fun i => old.getD i 0)
          rw [h1] at h
          obtain ⟨e1, e2⟩ := Prod.mk.inj (Res.ok.inj h)
          subst e1 e2
          have hget : ∀ i, i < n → (vtab n f')[i]? = some (f' i) := by
            intro i hi; rw [List.getElem?_eq_getElem (by simpa using hi)]; simp
          refine ⟨n, s1, k, xs, s2, rfl, rfl, by simp, h2, h3, h4, ?_, ?_, ?_⟩
          · intro i hi; rw [hget i (by omega), h5 i hi]
          · intro i hi hin; rw [hget i hin, h6 i hi hin]
          · intro hf
            have hk : k = n := by
              rcases Nat.lt_or_ge k n with hlt | hge
              · rw [h7 hlt] at hf; exact absurd hf (by simp)
              · omega
            subst hk
            refine ⟨rfl, ?_, h8 rfl⟩
            apply List.ext_getElem?
            intro i
            rcases Nat.lt_or_ge i k with hi | hi
            · rw [hget i hi, h5 i hi]
            · rw [List.getElem?_eq_none (by simpa using hi), List.getElem?_eq_none (by omega)]
        · simp [vresize, hn] at h
    · left
      simp only [readVec, hr, ne_eq, ht, not_false_eq_true, if_true] at h
      have h1 := (Prod.mk.inj (Res.ok.inj h)).2
      exact ⟨h1.symm, t, rfl, ht⟩

/-- C68 (partial): the same for matrices, in row order. -/
theorem C68_matrix_partial [Zero T] (c : Codec T) (hc : c.Sane) (s : IStream) {old : Mat T} (hold : old.WF)
    {s' : IStream} {B : Mat T} (h : readMat c s old = .ok (s', B)) :
    (B = old ∧ ∃ t, (readChar s).1 = some t ∧ t ≠ 'M') ∨
    ∃ n m sn s1, (readChar s).1 = some 'M' ∧ sizeCodec.read (readChar s).2 = (some n, sn) ∧
      sizeCodec.read sn = (some m, s1) ∧ (Fits n m → ∃ k xs s2 f, B.Holds n m f ∧ k ≤ n * m ∧ xs.length = k ∧
      Took c s1 xs s2 ∧
      (∀ i j, i < n → j < m → i * m + j < k → xs[i * m + j]? = some (f i j)) ∧
      (∀ i j, i < n → j < m → k < i * m + j →
        f i j = if i < old.rows ∧ j < old.cols then old.data.getD (i * old.cols + j) 0 else 0) ∧
      (s'.fail = false → k = n * m ∧ s' = s2)) := by
  rcases hr : readChar s with ⟨o, s0⟩
  cases o with
  | none => simp [readMat, hr] at h
  | some t =>
    by_cases ht : t = 'M'
    · subst ht
      right
      rcases hz : sizeCodec.read s0 with ⟨o, sn⟩
      cases o with
      | none => simp [readMat, hr, hz] at h
      | some n =>
        rcases hz' : sizeCodec.read sn with ⟨o, s1⟩
        cases o with
        | none => simp [readMat, hr, hz, hz'] at h
        | some m =>
          refine ⟨n, m, sn, s1, rfl, rfl, hz', ?_⟩
          intro hf
          simp only [readMat, hr, hz, hz', ne_eq, not_true_eq_false, if_false] at h
          obtain ⟨e0, he0⟩ : ∃ e0, e0 = fun r k => old.data.getD (r * old.cols + k) 0 := ⟨_, rfl⟩
          have hold' : old = Mat.ofFn old.rows old.cols e0 := by rw [he0]; exact WF.eq_ofFn hold 0
          have hres : old.resize n m = .ok (Mat.ofFn n m fun r c => if r < old.rows ∧ c < old.cols then e0 r c else 0) := by
            conv_lhs => rw [hold']
            exact Mat.resize_eq hold.2 hf
          rw [hres, Res.ok_bind] at h
          simp only [ofFn_rows, ofFn_cols] at h
          rw [forRange_nested n m _ (fun r k q => readEntry c r k q)] at h
          obtain ⟨s3, f', k, xs, s2, h1, h2, h3, h4, h5, h6, h7, h8⟩ := readLoop hc (N := n * m)
            (fun f => Mat.ofFn n m fun r c => f (r * m + c))
            (body := fun k q => readEntry c (k / m) (k % m) q)
            (by intro k f s s' _ hk; simp only [readEntry, hk])
            (by
              intro k f s s' x hkn hk
              obtain ⟨a1, a2, a3⟩ := lin_of_lt hkn
              simp only [readEntry, hk, ofFn_setAt hf a1 a2, Res.ok_bind, Res.pure_eq]
              congr 2
              apply ofFn_congr
              intro r j hr hj
              by_cases hrj : r = k / m ∧ j = k % m
              · rw [hrj.1, hrj.2, upd_same, a3, Function.update_self]
              · rw [upd_ne _ _ hrj, Function.update_of_ne]
                intro he
                apply hrj
                rw [← he, lin_div hj, lin_mod hj]
                exact ⟨rfl, rfl⟩)
            s1 (fun k => if k / m < old.rows ∧ k % m < old.cols then e0 (k / m) (k % m) else 0)
          have hst : (Mat.ofFn n m fun r c => if r < old.rows ∧ c < old.cols then e0 r c else 0) =
              Mat.ofFn n m fun r c => (fun k => if k / m < old.rows ∧ k % m < old.cols then e0 (k / m) (k % m) else 0)
                (r * m + c) := by
            apply ofFn_congr
            intro r j hr hj
            simp only [lin_div hj, lin_mod hj]
          rw [hst, h1] at h
          obtain ⟨e1, e2⟩ := Prod.mk.inj (Res.ok.inj h)
          subst e1 e2
          refine ⟨k, xs, s2, fun r c => f' (r * m + c), ⟨ofFn_WF hf _, ofFn_rep hf _⟩, h2, h3, h4, ?_, ?_, ?_⟩
          · intro i j _ _ hlt; exact h5 _ hlt
          · intro i j hi hj hlt
            have := h6 _ hlt (lin_lt hi hj)
            dsimp only at this ⊢
            rw [this, he0]
            simp only [lin_div hj, lin_mod hj]
          · intro hfl
            have hk : k = n * m := by
              rcases Nat.lt_or_ge k (n * m) with hlt | hge
              · rw [h7 hlt] at hfl; exact absurd hfl (by simp)
              · omega
            exact ⟨hk, h8 hk⟩
    · left
      simp only [readMat, hr, ne_eq, ht, not_false_eq_true, if_true] at h
      have h1 := (Prod.mk.inj (Res.ok.inj h)).2
      exact ⟨h1.symm, t, rfl, ht⟩

example : readVec (intCodec (-99) 99) (.start "V 3\n1 x 3\n".toList) [7, 8, 9] =
    .ok (⟨"x 3\n".toList, false, true⟩, [1, 0, 9]) := by decide +kernel

/-- C68: a vector file that ends after `k < n` whole elements leaves the stream failed, the first `k` elements new and
the others as `resize` left them. -/
theorem C68_cut_between [Zero T] (c : Codec T) (old : List T) {n k : Nat} (hn : n < allocMax) (hk : k < n) (x : Nat → T)
    (hx : ∀ i, i < k → c.Reads (x i)) (gaps : Nat → List Char)
    (hg : ∀ i, AllSpace (gaps i) ∧ gaps i ≠ []) (fin : List Char) (hfin : AllSpace fin ∧ fin ≠ []) :
    readVec c (.start ("V ".toList ++ fmtNat n ++
      ((List.range k).flatMap fun i => gaps i ++ c.fmt (x i)) ++ fin)) old =
      .ok (⟨[], true, true⟩, vtab n fun i => if i < k then x i else old.getD i 0) := by
  have hsp : ∀ {l : List Char}, AllSpace l → l ≠ [] → ∃ d t, l = d :: t ∧ isSpace d = true := by
    intro l h1 h2
    cases l with
    | nil => exact absurd rfl h2
    | cons d t => exact ⟨d, t, rfl, h1 d (by simp)⟩
  have hrem : ((List.range k).flatMap fun i => gaps i ++ c.fmt (x i)) ++ fin = remain c.fmt gaps x fin k 0 := by
    simp [remain]
  obtain ⟨d, t, h1, h2⟩ := remain_head (x := x) (n := k) c.fmt (Nat.zero_le k) (fun i => hsp (hg i).1 (hg i).2)
    (hsp hfin.1 hfin.2)
  have hshape : "V ".toList ++ fmtNat n ++ ((List.range k).flatMap fun i => gaps i ++ c.fmt (x i)) ++ fin =
      [] ++ 'V' :: ' ' :: (fmtNat n ++ d :: t) := by
    rw [← h1, ← hrem]; simp
  rw [IStream.start, hshape, readVec_head (by intro c hc; simp at hc) (lt_trans hn allocMax_lt_W) h2, ← h1]
  obtain ⟨u, hu1, hu2, hu3⟩ := vresize_length (v := old) hn
  have hu : u = vtab n (fun i => old.getD i 0) := by
    rw [list_eq_vtab_getD u 0, hu2]
    apply vtab_congr; intro i hi
    rw [List.getD_eq_getElem?_getD, hu3 i hi]; rfl
  rw [hu1, Res.ok_bind, hu2, hu, forRange_append (Nat.zero_le k) (le_of_lt hk)]
  rw [forRange_eq (Nat.zero_le k) (fun j =>
      ((⟨remain c.fmt gaps x fin k j, false, false⟩ : IStream), vtab n fun i => if i < j then x i else old.getD i 0))]
  · rw [Res.ok_bind, remain_last]
    rw [forRange_eq (le_of_lt hk) (fun j =>
      ((if j = k then ⟨fin, false, false⟩ else ⟨[], true, true⟩ : IStream),
        vtab n fun i => if i < k then x i else old.getD i 0))]
    · rw [if_neg (by omega)]
    · simp
    · intro i hi _
      have hread : c.read (if i = k then ⟨fin, false, false⟩ else ⟨[], true, true⟩) = (none, ⟨[], true, true⟩) := by
        by_cases hik : i = k
        · rw [if_pos hik]
          have : fin.dropWhile isSpace = [] := by
            have := dropWhile_space (l := []) hfin.1
            simpa using this
          simp [Codec.read, sentry, this]
        · rw [if_neg hik]; simp [Codec.read, sentry]
      simp only [readItem]
      rw [hread, if_neg (by omega)]
  · simp
  · intro i _ hi
    simp only [readItem]
    rw [read_remain hi (fun i => (hg i).1) (fun i => hsp (hg i).1 (hg i).2) (hsp hfin.1 hfin.2) (hx i hi)]
    dsimp only
    rw [vset_vtab (by omega), Res.ok_bind, Res.pure_eq]
    congr 2
    apply vtab_congr; intro j hj
    simp only [Function.update_apply]
    by_cases hki : j = i
    · subst hki; simp
    · have : j < i + 1 ↔ j < i := by omega
      simp [hki, this]

example : readVec (intCodec (-99) 99) (.start "V 3\n1 2\n".toList) [7] = .ok (⟨[], true, true⟩, [1, 2, 0]) := by
  decide +kernel

/-- C68 violated: an empty file, or one with white space only, makes the reader look at an uninitialised tag. -/
theorem C68_empty_false [Zero T] (c : Codec T) (v : List T) (A : Mat T) (ws : List Char) (hws : AllSpace ws) :
    readVec c (.start ws) v = .ub .uninit ∧ readMat c (.start ws) A = .ub .uninit := by
  have h1 : ws.dropWhile isSpace = [] := by
    have := dropWhile_space (l := []) hws
    simpa using this
  have h2 : readChar (.start ws) = (none, ⟨[], true, true⟩) := by simp [readChar, sentry, IStream.start, h1]
  constructor
  · simp only [readVec, h2]
  · simp only [readMat, h2]

/-- C68 violated: the same happens on a stream that has failed before, for example because the file could not be opened. -/
theorem C68_failed_stream_false [Zero T] (c : Codec T) (v : List T) (A : Mat T) (s : IStream) (hs : s.fail = true) :
    readVec c s v = .ub .uninit ∧ readMat c s A = .ub .uninit := by
  have h2 : readChar s = (none, { s with fail := true }) := by simp [readChar, sentry_fail hs]
  constructor
  · simp only [readVec, h2]
  · simp only [readMat, h2]

/-- C68 violated: a file that ends after the tag makes the reader resize the target to an uninitialised size. -/
theorem C68_no_size_false :
    readVec (intCodec (-9) 9) (.start "V\n".toList) [1, 2] = .ub .uninit ∧
    readMat (intCodec (-9) 9) (.start "M 2\n".toList) ⟨1, 1, [1]⟩ = .ub .uninit := by decide +kernel

/-- C68 violated: a truncated file leaves a target that mixes the old and the new data. -/
theorem C68_mixing_false :
    readVec (intCodec (-9) 9) (.start "V 3\n1 2\n".toList) [7, 8, 9] = .ok (⟨[], true, true⟩, [1, 2, 9]) ∧
    readMat (intCodec (-9) 9) (.start "M 2 2\n1\n".toList) ⟨2, 2, [6, 7, 8, 9]⟩ =
      .ok (⟨[], true, true⟩, ⟨2, 2, [1, 7, 8, 9]⟩) := by decide +kernel

/-- C68 violated: a file cut inside its last number is accepted with a wrong value; the stream does not fail. -/
theorem C68_cut_number_false :
    writeVec fmtInt fmtInt [12] = .ok ("V 1\n1".toList ++ "2\n".toList) ∧
    readVec (intCodec (-99) 99) (.start "V 1\n1".toList) [7] = .ok (⟨[], true, false⟩, [1]) := by decide +kernel

/-- C68 violated: a foreign text that happens to start with the tag letter empties the target. -/
theorem C68_foreign_text_false :
    readVec (intCodec (-9) 9) (.start "Version two\n".toList) [7, 8] =
      .ok (⟨"ersion two\n".toList, false, true⟩, []) := by decide +kernel

/-- C68 violated: a negative size is taken modulo `2^64`, one that does not fit becomes `2^64 - 1`, and the allocation fails unchecked. -/
theorem C68_negative_size_false :
    readVec (intCodec (-9) 9) (.start "V -1\n5\n".toList) [7, 8] = .ub .allocFail ∧
    readVec (intCodec (-9) 9) (.start "V 99999999999999999999\n5\n".toList) [7, 8] = .ub .allocFail := by decide +kernel

/-! ## C69 -/

/-- The text of a table: rows separated by newlines, entries by one blank, every entry padded to `w` characters. -/
def tableText (w : Nat) (fmt : T → List Char) (n m : Nat) (e : Nat → Nat → T) : List Char :=
  ['\n'].intercalate ((List.range n).map fun r =>
    [' '].intercalate ((List.range m).map fun c => List.replicate (w - (fmt (e r c)).length) ' ' ++ fmt (e r c)))

/-- C69 (partial): vectors are printed on one line, each entry padded to the longest. Missing: streams with other format
flags, for which this fails (`C69_flags_false`). -/
theorem C69_print_vector_partial (fmt : T → List Char) {v : List T} {n : Nat} {x : Nat → T} (h : VRep v n x) :
    ∃ w, (∀ i, i < n → (fmt (x i)).length ≤ w) ∧ (w = 0 ∨ ∃ i, i < n ∧ (fmt (x i)).length = w) ∧
      printVec fmt fmt v = .ok (tableText w fmt 1 n fun _ i => x i) := by
  obtain ⟨w, h1, h2, _⟩ := printVec_eq (fmtM := fmt) (fmt := fmt) h
  refine ⟨w, h1.1, h1.2, ?_⟩
  rw [h2]
  simp only [tableText, List.range_one, List.map_cons, List.map_nil, List.intercalate_singleton]
  rfl

/-- `w` is the length of the longest text of an entry. -/
def Longest (fmt : T → List Char) (n m : Nat) (e : Nat → Nat → T) (w : Nat) : Prop :=
  (∀ i j, i < n → j < m → (fmt (e i j)).length ≤ w) ∧ (w = 0 ∨ ∃ i j, i < n ∧ j < m ∧ (fmt (e i j)).length = w)

/-- C69: matrices and views are printed row by row with the format of the stream, each entry padded to the longest one in the
default format. -/
theorem C69_print_matrix (fmtM fmt : T → List Char) {b : MB T} {n m : Nat} {e} (h : Rep b n m e) :
    ∃ w, Longest fmtM n m e w ∧ printMat fmtM fmt b = .ok (tableText w fmt n m e) := by
  obtain ⟨w, h1, h2, h3⟩ := longestMat_ok (fmtM := fmtM) h
  refine ⟨w, ⟨?_, ?_⟩, ?_⟩
  · intro i j hi hj
    have := h2 (i * m + j) (lin_lt hi hj)
    simpa only [lin_div hj, lin_mod hj] using this
  · rcases h3 with h3 | ⟨i, hi, h3⟩
    · exact Or.inl h3
    · obtain ⟨a1, a2, _⟩ := lin_of_lt hi
      exact Or.inr ⟨_, _, a1, a2, h3⟩
  · simp only [printMat, h1, Res.ok_bind]
    exact printRows_eq h.toRepAt w

/-- C69 (partial): so in the default format each entry is padded to the longest. Missing: other format flags
(`C69_flags_false`) and cofactor views that are not square (`C69_cofactor_false`). -/
theorem C69_print_matrix_partial (fmt : T → List Char) {b : MB T} {n m : Nat} {e} (h : Rep b n m e) :
    ∃ w, (∀ i j, i < n → j < m → (fmt (e i j)).length ≤ w) ∧
      (w = 0 ∨ ∃ i j, i < n ∧ j < m ∧ (fmt (e i j)).length = w) ∧
      printMat fmt fmt b = .ok (tableText w fmt n m e) := by
  obtain ⟨w, ⟨h1, h2⟩, h3⟩ := C69_print_matrix fmt fmt h
  exact ⟨w, h1, h2, h3⟩

/-- C69: `to_matlab` of a vector. -/
theorem C69_matlab_vector (fmt : T → List Char) (name : List Char) {v : List T} {n : Nat} {x : Nat → T} (h : VRep v n x) :
    matlabVec fmt name v = .ok (name ++ " = [".toList ++ [' '].intercalate ((List.range n).map fun i => fmt (x i)) ++
      "]".toList) := by
  obtain ⟨h1, h2, h3⟩ := h
  simp only [matlabVec, h2]
  rw [sepLoop (lt_trans h1 allocMax_lt_W) [' '] _ (cell := fun i => fmt (x i))]
  · rfl
  · intro i o hi; simp only [vget_ok_iff.2 (h3 i hi), Res.ok_bind, Res.pure_eq]

/-- C69: `to_matlab` of a matrix or view (also of those that only support access by row and column). -/
theorem C69_matlab_matrix (fmt : T → List Char) (name : List Char) {b : MB T} {n m : Nat} {e} (h : RepAt b n m e) :
    matlabMat fmt name b = .ok (name ++ " = [".toList ++ ((List.range n).flatMap fun r =>
      "[".toList ++ [' '].intercalate ((List.range m).map fun c => fmt (e r c)) ++ "];".toList) ++ "]".toList) := by
  simp only [matlabMat, h.rows, h.cols]
  rw [forRange_eq (Nat.zero_le n) (fun k => name ++ " = [".toList ++ ((List.range k).flatMap fun r =>
      "[".toList ++ [' '].intercalate ((List.range m).map fun c => fmt (e r c)) ++ "];".toList))]
  · rfl
  · simp
  · intro r _ hr
    rw [sepLoop h.fits.2.2 [' '] _ (cell := fun c => fmt (e r c))]
    · rw [Res.ok_bind, Res.pure_eq]
      congr 1
      rw [List.range_succ, List.flatMap_append]
      simp [vtab]
    · intro c o hc; simp only [h.get r c hr hc, Res.ok_bind, Res.pure_eq]

/-- C69: `dump_vector` and `dump_matrix` put the name in front of the printed text. -/
theorem C69_dump (fmt : T → List Char) (name : List Char) (v : List T) (b : MB T) {tv tb : List Char}
    (hv : printVec fmt fmt v = .ok tv) (hb : printMat fmt fmt b = .ok tb) :
    dumpVec fmt name v = .ok (name ++ " = ".toList ++ tv) ∧ dumpMat fmt name b = .ok (name ++ " = \n".toList ++ tb) := by
  constructor
  · simp only [dumpVec, hv, Res.ok_bind, Res.pure_eq]
  · simp only [dumpMat, hb, Res.ok_bind, Res.pure_eq]

/-- C69: a state space model prints its four matrices as tables. -/
theorem C69_state_space (fmtM fmt : T → List Char) {sys : StateSpace T} {n p q : Nat} {a b c d}
    (hA : Rep sys.A.toMB n n a) (hB : Rep sys.B.toMB n p b) (hC : Rep sys.C.toMB q n c) (hD : Rep sys.D.toMB q p d) :
    ∃ wa wb wc wd, Longest fmtM n n a wa ∧ Longest fmtM n p b wb ∧ Longest fmtM q n c wc ∧ Longest fmtM q p d wd ∧
      printStateSpace fmtM fmt sys =
      .ok ("A =\n".toList ++ tableText wa fmt n n a ++ "\nB =\n".toList ++ tableText wb fmt n p b ++
        "\nC =\n".toList ++ tableText wc fmt q n c ++ "\nD =\n".toList ++ tableText wd fmt q p d ++
        "\nContinuous-time state-space model.\n".toList) := by
  obtain ⟨wa, la, ea⟩ := C69_print_matrix fmtM fmt hA
  obtain ⟨wb, lb, eb⟩ := C69_print_matrix fmtM fmt hB
  obtain ⟨wc, lc, ec⟩ := C69_print_matrix fmtM fmt hC
  obtain ⟨wd, ld, ed⟩ := C69_print_matrix fmtM fmt hD
  exact ⟨wa, wb, wc, wd, la, lb, lc, ld, by simp only [printStateSpace, ea, eb, ec, ed, Res.ok_bind, Res.pure_eq]⟩

/-- C69: a discrete time model prints the same four tables and then its sample time, in the format of the stream. -/
theorem C69_discrete (fmtM fmt : T → List Char) {sys : DiscreteStateSpace T} {n p q : Nat} {a b c d}
    (hA : Rep sys.A.toMB n n a) (hB : Rep sys.B.toMB n p b) (hC : Rep sys.C.toMB q n c) (hD : Rep sys.D.toMB q p d) :
    ∃ wa wb wc wd, Longest fmtM n n a wa ∧ Longest fmtM n p b wb ∧ Longest fmtM q n c wc ∧ Longest fmtM q p d wd ∧
      printDiscrete fmtM fmt sys =
      .ok ("A =\n".toList ++ tableText wa fmt n n a ++ "\nB =\n".toList ++ tableText wb fmt n p b ++
        "\nC =\n".toList ++ tableText wc fmt q n c ++ "\nD =\n".toList ++ tableText wd fmt q p d ++
        "\nSample time: ".toList ++ fmt sys.sampleTime ++ " seconds\nDiscrete-time state-space model.\n".toList) := by
  obtain ⟨wa, la, ea⟩ := C69_print_matrix fmtM fmt hA
  obtain ⟨wb, lb, eb⟩ := C69_print_matrix fmtM fmt hB
  obtain ⟨wc, lc, ec⟩ := C69_print_matrix fmtM fmt hC
  obtain ⟨wd, ld, ed⟩ := C69_print_matrix fmtM fmt hD
  exact ⟨wa, wb, wc, wd, la, lb, lc, ld, by simp only [printDiscrete, ea, eb, ec, ed, Res.ok_bind, Res.pure_eq]⟩

/-- C69: the text of a range names its two ends: `[`, the first, `, `, the second and `]`. -/
theorem C69_range (r : Range) : ∃ a b, printRange r = "[".toList ++ a ++ ", ".toList ++ b ++ "]".toList ∧
    (∀ c ∈ a ++ b, isDigit c = true) ∧ natOf a = r.start ∧ natOf b = r.stop := by
  refine ⟨fmtNat r.start, fmtNat r.stop, rfl, ?_, natOf_fmtNat _, natOf_fmtNat _⟩
  intro c hc
  rcases List.mem_append.1 hc with h | h
  · exact fmtNat_digits _ c h
  · exact fmtNat_digits _ c h

/-- C69: `Range::all()` is printed with the largest size. -/
theorem C69_range_all : ∃ b, printRange .all = "[0, ".toList ++ b ++ "]".toList ∧ (∀ c ∈ b, isDigit c = true) ∧ natOf b = 2 ^ 64 - 1 :=
  ⟨fmtNat (W - 1), rfl, fmtNat_digits _, by rw [natOf_fmtNat, W_eq]⟩

/-- C69: `to_matlab` writes a complex number as its real part, the sign of its imaginary part, the digits of that and
`i`. -/
theorem C69_matlab_complex (z : Int × Int) : ∃ sre re im, (∀ c ∈ re ++ im, isDigit c = true) ∧
    matlabComplex fmtInt z = sre ++ re ++ (if z.2 < 0 then "-".toList else "+".toList) ++ im ++ "i".toList ∧
    sre = (if z.1 < 0 then "-".toList else []) ∧ natOf re = z.1.natAbs ∧ natOf im = z.2.natAbs := by
  refine ⟨_, fmtNat z.1.natAbs, fmtNat z.2.natAbs, ?_, ?_, rfl, natOf_fmtNat _, natOf_fmtNat _⟩
  · intro c hc
    rcases List.mem_append.1 hc with h | h
    · exact fmtNat_digits _ c h
    · exact fmtNat_digits _ c h
  · unfold matlabComplex showpos fmtInt
    split <;> split <;> simp

example : printVec fmtInt fmtInt [1, -20, 3] = .ok "  1 -20   3".toList := by decide +kernel
example : printVec fmtInt fmtInt [] = .ok [] := by decide +kernel
example : printMat fmtInt fmtInt (⟨2, 2, [1, -20, 3, 4]⟩ : Mat Int).toMB = .ok "  1 -20\n  3   4".toList := by
  decide +kernel
example : tableText 3 fmtInt 2 2 (fun i j => [[1, -20], [3, 4]].getD i [] |>.getD j 0) =
    "  1 -20\n  3   4".toList := by decide +kernel
example : matlabMat fmtInt "A".toList (⟨2, 2, [1, -20, 3, 4]⟩ : Mat Int).toMB = .ok "A = [[1 -20];[3 4];]".toList := by
  decide +kernel
example : matlabMat (matlabComplex fmtInt) "A".toList (⟨1, 2, [(1, 2), (0, -3)]⟩ : Mat (Int × Int)).toMB =
    .ok "A = [[1+2i 0-3i];]".toList := by decide +kernel
example : matlabMat fmtInt "A".toList (⟨2, 0, []⟩ : Mat Int).toMB = .ok "A = [[];[];]".toList := by decide +kernel
example : dumpMat fmtInt "A".toList (⟨2, 1, [5, 10]⟩ : Mat Int).toMB = .ok "A = \n 5\n10".toList := by decide +kernel
example : printDiscrete fmtInt fmtInt ⟨⟨⟨1, 1, [1]⟩, ⟨1, 1, [-20]⟩, ⟨1, 1, [3]⟩, ⟨1, 1, [4]⟩⟩, 5⟩ =
    .ok "A =\n1\nB =\n-20\nC =\n3\nD =\n4\nSample time: 5 seconds\nDiscrete-time state-space model.\n".toList := by
  decide +kernel
example : printRange ⟨3, 17⟩ = "[3, 17]".toList := by decide +kernel

/-- C69 violated: the padding is measured without the format flags of the stream, so with `std::showpos` the columns are
not padded to the longest entry. -/
theorem C69_flags_false :
    printMat fmtInt (showpos fmtInt) (⟨2, 1, [1, 10]⟩ : Mat Int).toMB = .ok "+1\n+10".toList ∧
    ¬ ∃ w, (∀ x ∈ [1, 10], (showpos fmtInt x).length ≤ w) ∧
      "+1\n+10".toList = tableText w (showpos fmtInt) 2 1 (fun i _ => [1, 10].getD i 0) := by
  refine ⟨by decide +kernel, ?_⟩
  rintro ⟨w, h1, h2⟩
  have h3 : 3 ≤ w := h1 10 (by simp)
  have h4 := congrArg List.length h2
  have e1 : (showpos fmtInt 1).length = 2 := by decide +kernel
  have e2 : (showpos fmtInt 10).length = 3 := by decide +kernel
  have e3 : (showpos fmtInt ([1, 10].getD 0 0)).length = 2 := by decide +kernel
  have e4 : (showpos fmtInt ([1, 10].getD 1 0)).length = 3 := by decide +kernel
  have h5 : (tableText w (showpos fmtInt) 2 1 (fun i _ => [1, 10].getD i 0)).length = (w - 2 + 2) + 1 + (w - 3 + 3) := by
    have : List.range 2 = [0, 1] := by decide +kernel
    simp only [tableText, this, List.range_one, List.map_cons, List.map_nil, List.intercalate_cons_cons,
      List.intercalate_singleton, List.length_append, List.length_replicate, e3, e4, List.length_singleton]
  rw [h5] at h4
  have h6 : "+1\n+10".toList.length = 6 := by decide +kernel
  omega

/-- C69 violated: printing a cofactor view that is not square reads outside the matrix. -/
theorem C69_cofactor_false :
    printMat fmtInt fmtInt ((⟨2, 4, [1, 2, 3, 4, 5, 6, 7, 8]⟩ : Mat Int).toMB.cofactor 0 0) = .ub .oob := by
  decide +kernel

end Malg
