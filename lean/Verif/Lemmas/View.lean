import Verif.Lemmas.Mat
import Verif.Model.View
/-!
# Views as sub-tables, references as address maps
-/
namespace Malg
variable {T : Type} {S : Type}

theorem view_lin_of_cols {b : MB T} {row col : Range} {pos : Nat} (h : (b.view row col).cols ≠ 0) :
    (b.view row col).lin pos = (b.view row col).at_ (pos / (b.view row col).cols) (pos % (b.view row col).cols) := by
  show (if (b.view row col).cols = 0 then _ else _) = _
  rw [if_neg h]; rfl

/-- Dimensions of a view whose ranges start inside. -/
theorem view_rows {b : MB T} {row col : Range} {n : Nat} (hn : b.rows = n) (hW : n < W)
    (h1 : row.start ≤ n) (h2 : row.start ≤ row.stop) :
    (b.view row col).rows = min row.stop n - row.start := by
  subst hn; exact wsub_eq (by omega) (by omega)

theorem view_cols {b : MB T} {row col : Range} {m : Nat} (hm : b.cols = m) (hW : m < W)
    (h1 : col.start ≤ m) (h2 : col.start ≤ col.stop) :
    (b.view row col).cols = min col.stop m - col.start := by
  subst hm; exact wsub_eq (by omega) (by omega)

theorem view_repAt {b : MB T} {n m : Nat} {e} (h : RepAt b n m e) {row col : Range}
    (hr : row.start ≤ n) (hr' : row.start ≤ row.stop) (hc : col.start ≤ m) (hc' : col.start ≤ col.stop) :
    Rep (b.view row col) (min row.stop n - row.start) (min col.stop m - col.start)
      (fun r c => e (row.start + r) (col.start + c)) := by
  have hrows := view_rows (b := b) (col := col) h.rows h.fits.2.1 hr hr'
  have hcols := view_cols (b := b) (row := row) h.cols h.fits.2.2 hc hc'
  have hf : Fits (min row.stop n - row.start) (min col.stop m - col.start) :=
    h.fits.mono (by omega) (by omega)
  have hat : ∀ r c, r < min row.stop n - row.start → c < min col.stop m - col.start →
      (b.view row col).at_ r c = .ok (e (row.start + r) (col.start + c)) := by
    intro r c h1 h2
    show b.at_ (wadd row.start r) (wadd col.start c) = _
    have := h.fits.2.1
    have := h.fits.2.2
    rw [wadd_eq (by omega), wadd_eq (by omega)]
    exact h.get _ _ (by omega) (by omega)
  refine ⟨⟨hf, hrows, hcols, ?_, hat⟩, ?_⟩
  · show wmul (b.view row col).rows (b.view row col).cols = _
    rw [hrows, hcols, hf.wmul]
  · intro r c h1 h2
    rw [view_lin_of_cols (by rw [hcols]; omega), hcols, lin_div h2, lin_mod h2]
    exact hat r c h1 h2

/-- The row/column that a cofactor view maps to. -/
def skip (k r : Nat) : Nat := if r < k then r else r + 1

theorem skip_lt {k r n : Nat} (h : r < n - 1) : skip k r < n := by unfold skip; split <;> omega

theorem skip_inj {k r r' : Nat} (h : skip k r = skip k r') : r = r' := by
  unfold skip at h; split at h <;> split at h <;> omega

theorem wadd_skip {k r n : Nat} (hr : r < n - 1) (hn : n < W) :
    wadd r (if r ≥ k then 1 else 0) = skip k r := by
  unfold skip
  by_cases h : r < k
  · rw [if_neg (by omega), if_pos h, wadd_eq (by omega)]; rfl
  · rw [if_pos (by omega), if_neg h, wadd_eq (by omega)]

theorem cofactor_repAt {b : MB T} {n m : Nat} {e} (h : RepAt b n m e) (hn : 0 < n) (hm : 0 < m)
    (p q : Nat) : RepAt (b.cofactor p q) (n - 1) (m - 1) (fun r c => e (skip p r) (skip q c)) := by
  have hrows : (b.cofactor p q).rows = n - 1 := by
    show wsub b.rows 1 = _; rw [h.rows, wsub_eq hn h.fits.2.1]
  have hcols : (b.cofactor p q).cols = m - 1 := by
    show wsub b.cols 1 = _; rw [h.cols, wsub_eq hm h.fits.2.2]
  have hf : Fits (n - 1) (m - 1) := h.fits.mono (by omega) (by omega)
  refine ⟨hf, hrows, hcols, ?_, ?_⟩
  · show wmul (b.cofactor p q).rows (b.cofactor p q).cols = _
    rw [hrows, hcols, hf.wmul]
  · intro r c h1 h2
    show b.at_ (wadd r (if r ≥ p then 1 else 0)) (wadd c (if c ≥ q then 1 else 0)) = _
    rw [wadd_skip h1 h.fits.2.1, wadd_skip h2 h.fits.2.2]
    exact h.get _ _ (skip_lt h1) (skip_lt h2)

theorem cofactor_lin {b : MB T} {p q pos : Nat} (h : (b.cofactor p q).rows ≠ 0) :
    (b.cofactor p q).lin pos =
      (b.cofactor p q).at_ (pos / (b.cofactor p q).rows) (pos % (b.cofactor p q).rows) := by
  show (if (b.cofactor p q).rows = 0 then _ else _) = _
  rw [if_neg h]; rfl

/-- On a square matrix linear access is right as well. -/
theorem cofactor_rep {b : MB T} {n : Nat} {e} (h : RepAt b n n e) (hn : 0 < n) (p q : Nat) :
    Rep (b.cofactor p q) (n - 1) (n - 1) (fun r c => e (skip p r) (skip q c)) := by
  have h1 := cofactor_repAt h hn hn p q
  refine ⟨h1, fun r c hr hc => ?_⟩
  rw [cofactor_lin (by rw [h1.rows]; omega), h1.rows, lin_div hc, lin_mod hc]
  exact h1.get r c hr hc

end Malg
