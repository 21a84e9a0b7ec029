import Verif.Props.PatchSplines
import Verif.Props.SplineInterp2D
import Mathlib.Tactic.Linarith

/-!
# C119 in two dimensions: the spline of a rectangular patch is the global tensor-product spline

Specification: `SubRange X' X m n'`: the builder direction `X'` has `n'` cells, and cell `q` of it is the cell `m + q` of the global direction `X`. Either `X'` is Hermite on a part of the break points, or it is `X` itself
(patches which share a whole direction).
-/

namespace Verif.SplineInterp

open Finset Verif.BSpline Verif.SplineQuadrature

noncomputable section

/-- The direction of a patch inside the global direction. -/
inductive SubRange : Direction → Direction → ℕ → ℕ → Prop
  | hermite (n e m n' : ℕ) (b : ℕ → ℝ) (hn : 1 ≤ n') (hm : m + n' ≤ n) (hb : ∀ i < n, b i < b (i + 1)) :
      SubRange (hermiteDir n' (2 * e + 1) fun i => b (m + i)) (hermiteDir n (2 * e + 1) b) m n'
  | points (n e m n' : ℕ) (b : ℕ → ℝ) (q : ℕ → ℕ) (x : ℕ → ℝ) (hn : 1 ≤ n') (hm : m + n' ≤ n) (hb : ∀ i < n, b i < b (i + 1)) :
      SubRange (hermiteDir n' (2 * e + 1) fun i => b (m + i)) (pointsDir n (2 * e + 1) b q x) m n'
  | periodic (n e m n' : ℕ) (b : ℕ → ℝ) (hn : 1 ≤ n') (hm : m + n' ≤ n) (hb : ∀ i < n, b i < b (i + 1)) :
      SubRange (hermiteDir n' (2 * e + 1) fun i => b (m + i)) (periodicDir n (2 * e + 1) b) m n'
  | whole (X : Direction) (n' : ℕ) (hX : Standard X) : SubRange X X 0 n'

/-- One direction: if the patch gets what the global spline has at its points, its spline is the global one on its cells. -/
theorem sub_range_one {X' X : Direction} {m n' : ℕ} (h : SubRange X' X m n') (c c' : ℕ → ℝ)
    (hc : ∀ i < X'.N, X'.row i c' = derivAt X.t X.d X.N (m + X'.cell i) (X'.order i) (X'.pt i) c) (q : ℕ) (hq : q < n') (k : ℕ) (x : ℝ) :
    derivAt X'.t X'.d X'.N q k x c' = derivAt X.t X.d X.N (m + q) k x c := by
  have side : ∀ (n' e : ℕ) (b : ℕ → ℝ) (hn : 1 ≤ n') (X : Direction), (∀ i < n' + (2 * e + 1), (hermiteDir n' (2 * e + 1) fun i => b (m + i)).row i c' =
      derivAt X.t X.d X.N (m + (hermiteDir n' (2 * e + 1) fun i => b (m + i)).cell i) ((hermiteDir n' (2 * e + 1) fun i => b (m + i)).order i) ((hermiteDir n' (2 * e + 1) fun i => b (m + i)).pt i) c) →
      ∃ v dl dr, HermiteInterpolant n' (2 * e + 1) (fun i => b (m + i)) v dl dr c' ∧ (∀ q < n', v q = derivAt X.t X.d X.N (m + q) 0 (b (m + q)) c) ∧ v n' = derivAt X.t X.d X.N (m + n' - 1) 0 (b (m + n')) c ∧
        (∀ k, 1 ≤ k → k ≤ e → dl k = derivAt X.t X.d X.N m k (b m) c) ∧ ∀ k, 1 ≤ k → k ≤ e → dr k = derivAt X.t X.d X.N (m + n' - 1) k (b (m + n')) c := by
    intro n' e b hn X hX
    have e2 : (2 * e + 1) / 2 = e := by omega
    refine ⟨_, _, _, (hermite_rows n' e _ _ c').1 hX, fun q hq => ?_, ?_, fun k h1 h2 => ?_, fun k h1 h2 => ?_⟩ <;> simp only [hermiteDir, e2]
    · rw [if_pos hq, if_pos hq.le, if_pos hq.le]
    · simp only [lt_irrefl, if_false, if_true, le_refl, show m + (n' - 1) = m + n' - 1 by omega]
    · simp only [if_neg (show ¬ n' + k < n' by omega), if_neg (show n' + k ≠ n' by omega), if_neg (show ¬ n' + k ≤ n' by omega), if_pos (show n' + k ≤ n' + e by omega), Nat.add_sub_cancel_left, Nat.add_zero]
    · simp only [if_neg (show ¬ n' + e + k < n' by omega), if_neg (show n' + e + k ≠ n' by omega), if_neg (show ¬ n' + e + k ≤ n' by omega), if_neg (show ¬ n' + e + k ≤ n' + e by omega), show n' + e + k - n' - e = k by omega, show m + (n' - 1) = m + n' - 1 by omega]
  cases h with
  | hermite n e _ _ b hn hm hb =>
    obtain ⟨v, dl, dr, h0, h1, h2, h3, h4⟩ := side n' e b hn _ hc
    exact c119_restrict hn hm hb c h0 h1 h2 h3 h4 q hq k x
  | points n e _ _ b r y hn hm hb =>
    obtain ⟨v, dl, dr, h0, h1, h2, h3, h4⟩ := side n' e b hn _ hc
    exact c119_restrict hn hm hb c h0 h1 h2 h3 h4 q hq k x
  | periodic n e _ _ b hn hm hb =>
    obtain ⟨v, dl, dr, h0, h1, h2, h3, h4⟩ := side n' e b hn _ hc
    exact c119_restrict_periodic hn hm hb c h0 h1 h2 h3 h4 q hq k x
  | whole _ _ hX =>
    obtain ⟨c0, -, hu⟩ := one_solution hX (fun i => X'.row i c)
    have e1 := hu c fun i _ => rfl
    have e2 := hu c' fun i hi => by rw [hc i hi, Nat.zero_add]; rfl
    rw [Nat.zero_add]
    exact derivAt_congr _ _ _ _ _ _ hX.pos fun j hj => (e2 j hj).trans (e1 j hj).symm

theorem deriv2_swap (X Y : Direction) (q1 k1 : ℕ) (x1 : ℝ) (q2 k2 : ℕ) (x2 : ℝ) (c : ℕ → ℕ → ℝ) :
    deriv2 X Y q1 k1 x1 q2 k2 x2 c = derivAt Y.t Y.d Y.N q2 k2 x2 (fun l => derivAt X.t X.d X.N q1 k1 x1 (fun j => c j l)) := by
  simp only [deriv2, derivAt, sum_mul]
  rw [sum_comm]
  exact sum_congr rfl fun j _ => sum_congr rfl fun l _ => by ring

/-- C119 (two dimensions): a patch is a rectangle of cells of the global grid. If the builder of the patch gets the values, the normal derivatives at the edges and the mixed derivatives at the corners
which the global spline has there, the patch spline is the global spline on the whole patch, with all partial derivatives. -/
theorem c119_restrict_2d {X' X Y' Y : Direction} {m1 n1 m2 n2 : ℕ} (hX : SubRange X' X m1 n1) (hY : SubRange Y' Y m2 n2) (c c' : ℕ → ℕ → ℝ)
    (hc : Interpolant2 X' Y' (fun i l => deriv2 X Y (m1 + X'.cell i) (X'.order i) (X'.pt i) (m2 + Y'.cell l) (Y'.order l) (Y'.pt l) c) c')
    (q1 : ℕ) (h1 : q1 < n1) (q2 : ℕ) (h2 : q2 < n2) (k1 k2 : ℕ) (x1 x2 : ℝ) :
    deriv2 X' Y' q1 k1 x1 q2 k2 x2 c' = deriv2 X Y (m1 + q1) k1 x1 (m2 + q2) k2 x2 c := by
  have first : ∀ l < Y'.N, deriv2 X' Y' q1 k1 x1 (Y'.cell l) (Y'.order l) (Y'.pt l) c' = deriv2 X Y (m1 + q1) k1 x1 (m2 + Y'.cell l) (Y'.order l) (Y'.pt l) c := fun l hl => by
    rw [deriv2_nested, deriv2_nested]
    refine sub_range_one hX _ _ (fun i hi => ?_) q1 h1 k1 x1
    have := hc i hi l hl
    beta_reduce at this
    rw [deriv2_nested, deriv2_nested] at this
    exact this
  rw [deriv2_swap, deriv2_swap]
  refine sub_range_one hY _ _ (fun l hl => ?_) q2 h2 k2 x2
  have := first l hl
  rw [deriv2_swap, deriv2_swap] at this
  exact this

/-- C119 (two dimensions, interfaces): two patches of one global grid with walls, side by side in the first direction, get their data from the global spline. Then on the common edge the splines of the patches agree
in all partial derivatives with an order below the degree in the direction across the edge. -/
theorem c119_smooth_2d {n e m n1 n2 : ℕ} {b : ℕ → ℝ} (hn1 : 1 ≤ n1) (hn2 : 1 ≤ n2) (hm : m + n1 + n2 ≤ n) (hb : ∀ i < n, b i < b (i + 1)) {Y1 Y2 Y : Direction} {k1 l1 k2 l2 : ℕ} (hY1 : SubRange Y1 Y k1 l1) (hY2 : SubRange Y2 Y k2 l2)
    (X X1 X2 : Direction) (hX : X = hermiteDir n (2 * e + 1) b) (hX1 : X1 = hermiteDir n1 (2 * e + 1) fun i => b (m + i)) (hX2 : X2 = hermiteDir n2 (2 * e + 1) fun i => b (m + n1 + i)) (c c1 c2 : ℕ → ℕ → ℝ)
    (hc1 : Interpolant2 X1 Y1 (fun i l => deriv2 X Y (m + X1.cell i) (X1.order i) (X1.pt i) (k1 + Y1.cell l) (Y1.order l) (Y1.pt l) c) c1)
    (hc2 : Interpolant2 X2 Y2 (fun i l => deriv2 X Y (m + n1 + X2.cell i) (X2.order i) (X2.pt i) (k2 + Y2.cell l) (Y2.order l) (Y2.pt l) c) c2)
    (q s : ℕ) (hq : q < l1) (hs : s < l2) (hqs : k1 + q = k2 + s) (i : ℕ) (hi : i ≤ 2 * e) (j : ℕ) (y : ℝ) :
    deriv2 X1 Y1 (n1 - 1) i (b (m + n1)) q j y c1 = deriv2 X2 Y2 0 i (b (m + n1)) s j y c2 := by
  subst hX hX1 hX2
  rw [c119_restrict_2d (.hermite n e m n1 b hn1 (by omega) hb) hY1 c c1 hc1 (n1 - 1) (by omega) q hq, c119_restrict_2d (.hermite n e (m + n1) n2 b hn2 (by omega) hb) hY2 c c2 hc2 0 (by omega) s hs, hqs,
    deriv2_nested, deriv2_nested]
  have key : ∀ p, p + 1 = m + n1 → ∀ c, derivAt (clampedKnots n b) (2 * e + 1) (n + (2 * e + 1)) p i (b (m + n1)) c = derivAt (clampedKnots n b) (2 * e + 1) (n + (2 * e + 1)) (m + n1) i (b (m + n1)) c := fun p hp c => by
    rw [derivAt_eq _ _ _ _ _ _ _ _ (along_eq _ _ p c (by omega)), derivAt_eq _ _ _ _ _ _ _ _ (along_eq _ _ (m + n1) c (by omega)), ← hp]
    exact clamped_smooth hb (along (2 * e + 1) c) p (by omega) i (by omega)
  exact key (m + (n1 - 1)) (by omega) _

/-! ## Non-vacuity -/

/-- A global grid with walls of 7 and a periodic one of 5 cells, cubic, and any global spline: the patch with the cells 2, 3, 4 and the whole periodic direction has exactly one spline with the data of the global one,
and it is the global spline there. -/
example (c : ℕ → ℕ → ℝ) (b : ℕ → ℝ) (hb : b = fun i : ℕ => ((i : ℕ) : ℝ)) :
    ∃ c', ∀ q1 < 3, ∀ q2 < 5, ∀ k1 k2 x1 x2, deriv2 (hermiteDir 3 3 fun i => b (2 + i)) (periodicDir 5 3 b) q1 k1 x1 q2 k2 x2 c' = deriv2 (hermiteDir 7 3 b) (periodicDir 5 3 b) (2 + q1) k1 x1 (0 + q2) k2 x2 c := by
  have hm : ∀ i, b i < b (i + 1) := fun i => by rw [hb]; push_cast; linarith
  have hY : Standard (periodicDir 5 (2 * 1 + 1) b) := .periodic 5 1 b (by norm_num) fun i _ => hm i
  obtain ⟨c', hc, -⟩ := c118_unique (X := hermiteDir 3 (2 * 1 + 1) fun i => b (2 + i)) (.hermite 3 1 (fun i => b (2 + i)) (by norm_num) fun i _ => hm (2 + i)) hY _
  exact ⟨c', fun q1 h1 q2 h2 k1 k2 x1 x2 => c119_restrict_2d (.hermite 7 1 2 3 b (by norm_num) (by norm_num) fun i _ => hm i) (.whole _ 5 hY) c c' hc q1 h1 q2 h2 k1 k2 x1 x2⟩

end

end Verif.SplineInterp
