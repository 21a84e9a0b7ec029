import Verif.Model.SplineQuadrature
import Verif.Props.FemBSplineExamples
import Mathlib.Analysis.SpecialFunctions.Integrals.Basic
import Mathlib.Topology.Algebra.Polynomial

/-!
# C115: spline quadratures integrate the interpolating spline exactly, hence all splines and polynomials

Specification. `∫ x in b 0..b n, s x` is the integral of Mathlib; `IsSpline` says that the function `s` coincides in every cell with the spline of the coefficients `c`.
-/

namespace Verif.SplineQuadrature

open Verif.BSpline Polynomial Finset

/-- `s` is the spline with the coefficients `c`. -/
def IsSpline (n : ℕ) (b : ℕ → ℝ) (t : ℤ → ℝ) (d N : ℕ) (c : ℕ → ℝ) (s : ℝ → ℝ) : Prop := ∀ q < n, ∀ x ∈ Set.Icc (b q) (b (q + 1)), s x = valueAt t d N q x c

/-- The interpolation points are in their cells. -/
def Inside (n : ℕ) (b : ℕ → ℝ) (xs : List (ℕ × ℝ)) : Prop := ∀ qx ∈ xs, qx.1 < n ∧ qx.2 ∈ Set.Icc (b qx.1) (b (qx.1 + 1))

theorem valueAt_eq (t : ℤ → ℝ) (d N q : ℕ) (x : ℝ) (c : ℕ → ℝ) (a : ℤ → ℝ) (h : ∀ j < d + 1, c ((j + q) % N) = a (q - d + j)) : valueAt t d N q x c = (spl t q d a).eval x :=
  value_pt t d N q (x, 0) c a h

theorem sum_unit (N : ℕ) (i : ℕ) (hi : i < N) (c : ℕ → ℝ) : ∑ j ∈ range N, c j * unit j i = c i := by
  rw [sum_eq_single i]
  · simp [unit]
  · intro j _ hj; rw [unit, if_neg (Ne.symm hj), mul_zero]
  · intro h; exact absurd (mem_range.2 hi) h

/-- The rows are linear. -/
theorem row_linear (N d q : ℕ) (hN : 0 < N) (g : ℕ → ℝ) (c : ℕ → ℝ) : ∑ k ∈ range N, c k * (∑ j ∈ range (d + 1), unit k ((j + q) % N) * g j) = ∑ j ∈ range (d + 1), c ((j + q) % N) * g j := by
  simp only [mul_sum]
  rw [sum_comm]
  refine sum_congr rfl fun j _ => ?_
  rw [← sum_unit N ((j + q) % N) (Nat.mod_lt _ hN) c, sum_mul]
  exact sum_congr rfl fun k _ => by ring

/-- What the transposed system means: the coefficients applied to the equations of any spline give the sum of its coefficients times the integrals of the basis functions. -/
theorem adjoint {N : ℕ} {rows : List ((ℕ → ℝ) → ℝ)} {m : ℕ → ℝ} {w : List ℝ} (h : QuadratureCoefficients N rows m w)
    (hlin : ∀ row ∈ rows, ∀ c : ℕ → ℝ, ∑ k ∈ range N, c k * row (unit k) = row c) (c : ℕ → ℝ) :
    (List.zipWith (fun wi row => wi * row c) w rows).sum = ∑ j ∈ range N, c j * m j := by
  have key : ∀ (w : List ℝ) (rows : List ((ℕ → ℝ) → ℝ)), (∀ row ∈ rows, ∀ c : ℕ → ℝ, ∑ k ∈ range N, c k * row (unit k) = row c) →
      (List.zipWith (fun wi row => wi * row c) w rows).sum = ∑ j ∈ range N, c j * (List.zipWith (fun wi row => wi * row (unit j)) w rows).sum := by
    intro w
    induction w with
    | nil => intro rows _; simp
    | cons a w ih =>
      intro rows hl
      cases rows with
      | nil => simp
      | cons r rows =>
        simp only [List.zipWith_cons_cons, List.sum_cons, mul_add, sum_add_distrib]
        rw [← ih rows fun row hr => hl row (List.mem_cons_of_mem _ hr), ← hl r List.mem_cons_self c, mul_sum]
        refine congrArg (· + (List.zipWith (fun wi row => wi * row c) w rows).sum) (sum_congr rfl fun j _ => by ring)
  rw [key w rows hlin]
  exact sum_congr rfl fun j hj => by rw [h.2 j (mem_range.1 hj)]

/-- The integral of a function which is a polynomial in every cell. -/
theorem cells_integral {n : ℕ} {b : ℕ → ℝ} (hb : ∀ i < n, b i < b (i + 1)) (s : ℝ → ℝ) (F : ℕ → ℝ[X]) (hs : ∀ q < n, ∀ x ∈ Set.Icc (b q) (b (q + 1)), s x = (derivative (F q)).eval x) :
    ∫ x in (b 0)..(b n), s x = ∑ q ∈ range n, ((F q).eval (b (q + 1)) - (F q).eval (b q)) := by
  rw [← intervalIntegral.sum_integral_adjacent_intervals]
  · refine sum_congr rfl fun q hq => ?_
    have hq := mem_range.1 hq
    have e : ∫ x in (b q)..(b (q + 1)), s x = ∫ x in (b q)..(b (q + 1)), (derivative (F q)).eval x := by
      refine intervalIntegral.integral_congr fun x hx => ?_
      rw [Set.uIcc_of_le (hb q hq).le] at hx
      exact hs q hq x hx
    rw [e, intervalIntegral.integral_eq_sub_of_hasDerivAt (f := fun x => (F q).eval x) (fun x _ => (F q).hasDerivAt x) ((derivative (F q)).continuous.intervalIntegrable _ _)]
  · intro q hq
    refine ContinuousOn.intervalIntegrable_of_Icc (hb q hq).le ?_
    exact ((derivative (F q)).continuous.continuousOn).congr fun x hx => hs q hq x hx

/-- The integral of a clamped spline. -/
theorem clamped_integral {n d : ℕ} {b : ℕ → ℝ} (hn : 1 ≤ n) (hb : ∀ i < n, b i < b (i + 1)) (c : ℕ → ℝ) (s : ℝ → ℝ) (hs : IsSpline n b (clampedKnots n b) d (n + d) c s) :
    ∑ j ∈ range (n + d), c j * integralsOf (clampedKnots n b) d j = ∫ x in (b 0)..(b n), s x := by
  have tm := clamped_mono hb
  have hcell : ∀ q < n, clampedKnots n b q < clampedKnots n b ((q : ℤ) + 1) := by
    intro q hq
    rw [clamped_cell q (by omega), show (q : ℤ) + 1 = ((q + 1 : ℕ) : ℤ) by push_cast; ring, clamped_cell (q + 1) (by omega)]
    exact hb q hq
  have tb : ∀ q ≤ n, clampedKnots n b ((q : ℕ) : ℤ) = b q := fun q hq => clamped_cell q hq
  have tlow : ∀ i : ℤ, i ≤ 0 → clampedKnots n b i = b 0 := by
    intro i hi
    rw [clampedKnots, show min i.toNat n = 0 by omega]
  have thigh : ∀ i : ℤ, (n : ℤ) ≤ i → clampedKnots n b i = b n := by
    intro i hi
    rw [clampedKnots, show min i.toNat n = n by omega]
  obtain ⟨t, ht⟩ : ∃ t, t = clampedKnots n b := ⟨_, rfl⟩
  rw [← ht] at hs tm hcell tb tlow thigh ⊢
  obtain ⟨A, hA⟩ : ∃ A : ℤ → ℝ, A = fun i : ℤ => ∑ k ∈ range (i + (d : ℤ) + 1).toNat, c k * integralsOf t d k := ⟨_, rfl⟩
  have hder : ∀ q < n, derivative (spl t q (d + 1) A) = spl t q d (along d c) := by
    intro q hq
    have h := deriv_sum tm (hcell q hq) d A
    rw [spl, spl]
    push_cast
    rw [h]
    refine sum_congr rfl fun j hj => ?_
    have hj := mem_range.1 hj
    refine congrArg (fun z => C z * _) ?_
    have hden := den_pos tm (hcell q hq) d ((q : ℤ) - d + j) (by omega) (by omega)
    have hstep : A (q - d + j) - A (q - d + j - 1) = c (q + j) * integralsOf t d (q + j) := by
      simp only [hA]
      rw [show ((q : ℤ) - d + j + d + 1).toNat = q + j + 1 by omega, show ((q : ℤ) - d + j - 1 + d + 1).toNat = q + j by omega, sum_range_succ]
      ring
    rw [hstep, along, show ((q : ℤ) - d + j + d).toNat = q + j by omega]
    simp only [integralsOf]
    rw [show (((q + j : ℕ) : ℤ) + 1) = (q : ℤ) - d + j + d + 1 by push_cast; ring, show (((q + j : ℕ) : ℤ) - d) = (q : ℤ) - d + j by push_cast; ring]
    have : (d : ℝ) + 1 ≠ 0 := by positivity
    field_simp
  rw [cells_integral hb s (fun q => spl t q (d + 1) A) (fun q hq x hx => by rw [hs q hq x hx, hder q hq, valueAt_eq t d (n + d) q x c (along d c) (along_eq d (n + d) q c (by omega))])]
  obtain ⟨v, hv⟩ : ∃ v : ℕ → ℝ, v = fun q => if q < n then (spl t q (d + 1) A).eval (b q) else A (n - 1) := ⟨_, rfl⟩
  have hterm : ∀ q ∈ range n, (spl t q (d + 1) A).eval (b (q + 1)) - (spl t q (d + 1) A).eval (b q) = v (q + 1) - v q := by
    intro q hq
    have hq := mem_range.1 hq
    simp only [hv]
    rw [if_pos hq]
    refine congrArg (· - (spl t q (d + 1) A).eval (b q)) ?_
    by_cases hq1 : q + 1 < n
    · rw [if_pos hq1]
      have := spl_continuous (hcell q hq) (by have := hcell (q + 1) hq1; push_cast at this; rwa [show (q : ℤ) + 1 + 1 = q + 2 by ring] at this) d A
      rw [show (q : ℤ) + 1 = ((q + 1 : ℕ) : ℤ) by push_cast; ring, tb (q + 1) (by omega)] at this
      exact this
    · rw [if_neg hq1, ← tb (q + 1) (by omega)]
      have := spl_right (c := (q : ℤ)) tm (hcell q hq) (fun i hi => by rw [thigh i (by omega), thigh _ (by omega)]) (d + 1) A
      push_cast
      rw [this, show (q : ℤ) = n - 1 by omega]
  rw [sum_congr rfl hterm, sum_range_sub, hv]
  simp only [lt_irrefl, if_false]
  rw [if_pos (by omega), ← tb 0 (by omega)]
  have := spl_left (c := 0) tm (by have := hcell 0 (by omega); simpa using this) (fun i hi => by rw [tlow i hi, tlow 0 le_rfl]) (d + 1) A
  simp only [Nat.cast_zero]
  rw [this, hA]
  simp only []
  rw [show ((0 : ℤ) - ((d + 1 : ℕ) : ℤ) + d + 1).toNat = 0 by push_cast; omega, show ((n : ℤ) - 1 + d + 1).toNat = n + d by omega, range_zero, sum_empty, sub_zero]

/-- The integral of a periodic spline. -/
theorem periodic_integral {n d : ℕ} {b : ℕ → ℝ} (hn : 1 ≤ n) (hb : ∀ i < n, b i < b (i + 1)) (c : ℕ → ℝ) (s : ℝ → ℝ) (hs : IsSpline n b (periodicKnots n b) d n c s) :
    ∑ j ∈ range n, c j * integralsOf (periodicKnots n b) d j = ∫ x in (b 0)..(b n), s x := by
  obtain ⟨F, hF, hsum⟩ := periodic_primitive (d := d) hn hb c
  rw [cells_integral hb s F fun q hq x hx => by rw [hs q hq x hx, (hF q).1, valueAt_eq _ d n q x c (around d n c) (around_eq d q c hn)], hsum]
  rfl

theorem valueRows_linear (t : ℤ → ℝ) (d N : ℕ) (hN : 0 < N) (xs : List (ℕ × ℝ)) : ∀ row ∈ valueRows t d N xs, ∀ c : ℕ → ℝ, ∑ k ∈ range N, c k * row (unit k) = row c := by
  intro row hr c
  obtain ⟨qx, _, rfl⟩ := List.mem_map.1 hr
  exact row_linear N d qx.1 hN _ c

theorem quadrature_rows (t : ℤ → ℝ) (d N : ℕ) (w : List ℝ) (xs : List (ℕ × ℝ)) (f : ℝ → ℝ) (c : ℕ → ℝ) (h : ∀ qx ∈ xs, f qx.2 = valueAt t d N qx.1 qx.2 c) :
    quadrature w xs f = (List.zipWith (fun wi row => wi * row c) w (valueRows t d N xs)).sum := by
  rw [quadrature, valueRows, List.zipWith_map_right]
  refine congrArg List.sum ?_
  induction w generalizing xs with
  | nil => simp
  | cons a w ih =>
    cases xs with
    | nil => simp
    | cons qx xs =>
      rw [List.zipWith_cons_cons, List.zipWith_cons_cons, ih xs fun qx hq => h qx (List.mem_cons_of_mem _ hq), h qx List.mem_cons_self]

/-- C115 (periodic): for every function `f`, the spline quadrature of `f` is the integral of the periodic spline which has the values of `f` at the interpolation points. -/
theorem c115_periodic {n d : ℕ} {b : ℕ → ℝ} (hn : 1 ≤ n) (hb : ∀ i < n, b i < b (i + 1)) {xs : List (ℕ × ℝ)} (hx : Inside n b xs) {w : List ℝ}
    (hw : QuadratureCoefficients n (valueRows (periodicKnots n b) d n xs) (integralsOf (periodicKnots n b) d) w) (f s : ℝ → ℝ) (c : ℕ → ℝ)
    (hs : IsSpline n b (periodicKnots n b) d n c s) (hf : ∀ qx ∈ xs, f qx.2 = s qx.2) : quadrature (splineCoefficients w) xs f = ∫ x in (b 0)..(b n), s x := by
  rw [splineCoefficients, quadrature_rows _ d n w xs f c fun qx hq => by rw [hf qx hq, hs qx.1 (hx qx hq).1 qx.2 (hx qx hq).2],
    adjoint hw (valueRows_linear _ d n (by omega) xs) c, periodic_integral hn hb c s hs]

/-- C115 (clamped, no boundary conditions): for every function `f`, the spline quadrature of `f` is the integral of the spline which has the values of `f` at the interpolation points. -/
theorem c115_clamped {n d : ℕ} {b : ℕ → ℝ} (hn : 1 ≤ n) (hb : ∀ i < n, b i < b (i + 1)) {xs : List (ℕ × ℝ)} (hx : Inside n b xs) {w : List ℝ}
    (hw : QuadratureCoefficients (n + d) (valueRows (clampedKnots n b) d (n + d) xs) (integralsOf (clampedKnots n b) d) w) (f s : ℝ → ℝ) (c : ℕ → ℝ)
    (hs : IsSpline n b (clampedKnots n b) d (n + d) c s) (hf : ∀ qx ∈ xs, f qx.2 = s qx.2) : quadrature (splineCoefficients w) xs f = ∫ x in (b 0)..(b n), s x := by
  rw [splineCoefficients, quadrature_rows _ d (n + d) w xs f c fun qx hq => by rw [hf qx hq, hs qx.1 (hx qx hq).1 qx.2 (hx qx hq).2],
    adjoint hw (valueRows_linear _ d (n + d) (by omega) xs) c, clamped_integral hn hb c s hs]

theorem zipWith_middle (g : ℝ → ((ℕ → ℝ) → ℝ) → ℝ) (w : List ℝ) (first last : (ℕ → ℝ) → ℝ) (rows : List ((ℕ → ℝ) → ℝ)) (hl : w.length = (first :: (rows ++ [last])).length) :
    ∃ a e : ℝ, (List.zipWith g w (first :: (rows ++ [last]))).sum = g a first + (List.zipWith g (neumannCoefficients w) rows).sum + g e last := by
  cases w with
  | nil => simp at hl
  | cons a w =>
    rcases List.eq_nil_or_concat w with rfl | ⟨w', e, rfl⟩
    · simp at hl
    · have hl' : w'.length = rows.length := by simp at hl; omega
      refine ⟨a, e, ?_⟩
      simp only [neumannCoefficients, List.tail_cons, List.concat_eq_append, List.dropLast_concat, List.zipWith_cons_cons, List.sum_cons]
      rw [List.zipWith_append hl', List.sum_append]
      simp [add_assoc]

/-- C115 (Neumann): for every function `f`, the Neumann spline quadrature of `f` is the integral of the spline which has the values of `f` at the interpolation points and slope zero at both ends. -/
theorem c115_neumann {n d : ℕ} {b : ℕ → ℝ} (hn : 1 ≤ n) (hb : ∀ i < n, b i < b (i + 1)) {xs : List (ℕ × ℝ)} (hx : Inside n b xs) {w : List ℝ}
    (hw : QuadratureCoefficients (n + d) (hermiteRows n b (clampedKnots n b) d (n + d) xs) (integralsOf (clampedKnots n b) d) w) (f s : ℝ → ℝ) (c : ℕ → ℝ)
    (hs : IsSpline n b (clampedKnots n b) d (n + d) c s) (h0 : HasDerivWithinAt s 0 (Set.Icc (b 0) (b 1)) (b 0)) (h1 : HasDerivWithinAt s 0 (Set.Icc (b (n - 1)) (b n)) (b n))
    (hf : ∀ qx ∈ xs, f qx.2 = s qx.2) : quadrature (neumannCoefficients w) xs f = ∫ x in (b 0)..(b n), s x := by
  have hslope : ∀ q < n, ∀ x ∈ Set.Icc (b q) (b (q + 1)), HasDerivWithinAt s 0 (Set.Icc (b q) (b (q + 1))) x → slopeAt (clampedKnots n b) d (n + d) q x c = 0 := by
    intro q hq x hx h
    have e := hs q hq
    have e1 : slopeAt (clampedKnots n b) d (n + d) q x c = (derivative (spl (clampedKnots n b) q d (along d c))).eval x :=
      slope_pt _ d (n + d) q (x, 0) c (along d c) (along_eq d (n + d) q c (by omega))
    have h2 : HasDerivWithinAt s ((derivative (spl (clampedKnots n b) q d (along d c))).eval x) (Set.Icc (b q) (b (q + 1))) x := by
      refine ((spl (clampedKnots n b) q d (along d c)).hasDerivAt x).hasDerivWithinAt.congr (fun y hy => ?_) ?_
      · rw [e y hy, valueAt_eq _ d (n + d) q y c (along d c) (along_eq d (n + d) q c (by omega))]
      · rw [e x hx, valueAt_eq _ d (n + d) q x c (along d c) (along_eq d (n + d) q c (by omega))]
    rw [e1]
    exact (uniqueDiffOn_Icc (hb q hq) x hx).eq_deriv _ h2 h
  have hn1 : n - 1 + 1 = n := by omega
  have r0 := hslope 0 (by omega) (b 0) ⟨le_rfl, (hb 0 (by omega)).le⟩ h0
  have r1 := hslope (n - 1) (by omega) (b n) ⟨by have := (hb (n - 1) (by omega)).le; rwa [hn1] at this, by rw [hn1]⟩ (by rw [hn1]; exact h1)
  have hlin : ∀ row ∈ hermiteRows n b (clampedKnots n b) d (n + d) xs, ∀ c : ℕ → ℝ, ∑ k ∈ range (n + d), c k * row (unit k) = row c := by
    intro row hr c
    simp only [hermiteRows, List.mem_cons, List.mem_append, List.not_mem_nil, or_false] at hr
    rcases hr with rfl | hr | rfl
    · exact row_linear (n + d) d 0 (by omega) _ c
    · exact valueRows_linear _ d (n + d) (by omega) xs row hr c
    · exact row_linear (n + d) d (n - 1) (by omega) _ c
  rw [quadrature_rows _ d (n + d) _ xs f c fun qx hq => by rw [hf qx hq, hs qx.1 (hx qx hq).1 qx.2 (hx qx hq).2], ← clamped_integral hn hb c s hs, ← adjoint hw hlin c]
  obtain ⟨a, e, hae⟩ := zipWith_middle (fun wi row => wi * row c) w _ _ _ hw.1
  rw [hermiteRows, hae, r0, r1]
  ring

/-! ## Polynomials are splines -/

/-- Elementary symmetric polynomials of the inner knots `t (i + 1), …, t (i + p)`. -/
noncomputable def sym (t : ℤ → ℝ) : ℕ → ℕ → ℤ → ℝ
  | 0, k, _ => if k = 0 then 1 else 0
  | p + 1, 0, i => sym t p 0 i
  | p + 1, k + 1, i => sym t p (k + 1) i + t (i + p + 1) * sym t p k i

theorem sym_zero (t : ℤ → ℝ) (p : ℕ) (i : ℤ) : sym t p 0 i = 1 := by
  induction p with
  | zero => simp [sym]
  | succ p ih => rw [sym, ih]

theorem sym_pred (t : ℤ → ℝ) (p k : ℕ) (i : ℤ) : sym t (p + 1) (k + 1) (i - 1) = sym t p (k + 1) i + t i * sym t p k i := by
  induction p generalizing k with
  | zero =>
    rw [sym]
    simp only [sym]
    rw [show i - 1 + ((0 : ℕ) : ℤ) + 1 = i by push_cast; ring]
  | succ p ih =>
    rw [sym, ih, show i - 1 + ((p + 1 : ℕ) : ℤ) + 1 = i + p + 1 by push_cast; ring]
    cases k with
    | zero => simp only [sym, sym_zero]; ring
    | succ k => rw [ih, sym, sym]; ring

/-- The powers are splines (Marsden). -/
theorem power_spline {t : ℤ → ℝ} {c : ℤ} (ht : Monotone t) (hc : t c < t (c + 1)) (p k : ℕ) : ∑ j ∈ range (p + 1), C (sym t p k (c - p + j)) * piece t c p (c - p + j) = (p.choose k : ℝ[X]) * X ^ k := by
  induction p generalizing k with
  | zero =>
    cases k with
    | zero => simp [piece, sym]
    | succ k => simp [piece, sym]
  | succ p ih =>
    cases k with
    | zero =>
      simp only [sym_zero, C_1, one_mul]
      have := unity ht hc (p + 1)
      push_cast at this ⊢
      rw [this]
      simp
    | succ k =>
      have h := sum_step (t := t) (c := c) p (fun i => C (sym t (p + 1) (k + 1) i))
      push_cast at h ⊢
      rw [h]
      have e : ∀ j ∈ range (p + 1), (C (sym t (p + 1) (k + 1) (c - p + j)) * (X - C (t (c - p + j))) + C (sym t (p + 1) (k + 1) (c - p + j - 1)) * (C (t (c - p + j + p + 1)) - X)) *
          (C (1 / (t (c - p + j + p + 1) - t (c - p + j))) * piece t c p (c - p + j)) = C (sym t p (k + 1) (c - p + j)) * piece t c p (c - p + j) + X * (C (sym t p k (c - p + j)) * piece t c p (c - p + j)) := by
        intro j _
        rw [sym_pred, sym, C_add, C_add, C_mul, C_mul]
        linear_combination (C (sym t p (k + 1) (c - p + j)) + X * C (sym t p k (c - p + j))) * den_mul ht hc p (c - p + j)
      rw [sum_congr rfl e, sum_add_distrib, ih, ← mul_sum, ih, Nat.choose_succ_succ]
      push_cast
      ring

/-- A polynomial whose degree is at most that of the splines is a spline. -/
theorem polynomial_spline {n d : ℕ} {b : ℕ → ℝ} (hb : ∀ i < n, b i < b (i + 1)) (P : ℝ[X]) (hP : P.natDegree ≤ d) :
    ∃ c : ℕ → ℝ, IsSpline n b (clampedKnots n b) d (n + d) c fun x => P.eval x := by
  refine ⟨fun i => ∑ k ∈ range (d + 1), P.coeff k / (d.choose k : ℝ) * sym (clampedKnots n b) d k ((i : ℤ) - d), fun q hq x _ => ?_⟩
  have hcell : clampedKnots n b q < clampedKnots n b ((q : ℤ) + 1) := by
    rw [clamped_cell q (by omega), show (q : ℤ) + 1 = ((q + 1 : ℕ) : ℤ) by push_cast; ring, clamped_cell (q + 1) (by omega)]
    exact hb q hq
  have key : ∀ k, ∑ j ∈ range (d + 1), sym (clampedKnots n b) d k (q - d + j) * (piece (clampedKnots n b) q d (q - d + j)).eval x = d.choose k * x ^ k := by
    intro k
    have := congrArg (eval x) (power_spline (clamped_mono hb) hcell d k)
    simpa only [eval_finsetSum, eval_mul, eval_C, eval_natCast, eval_pow, eval_X] using this
  have e : valueAt (clampedKnots n b) d (n + d) q x (fun i => ∑ k ∈ range (d + 1), P.coeff k / (d.choose k : ℝ) * sym (clampedKnots n b) d k ((i : ℤ) - d)) =
      ∑ j ∈ range (d + 1), ∑ k ∈ range (d + 1), P.coeff k / (d.choose k : ℝ) * (sym (clampedKnots n b) d k (q - d + j) * (piece (clampedKnots n b) q d (q - d + j)).eval x) := by
    simp only [valueAt, pt]
    refine sum_congr rfl fun j hj => ?_
    have hj := mem_range.1 hj
    rw [Nat.mod_eq_of_lt (by omega), sum_mul]
    refine sum_congr rfl fun k _ => ?_
    rw [show ((j + q : ℕ) : ℤ) - d = (q : ℤ) - d + j by push_cast; ring]
    ring
  rw [e, sum_comm]
  have hsum := P.as_sum_range_C_mul_X_pow' (Nat.lt_succ_of_le hP)
  have hPe : P.eval x = ∑ k ∈ range (d + 1), P.coeff k * x ^ k := by
    conv_lhs => rw [hsum]
    simp [eval_finsetSum]
  simp only []
  rw [hPe]
  refine sum_congr rfl fun k hk => ?_
  have hk := mem_range.1 hk
  rw [← mul_sum, key k]
  have : (d.choose k : ℝ) ≠ 0 := by exact_mod_cast (Nat.choose_pos (by omega)).ne'
  field_simp

/-- C115: the spline quadrature of a builder without boundary conditions integrates every polynomial exactly whose degree is at most that of the splines: for every degree and every break points. -/
theorem c115_polynomial {n d : ℕ} {b : ℕ → ℝ} (hn : 1 ≤ n) (hb : ∀ i < n, b i < b (i + 1)) {xs : List (ℕ × ℝ)} (hx : Inside n b xs) {w : List ℝ}
    (hw : QuadratureCoefficients (n + d) (valueRows (clampedKnots n b) d (n + d) xs) (integralsOf (clampedKnots n b) d) w) (P : ℝ[X]) (hP : P.natDegree ≤ d) :
    quadrature (splineCoefficients w) xs (fun x => P.eval x) = ∫ x in (b 0)..(b n), P.eval x := by
  obtain ⟨c, hc⟩ := polynomial_spline hb P hP
  exact c115_clamped hn hb hx hw _ _ c hc fun _ _ => rfl

/-- C115: the Neumann spline quadrature integrates every such polynomial exactly whose slope vanishes at both ends. -/
theorem c115_neumann_polynomial {n d : ℕ} {b : ℕ → ℝ} (hn : 1 ≤ n) (hb : ∀ i < n, b i < b (i + 1)) {xs : List (ℕ × ℝ)} (hx : Inside n b xs) {w : List ℝ}
    (hw : QuadratureCoefficients (n + d) (hermiteRows n b (clampedKnots n b) d (n + d) xs) (integralsOf (clampedKnots n b) d) w) (P : ℝ[X]) (hP : P.natDegree ≤ d)
    (h0 : (derivative P).eval (b 0) = 0) (h1 : (derivative P).eval (b n) = 0) :
    quadrature (neumannCoefficients w) xs (fun x => P.eval x) = ∫ x in (b 0)..(b n), P.eval x := by
  obtain ⟨c, hc⟩ := polynomial_spline hb P hP
  refine c115_neumann hn hb hx hw _ _ c hc ?_ ?_ fun _ _ => rfl
  · have := (P.hasDerivAt (b 0)).hasDerivWithinAt (s := Set.Icc (b 0) (b 1)); rwa [h0] at this
  · have := (P.hasDerivAt (b n)).hasDerivWithinAt (s := Set.Icc (b (n - 1)) (b n)); rwa [h1] at this

/-- C115 (limit): the Neumann quadrature with cubic splines on one cell gives `1 / 2` for the integral `1 / 3` of `x ^ 2`, whose slope does not vanish at the right end. -/
theorem c115_neumann_needs_slope {w : List ℝ}
    (hw : QuadratureCoefficients 4 (hermiteRows 1 (fun q => (q : ℝ)) (clampedKnots 1 fun q => (q : ℝ)) 3 4 [(0, 0), (0, 1)]) (integralsOf (clampedKnots 1 fun q => (q : ℝ)) 3) w) :
    quadrature (neumannCoefficients w) [(0, 0), (0, 1)] (fun x => x ^ 2) = 1 / 2 ∧ ∫ x in (0 : ℝ)..1, x ^ 2 = 1 / 3 := by
  refine ⟨?_, by rw [integral_pow]; norm_num⟩
  have h := c115_neumann_polynomial (n := 1) (d := 3) (b := fun q => (q : ℝ)) le_rfl (fun i _ => by push_cast; linarith) (xs := [(0, 0), (0, 1)]) (by
    intro qx hq
    simp only [List.mem_cons, List.not_mem_nil, or_false] at hq
    rcases hq with rfl | rfl <;> simp) hw (3 * X ^ 2 - 2 * X ^ 3) (by compute_degree) (by simp [derivative_pow]) (by simp [derivative_pow]; norm_num)
  have e : quadrature (neumannCoefficients w) [(0, 0), (0, 1)] (fun x => x ^ 2) = quadrature (neumannCoefficients w) [(0, 0), (0, 1)] fun x => (3 * X ^ 2 - 2 * X ^ 3 : ℝ[X]).eval x := by
    rw [quadrature, quadrature]
    refine congrArg List.sum ?_
    rcases neumannCoefficients w with _ | ⟨a, _ | ⟨a', l⟩⟩ <;> simp <;> norm_num
  rw [e, h]
  simp only [eval_sub, eval_mul, eval_pow, eval_X, eval_ofNat, Nat.cast_zero, Nat.cast_one]
  rw [intervalIntegral.integral_sub (Continuous.intervalIntegrable (by fun_prop) _ _) (Continuous.intervalIntegrable (by fun_prop) _ _), intervalIntegral.integral_const_mul, intervalIntegral.integral_const_mul, integral_pow, integral_pow]
  norm_num

/-! ## Cases which meet the hypotheses -/

theorem unit_knots (i : ℤ) : clampedKnots 1 (fun q => (q : ℝ)) i = if i ≤ 0 then 0 else 1 := by
  rw [clampedKnots]
  by_cases h : i ≤ 0
  · rw [if_pos h, show min i.toNat 1 = 0 by omega]; simp
  · rw [if_neg h, show min i.toNat 1 = 1 by omega]; simp

theorem unit_pieces0 (i : ℤ) : piece (clampedKnots 1 fun q => (q : ℝ)) 0 0 i = if i = 0 then 1 else 0 := by rw [piece]

theorem unit_pieces1 : piece (clampedKnots 1 fun q => (q : ℝ)) 0 1 (-1) = 1 - X ∧ piece (clampedKnots 1 fun q => (q : ℝ)) 0 1 0 = X := by
  constructor <;> rw [piece_succ] <;> simp [unit_pieces0, unit_knots]

theorem unit_pieces2 : piece (clampedKnots 1 fun q => (q : ℝ)) 0 2 (-2) = (1 - X) ^ 2 ∧ piece (clampedKnots 1 fun q => (q : ℝ)) 0 2 (-1) = 2 * X * (1 - X) ∧
    piece (clampedKnots 1 fun q => (q : ℝ)) 0 2 0 = X ^ 2 := by
  obtain ⟨a, e⟩ := unit_pieces1
  have z1 : piece (clampedKnots 1 fun q => (q : ℝ)) 0 1 (-2) = 0 := piece_support 1 _ (by norm_num)
  have z2 : piece (clampedKnots 1 fun q => (q : ℝ)) 0 1 1 = 0 := piece_support 1 _ (by norm_num)
  refine ⟨?_, ?_, ?_⟩ <;> rw [piece_succ] <;> simp [unit_knots, a, e, z1, z2] <;> ring

theorem unit_pieces3 : piece (clampedKnots 1 fun q => (q : ℝ)) 0 3 (-3) = (1 - X) ^ 3 ∧ piece (clampedKnots 1 fun q => (q : ℝ)) 0 3 (-2) = 3 * X * (1 - X) ^ 2 ∧
    piece (clampedKnots 1 fun q => (q : ℝ)) 0 3 (-1) = 3 * X ^ 2 * (1 - X) ∧ piece (clampedKnots 1 fun q => (q : ℝ)) 0 3 0 = X ^ 3 := by
  obtain ⟨a, e, g⟩ := unit_pieces2
  have z1 : piece (clampedKnots 1 fun q => (q : ℝ)) 0 2 (-3) = 0 := piece_support 2 _ (by norm_num)
  have z2 : piece (clampedKnots 1 fun q => (q : ℝ)) 0 2 1 = 0 := piece_support 2 _ (by norm_num)
  refine ⟨?_, ?_, ?_, ?_⟩ <;> rw [piece_succ] <;> simp [unit_knots, a, e, g, z1, z2] <;> ring

theorem cubic_rows (c : ℕ → ℝ) (x : ℝ) :
    valueAt (clampedKnots 1 fun q => (q : ℝ)) 3 4 0 x c = c 0 * (1 - x) ^ 3 + c 1 * (3 * x * (1 - x) ^ 2) + c 2 * (3 * x ^ 2 * (1 - x)) + c 3 * x ^ 3 ∧
      slopeAt (clampedKnots 1 fun q => (q : ℝ)) 3 4 0 x c = c 0 * (-3 * (1 - x) ^ 2) + c 1 * (3 * (1 - x) ^ 2 - 6 * x * (1 - x)) + c 2 * (6 * x * (1 - x) - 3 * x ^ 2) + c 3 * (3 * x ^ 2) := by
  obtain ⟨a, e, g, h⟩ := unit_pieces3
  constructor
  · simp [valueAt, pt, sum_range_succ, a, e, g, h]
  · simp [slopeAt, pt, sum_range_succ, a, e, g, h, derivative_pow]
    ring

/-- Cubic Hermite splines on one cell: the coefficients `1/12, 1/2, 1/2, -1/12` (those of the values and of the slopes). -/
theorem hermite_weights : QuadratureCoefficients 4 (hermiteRows 1 (fun q => (q : ℝ)) (clampedKnots 1 fun q => (q : ℝ)) 3 4 [(0, 0), (0, 1)]) (integralsOf (clampedKnots 1 fun q => (q : ℝ)) 3) [1 / 12, 1 / 2, 1 / 2, -1 / 12] := by
  refine ⟨by simp [hermiteRows, valueRows], fun j hj => ?_⟩
  simp only [hermiteRows, valueRows, List.map_cons, List.map_nil, List.cons_append, List.nil_append, List.zipWith_cons_cons, List.zipWith_nil_left, List.sum_cons, List.sum_nil, (cubic_rows _ _).1, (cubic_rows _ _).2, Nat.sub_self]
  interval_cases j <;> simp [unit, unit_knots, integralsOf] <;> norm_num

/-- Piecewise linear splines on two cells: the trapezoid rule. -/
example : QuadratureCoefficients 2 (valueRows (clampedKnots 1 fun q => (q : ℝ)) 1 2 [(0, 0), (0, 1)]) (integralsOf (clampedKnots 1 fun q => (q : ℝ)) 1) [1 / 2, 1 / 2] ∧
    Inside 1 (fun q => (q : ℝ)) [(0, 0), (0, 1)] := by
  refine ⟨⟨by simp [valueRows], fun j hj => ?_⟩, fun qx hq => ?_⟩
  · interval_cases j <;> simp [valueRows, valueAt, pt, sum_range_succ, unit, piece, unit_knots, integralsOf] <;> norm_num
  · simp only [List.mem_cons, List.not_mem_nil, or_false] at hq
    rcases hq with rfl | rfl <;> simp

/-- So the conclusion of `c115_neumann_needs_slope` is about existing coefficients. -/
example : quadrature (neumannCoefficients [1 / 12, 1 / 2, 1 / 2, -1 / 12]) [(0, 0), (0, 1)] (fun x => x ^ 2) = 1 / 2 := (c115_neumann_needs_slope hermite_weights).1

end Verif.SplineQuadrature
