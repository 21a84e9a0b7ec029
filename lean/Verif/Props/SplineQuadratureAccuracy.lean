import Verif.Props.SplineApprox
import Mathlib.LinearAlgebra.Matrix.ToLinearEquiv

/-!
# C115: accuracy of the spline quadratures for smooth functions
-/

namespace Verif.SplineQuadrature

open Verif.BSpline Polynomial Finset

/-- The value at `x` of the function which is the spline with the coefficients `a` in every cell. -/
noncomputable def glue (n : ℕ) (b : ℕ → ℝ) (t : ℤ → ℝ) (d : ℕ) (a : ℤ → ℝ) (x : ℝ) : ℝ := by
  classical exact (spl t (Nat.findGreatest (fun q => b q ≤ x) (n - 1) : ℕ) d a).eval x

theorem glue_eq {n d : ℕ} {b : ℕ → ℝ} {t : ℤ → ℝ} (hb : ∀ i < n, b i < b (i + 1)) (tb : ∀ q ≤ n, t ((q : ℕ) : ℤ) = b q) (a : ℤ → ℝ) (q : ℕ) (hq : q < n) (x : ℝ)
    (hx : x ∈ Set.Icc (b q) (b (q + 1))) : glue n b t (d + 1) a x = (spl t q (d + 1) a).eval x := by
  classical
  have bm : ∀ i j, i ≤ j → j ≤ n → b i ≤ b j := by
    intro i j hij
    induction j, hij using Nat.le_induction with
    | base => intro _; exact le_rfl
    | succ j _ ih => intro hj; exact (ih (by omega)).trans (hb j (by omega)).le
  rw [glue]
  obtain ⟨g, hg⟩ : ∃ g, g = Nat.findGreatest (fun q => b q ≤ x) (n - 1) := ⟨_, rfl⟩
  have h1 : q ≤ g := hg ▸ Nat.le_findGreatest (by omega) hx.1
  have h2 : g ≤ n - 1 := hg ▸ Nat.findGreatest_le _
  have h3 : b g ≤ x := by
    have := Nat.findGreatest_spec (P := fun q => b q ≤ x) (m := q) (n := n - 1) (by omega) hx.1
    rwa [← hg] at this
  have h4 : g ≤ q + 1 := by
    by_contra h
    have a1 := hb (q + 1) (by omega)
    have a2 := bm (q + 1 + 1) g (by omega) (by omega)
    linarith [hx.2]
  have e : (spl t (g : ℕ) (d + 1) a).eval x = (spl t q (d + 1) a).eval x := by
    have : g = q ∨ g = q + 1 := by omega
    rcases this with rfl | rfl
    · rfl
    · have hxe : x = b (q + 1) := le_antisymm hx.2 h3
      have hcont := spl_continuous (t := t) (c := (q : ℤ)) (by have := hb q hq; rw [show (q : ℤ) + 1 = ((q + 1 : ℕ) : ℤ) by push_cast; ring, tb q (by omega), tb (q + 1) (by omega)]; exact this)
        (by have := hb (q + 1) (by omega); rw [show (q : ℤ) + 1 = ((q + 1 : ℕ) : ℤ) by push_cast; ring, show (q : ℤ) + 2 = ((q + 1 + 1 : ℕ) : ℤ) by push_cast; ring, tb (q + 1) (by omega), tb (q + 1 + 1) (by omega)]; exact this) d a
      rw [show (q : ℤ) + 1 = ((q + 1 : ℕ) : ℤ) by push_cast; ring, tb (q + 1) (by omega), ← hxe] at hcont
      exact hcont.symm
  rw [← e, hg]

/-- The integral of a function which is close to a spline. -/
theorem integral_close {n d : ℕ} {b : ℕ → ℝ} (hb : ∀ i < n, b i < b (i + 1)) (f s : ℝ → ℝ) (F : ℕ → ℝ[X]) (hs : ∀ q < n, ∀ x ∈ Set.Icc (b q) (b (q + 1)), s x = (F q).eval x)
    (hf : ContinuousOn f (Set.Icc (b 0) (b n))) {E : ℝ} (hE : ∀ q < n, ∀ x ∈ Set.Icc (b q) (b (q + 1)), |s x - f x| ≤ E) :
    |(∫ x in (b 0)..(b n), s x) - ∫ x in (b 0)..(b n), f x| ≤ E * (b n - b 0) := by
  have bm : ∀ i j, i ≤ j → j ≤ n → b i ≤ b j := by
    intro i j hij
    induction j, hij using Nat.le_induction with
    | base => intro _; exact le_rfl
    | succ j _ ih => intro hj; exact (ih (by omega)).trans (hb j (by omega)).le
  have is : ∀ q < n, IntervalIntegrable s MeasureTheory.volume (b q) (b (q + 1)) := fun q hq =>
    ContinuousOn.intervalIntegrable_of_Icc (hb q hq).le ((F q).continuous.continuousOn.congr fun x hx => hs q hq x hx)
  have if' : ∀ q < n, IntervalIntegrable f MeasureTheory.volume (b q) (b (q + 1)) := fun q hq =>
    ContinuousOn.intervalIntegrable_of_Icc (hb q hq).le (hf.mono (Set.Icc_subset_Icc (bm 0 q (by omega) (by omega)) (bm (q + 1) n (by omega) le_rfl)))
  rw [← intervalIntegral.sum_integral_adjacent_intervals is, ← intervalIntegral.sum_integral_adjacent_intervals if', ← sum_sub_distrib, ← sum_range_sub b, mul_sum]
  refine (abs_sum_le_sum_abs _ _).trans (sum_le_sum fun q hq => ?_)
  have hq := mem_range.1 hq
  rw [← intervalIntegral.integral_sub (is q hq) (if' q hq)]
  have := intervalIntegral.norm_integral_le_of_norm_le_const (f := fun x => s x - f x) (a := b q) (b := b (q + 1)) (C := E) fun x hx => by
    rw [Set.uIoc_of_le (hb q hq).le] at hx
    exact hE q hq x ⟨hx.1.le, hx.2⟩
  rwa [Real.norm_eq_abs, abs_of_pos (sub_pos.2 (hb q hq))] at this

theorem quadrature_close (w : List ℝ) (xs : List (ℕ × ℝ)) (f s : ℝ → ℝ) {E : ℝ} (hE0 : 0 ≤ E) (hE : ∀ qx ∈ xs, |f qx.2 - s qx.2| ≤ E) :
    |quadrature w xs f - quadrature w xs s| ≤ (w.map fun z => |z|).sum * E := by
  simp only [quadrature]
  induction w generalizing xs with
  | nil => simp
  | cons a w ih =>
    cases xs with
    | nil =>
      simp only [List.zipWith_nil_right, List.sum_nil, sub_self, abs_zero]
      refine mul_nonneg (List.sum_nonneg fun z hz => ?_) hE0
      obtain ⟨y, _, rfl⟩ := List.mem_map.1 hz
      exact abs_nonneg _
    | cons y xs =>
      have h1 := ih xs fun qx hq => hE qx (List.mem_cons_of_mem _ hq)
      have h2 := hE y List.mem_cons_self
      simp only [List.zipWith_cons_cons, List.sum_cons, List.map_cons]
      rw [add_sub_add_comm, ← mul_sub, add_mul]
      refine (abs_add_le _ _).trans (add_le_add ?_ h1)
      rw [abs_mul]
      exact mul_le_mul_of_nonneg_left h2 (abs_nonneg _)

/-- C115 (accuracy): a function with `d + 1` derivatives (`G k` has the derivative `G (k + 1)`), the last bounded by `M`, is integrated by the spline quadrature of degree `d` up to
`3 (length + sum of the sizes of the coefficients) ((d + 1) h) ^ (d + 1) M`, where `h` is the largest cell: for every degree `d ≥ 1`, break points and interpolation points. -/
theorem c115_accuracy {n d : ℕ} {b : ℕ → ℝ} (hd : 1 ≤ d) (hn : 1 ≤ n) (hb : ∀ i < n, b i < b (i + 1)) {xs : List (ℕ × ℝ)} (hx : Inside n b xs) {w : List ℝ}
    (hw : QuadratureCoefficients (n + d) (valueRows (clampedKnots n b) d (n + d) xs) (integralsOf (clampedKnots n b) d) w) {G : ℕ → ℝ → ℝ}
    (hG : ∀ k ≤ d, ∀ x ∈ Set.Icc (b 0) (b n), HasDerivWithinAt (G k) (G (k + 1) x) (Set.Icc (b 0) (b n)) x) {M h : ℝ} (hM : ∀ x ∈ Set.Icc (b 0) (b n), |G (d + 1) x| ≤ M)
    (hh : ∀ q < n, b (q + 1) - b q ≤ h) :
    |quadrature (splineCoefficients w) xs (G 0) - ∫ x in (b 0)..(b n), G 0 x| ≤ 3 * ((b n - b 0) + (w.map fun z => |z|).sum) * (((d + 1) * h) ^ (d + 1) * M) := by
  obtain ⟨p, rfl⟩ : ∃ p, d = p + 1 := ⟨d - 1, by omega⟩
  have tm := clamped_mono hb
  have tb : ∀ q ≤ n, clampedKnots n b ((q : ℕ) : ℤ) = b q := fun q hq => clamped_cell q hq
  have tlow : ∀ i : ℤ, i ≤ 0 → clampedKnots n b i = b 0 := by
    intro i hi
    rw [clampedKnots, show min i.toNat n = 0 by omega]
  have thigh : ∀ i : ℤ, (n : ℤ) ≤ i → clampedKnots n b i = b n := by
    intro i hi
    rw [clampedKnots, show min i.toNat n = n by omega]
  have hstep := clamped_step hn hb hh
  obtain ⟨t, ht⟩ : ∃ t, t = clampedKnots n b := ⟨_, rfl⟩
  have hquad := c115_clamped (d := p + 1) hn hb hx hw
  rw [← ht] at tm tb tlow thigh hstep hquad
  have hcell : ∀ q < n, t q < t ((q : ℤ) + 1) := by
    intro q hq
    rw [tb q (by omega), show (q : ℤ) + 1 = ((q + 1 : ℕ) : ℤ) by push_cast; ring, tb (q + 1) (by omega)]
    exact hb q hq
  obtain ⟨E, hE⟩ : ∃ E, E = 3 * M * ((((p + 1 : ℕ) : ℝ) + 1) * h) ^ (p + 1 + 1) := ⟨_, rfl⟩
  have happ : ∀ q < n, ∀ x ∈ Set.Icc (b q) (b (q + 1)), |(spl t q (p + 1) (dual t (p + 1) G)).eval x - G 0 x| ≤ E := by
    intro q hq x hx
    rw [hE]
    exact approximation (c := (q : ℤ)) tm (hcell q hq) (lo := b 0) (hi := b n) (by rw [← tlow (min 0 (q - (p + 1 : ℕ))) (by omega)]; exact tm (by omega))
      (by rw [← thigh (max n (q + 1)) (by omega)]; exact tm (by omega)) hstep hG hM x (by rw [tb q (by omega)]; exact hx.1)
      (by rw [show (q : ℤ) + 1 = ((q + 1 : ℕ) : ℤ) by push_cast; ring, tb (q + 1) (by omega)]; exact hx.2)
  obtain ⟨s, hs⟩ : ∃ s, s = glue n b t (p + 1) (dual t (p + 1) G) := ⟨_, rfl⟩
  have hs1 : ∀ q < n, ∀ x ∈ Set.Icc (b q) (b (q + 1)), s x = (spl t q (p + 1) (dual t (p + 1) G)).eval x := fun q hq x hx => by rw [hs, glue_eq hb tb _ q hq x hx]
  have hclose : ∀ q < n, ∀ x ∈ Set.Icc (b q) (b (q + 1)), |s x - G 0 x| ≤ E := fun q hq x hx => by rw [hs1 q hq x hx]; exact happ q hq x hx
  have hE0 : 0 ≤ E := (abs_nonneg _).trans (hclose 0 (by omega) (b 0) ⟨le_rfl, (hb 0 (by omega)).le⟩)
  obtain ⟨c, hc⟩ : ∃ c : ℕ → ℝ, c = fun i : ℕ => dual t (p + 1) G ((i : ℤ) - (p + 1 : ℕ)) := ⟨_, rfl⟩
  have hspline : IsSpline n b t (p + 1) (n + (p + 1)) c s := by
    intro q hq x hx
    rw [hs1 q hq x hx, valueAt_eq t (p + 1) (n + (p + 1)) q x c (dual t (p + 1) G) fun j hj => ?_]
    rw [Nat.mod_eq_of_lt (by omega), hc]
    simp only []
    rw [show ((j + q : ℕ) : ℤ) - (p + 1 : ℕ) = (q : ℤ) - (p + 1 : ℕ) + j by push_cast; ring]
  have h1 := hquad s s c hspline fun _ _ => rfl
  have h2 := integral_close (d := p + 1) hb (G 0) s _ hs1 (fun x hx => (hG 0 (by omega) x hx).continuousWithinAt) hclose
  have h3 := quadrature_close (splineCoefficients w) xs (G 0) s hE0 fun qx hq => by rw [abs_sub_comm]; exact hclose qx.1 (hx qx hq).1 qx.2 (hx qx hq).2
  rw [h1] at h3
  have h4 := abs_add_le (quadrature (splineCoefficients w) xs (G 0) - ∫ x in (b 0)..(b n), s x) ((∫ x in (b 0)..(b n), s x) - ∫ x in (b 0)..(b n), G 0 x)
  rw [sub_add_sub_cancel] at h4
  refine h4.trans ((add_le_add h3 h2).trans (le_of_eq ?_))
  rw [hE, splineCoefficients]
  ring

/-- C115 (accuracy, periodic). -/
theorem c115_periodic_accuracy {n d : ℕ} {b : ℕ → ℝ} (hd : 1 ≤ d) (hn : 1 ≤ n) (hb : ∀ i < n, b i < b (i + 1)) {xs : List (ℕ × ℝ)} (hx : Inside n b xs) {w : List ℝ}
    (hw : QuadratureCoefficients n (valueRows (periodicKnots n b) d n xs) (integralsOf (periodicKnots n b) d) w) {G : ℕ → ℝ → ℝ}
    (hG : ∀ k ≤ d, ∀ x, HasDerivAt (G k) (G (k + 1) x) x) (hper : ∀ x, G 0 (x + (b n - b 0)) = G 0 x) {M h : ℝ} (hM : ∀ x, |G (d + 1) x| ≤ M) (hh : ∀ q < n, b (q + 1) - b q ≤ h) :
    |quadrature (splineCoefficients w) xs (G 0) - ∫ x in (b 0)..(b n), G 0 x| ≤ 3 * ((b n - b 0) + (w.map fun z => |z|).sum) * (((d + 1) * h) ^ (d + 1) * M) := by
  obtain ⟨p, rfl⟩ : ∃ p, d = p + 1 := ⟨d - 1, by omega⟩
  have tm := periodic_mono hn hb
  have tl := periodic_lt hn hb
  have ts := periodic_shift (b := b) hn
  have tb : ∀ q ≤ n, periodicKnots n b ((q : ℕ) : ℤ) = b q := fun q hq => periodic_cell' hn q hq
  have hstep := periodic_step hn hh
  have hquad := c115_periodic (d := p + 1) hn hb hx hw
  obtain ⟨t, ht⟩ : ∃ t, t = periodicKnots n b := ⟨_, rfl⟩
  rw [← ht] at tm tl ts tb hstep hquad
  obtain ⟨E, hE⟩ : ∃ E, E = 3 * M * ((((p + 1 : ℕ) : ℝ) + 1) * h) ^ (p + 1 + 1) := ⟨_, rfl⟩
  have happ : ∀ q < n, ∀ x ∈ Set.Icc (b q) (b (q + 1)), |(spl t q (p + 1) (dual t (p + 1) G)).eval x - G 0 x| ≤ E := by
    intro q hq x hx
    rw [hE]
    exact approximation (c := (q : ℤ)) tm (tl q) (lo := t (q - (p + 1 : ℕ))) (hi := t (q + 1)) le_rfl le_rfl hstep (fun k hk y _ => (hG k hk y).hasDerivWithinAt) (fun y _ => hM y) x
      (by rw [tb q (by omega)]; exact hx.1) (by rw [show (q : ℤ) + 1 = ((q + 1 : ℕ) : ℤ) by push_cast; ring, tb (q + 1) (by omega)]; exact hx.2)
  have hdual := dual_periodic ts (p + 1) (fun k hk => hG k (by omega)) hper
  obtain ⟨s, hs⟩ : ∃ s, s = glue n b t (p + 1) (dual t (p + 1) G) := ⟨_, rfl⟩
  have hs1 : ∀ q < n, ∀ x ∈ Set.Icc (b q) (b (q + 1)), s x = (spl t q (p + 1) (dual t (p + 1) G)).eval x := fun q hq x hx => by rw [hs, glue_eq hb tb _ q hq x hx]
  have hclose : ∀ q < n, ∀ x ∈ Set.Icc (b q) (b (q + 1)), |s x - G 0 x| ≤ E := fun q hq x hx => by rw [hs1 q hq x hx]; exact happ q hq x hx
  have hE0 : 0 ≤ E := (abs_nonneg _).trans (hclose 0 (by omega) (b 0) ⟨le_rfl, (hb 0 (by omega)).le⟩)
  obtain ⟨c, hc⟩ : ∃ c : ℕ → ℝ, c = fun i : ℕ => dual t (p + 1) G ((i : ℤ) - (p + 1 : ℕ)) := ⟨_, rfl⟩
  have hspline : IsSpline n b t (p + 1) n c s := by
    intro q hq x hx
    rw [hs1 q hq x hx, valueAt_eq t (p + 1) n q x c (dual t (p + 1) G) fun j hj => ?_]
    rw [hc]
    simp only []
    have hmul : ∀ m : ℕ, ∀ i : ℤ, dual t (p + 1) G (i + m * n) = dual t (p + 1) G i := by
      intro m i
      induction m with
      | zero => simp
      | succ m ih => rw [← ih, ← hdual (i + m * n)]; congr 1; push_cast; ring
    have hmod : (((j + q) % n : ℕ) : ℤ) + (((j + q) / n : ℕ) : ℤ) * n = j + q := by
      have := Nat.mod_add_div (j + q) n
      rw [mul_comm] at this
      exact_mod_cast this
    rw [← hmul ((j + q) / n)]
    congr 1
    linarith
  have h1 := hquad s s c hspline fun _ _ => rfl
  have h2 := integral_close (d := p + 1) hb (G 0) s _ hs1 (fun x _ => (hG 0 (by omega) x).continuousAt.continuousWithinAt) hclose
  have h3 := quadrature_close (splineCoefficients w) xs (G 0) s hE0 fun qx hq => by rw [abs_sub_comm]; exact hclose qx.1 (hx qx hq).1 qx.2 (hx qx hq).2
  rw [h1] at h3
  have h4 := abs_add_le (quadrature (splineCoefficients w) xs (G 0) - ∫ x in (b 0)..(b n), s x) ((∫ x in (b 0)..(b n), s x) - ∫ x in (b 0)..(b n), G 0 x)
  rw [sub_add_sub_cancel] at h4
  refine h4.trans ((add_le_add h3 h2).trans (le_of_eq ?_))
  rw [hE, splineCoefficients]
  ring

/-- Instance: the function `sin` (period `2 π`) with its derivatives. -/
example : ∃ G : ℕ → ℝ → ℝ, G 0 = Real.sin ∧ (∀ k x, HasDerivAt (G k) (G (k + 1) x) x) ∧ (∀ x, G 0 (x + (2 * Real.pi - 0)) = G 0 x) ∧ ∀ k x, |G k x| ≤ 1 := by
  refine ⟨fun k x => Real.sin (x + k * (Real.pi / 2)), by simp, fun k x => ?_, fun x => ?_, fun k x => Real.abs_sin_le_one _⟩
  · have h := (Real.hasDerivAt_sin (x + k * (Real.pi / 2))).comp x ((hasDerivAt_id x).add_const (k * (Real.pi / 2)))
    rw [mul_one] at h
    refine h.congr_deriv ?_
    beta_reduce
    rw [show x + ((k + 1 : ℕ) : ℝ) * (Real.pi / 2) = x + k * (Real.pi / 2) + Real.pi / 2 by push_cast; ring, Real.sin_add_pi_div_two]
  · simp only [Nat.cast_zero, zero_mul, add_zero, sub_zero]
    rw [Real.sin_add_two_pi]

/-! ## Existence -/

theorem zip_sum {α β : Type} (f : α → β → ℝ) (N : ℕ) : ∀ (w : List α) (r : List β) (hw : w.length = N) (hr : r.length = N),
    (List.zipWith f w r).sum = ∑ i : Fin N, f (w[i.1]'(by rw [hw]; exact i.2)) (r[i.1]'(by rw [hr]; exact i.2)) := by
  induction N with
  | zero =>
    intro w r hw hr
    match w, r, hw, hr with
    | [], [], _, _ => simp
  | succ N ih =>
    intro w r hw hr
    match w, r, hw, hr with
    | a :: w, e :: r, hw, hr =>
      rw [List.zipWith_cons_cons, List.sum_cons, Fin.sum_univ_succ, ih w r (by simpa using hw) (by simpa using hr)]
      rfl

/-- C115 (existence): as soon as the interpolation problem has at most one solution and as many equations as unknowns (which the builder needs to work at all), there are quadrature coefficients, and only one list of them. -/
theorem c115_coefficients_exist {N : ℕ} {rows : List ((ℕ → ℝ) → ℝ)} (hlen : rows.length = N) (hlin : ∀ row ∈ rows, ∀ c : ℕ → ℝ, ∑ k ∈ range N, c k * row (unit k) = row c)
    (huniq : ∀ c : ℕ → ℝ, (∀ row ∈ rows, row c = 0) → ∀ j < N, c j = 0) (m : ℕ → ℝ) : ∃! w, QuadratureCoefficients N rows m w := by
  classical
  obtain ⟨A, hA⟩ : ∃ A : Matrix (Fin N) (Fin N) ℝ, A = fun (i j : Fin N) => (rows[i.1]'(by rw [hlen]; exact i.2)) (unit j.1) := ⟨_, rfl⟩
  have hinj : ∀ v, A.mulVec v = 0 → v = 0 := by
    intro v hv
    obtain ⟨c, hc⟩ : ∃ c : ℕ → ℝ, c = fun k => if h : k < N then v ⟨k, h⟩ else 0 := ⟨_, rfl⟩
    have := huniq c (fun row hrow => by
      obtain ⟨i, hi, rfl⟩ := List.getElem_of_mem hrow
      have h1 := congrFun hv ⟨i, by omega⟩
      rw [← hlin _ hrow c, Finset.sum_range]
      simp only [Matrix.mulVec, dotProduct, hA, Pi.zero_apply] at h1
      rw [← h1]
      refine sum_congr rfl fun k _ => ?_
      rw [hc]
      simp only [k.2, dite_true, Fin.eta]
      ring)
    funext k
    have h2 := this k.1 k.2
    rw [hc] at h2
    simpa [k.2] using h2
  have hdet : IsUnit A.det := by
    rw [isUnit_iff_ne_zero]
    intro h0
    obtain ⟨v, hv, hAv⟩ := Matrix.exists_mulVec_eq_zero_iff.2 h0
    exact hv (hinj v hAv)
  have hcoef : ∀ w : List ℝ, ∀ hw : w.length = N, ∀ j (hj : j < N), (List.zipWith (fun wi row => wi * row (unit j)) w rows).sum = A.transpose.mulVec (fun i => w[i.1]'(by rw [hw]; exact i.2)) ⟨j, hj⟩ := by
    intro w hw j hj
    rw [zip_sum _ N w rows hw hlen]
    simp only [Matrix.mulVec, dotProduct, hA, Matrix.transpose_apply]
    exact sum_congr rfl fun i _ => mul_comm _ _
  have hT : IsUnit A.transpose.det := by rwa [Matrix.det_transpose]
  obtain ⟨u, hu⟩ : ∃ u, u = A.transpose⁻¹.mulVec fun j => m j.1 := ⟨_, rfl⟩
  have hAu : A.transpose.mulVec u = fun j => m j.1 := by rw [hu, Matrix.mulVec_mulVec, Matrix.mul_nonsing_inv _ hT, Matrix.one_mulVec]
  refine ⟨List.ofFn u, ⟨by rw [List.length_ofFn, hlen], fun j hj => ?_⟩, fun w hw => ?_⟩
  · rw [hcoef _ (List.length_ofFn) j hj]
    simp only [List.getElem_ofFn, Fin.eta]
    rw [hAu]
  · have hwl : w.length = N := by rw [hw.1, hlen]
    have h1 : A.transpose.mulVec (fun i => w[i.1]'(by rw [hwl]; exact i.2)) = fun j => m j.1 := by
      funext j
      rw [← hcoef w hwl j.1 j.2, hw.2 j.1 j.2]
    have h2 : u = fun i : Fin N => w[i.1]'(by rw [hwl]; exact i.2) := by
      rw [hu, ← h1, Matrix.mulVec_mulVec, Matrix.nonsing_inv_mul _ hT, Matrix.one_mulVec]
    refine List.ext_getElem (by rw [hwl, List.length_ofFn]) fun i h3 h4 => ?_
    rw [List.getElem_ofFn]
    exact (congrFun h2 ⟨i, by omega⟩).symm

/-- Instance: cubic splines on one cell with the values and slopes at both ends, the interpolation problem of the Neumann quadrature; its coefficients are those of `hermite_weights`. -/
example : ∃! w, QuadratureCoefficients 4 (hermiteRows 1 (fun q => (q : ℝ)) (clampedKnots 1 fun q => (q : ℝ)) 3 4 [(0, 0), (0, 1)]) (integralsOf (clampedKnots 1 fun q => (q : ℝ)) 3) w := by
  refine c115_coefficients_exist (by simp [hermiteRows, valueRows]) ?_ ?_ _
  · intro row hrow c
    simp only [hermiteRows, valueRows, List.map_cons, List.map_nil, List.cons_append, List.nil_append, List.mem_cons, List.not_mem_nil, or_false] at hrow
    rcases hrow with rfl | rfl | rfl | rfl <;> simp only [(cubic_rows _ _).1, (cubic_rows _ _).2, Nat.sub_self, sum_range_succ, sum_range_zero] <;> simp [unit] <;> ring
  · intro c hc j hj
    simp only [hermiteRows, valueRows, List.map_cons, List.map_nil, List.cons_append, List.nil_append, List.mem_cons, List.not_mem_nil, or_false, forall_eq_or_imp, forall_eq,
      (cubic_rows _ _).1, (cubic_rows _ _).2, Nat.sub_self] at hc
    norm_num at hc
    interval_cases j <;> linarith [hc.1, hc.2.1, hc.2.2.1, hc.2.2.2]

end Verif.SplineQuadrature
