import Verif.Model.InterfaceDerivs
import Mathlib.Analysis.Calculus.ContDiff.Basic
import Mathlib.Analysis.Calculus.IteratedDeriv.Defs
import Mathlib.Analysis.Calculus.Deriv.Pow
import Mathlib.Analysis.Calculus.Deriv.Mul
import Mathlib.Analysis.Calculus.Deriv.Add
import Mathlib.Tactic.Ring
import Mathlib.Tactic.FieldSimp
import Mathlib.Tactic.Linarith
import Mathlib.Tactic.LinearCombination
import Mathlib.Tactic.NormNum
import Mathlib.Tactic.Positivity
import Mathlib.Tactic.FunProp

/-!
# C72: derivatives at the interface of two patches are those of the global cubic spline
-/

namespace Verif.InterfaceDerivs

/-! ## Specification -/

/-- Index of the point at distance `k` from the interface. -/
def Patch.pos (p : Patch) (k : ℕ) : ℤ := p.itf + k * p.step

/-- Number of cells of the patch: one less than the points, or two less when there is an additional interpolation point in the last cell. -/
def Patch.cells (p : Patch) (extra : Bool) : ℕ := if extra then p.size - 2 else p.size - 1

/-- Index of the break point at distance `k` from the interface: the last but one point is not a break point when it is an additional interpolation point. -/
def Patch.brk (p : Patch) (extra : Bool) (k : ℕ) : ℤ := if extra = true ∧ k = p.cells extra then p.pos (k + 1) else p.pos k

/-- The coordinates increase with the index on the index range of the patch. -/
def Patch.Increasing (p : Patch) : Prop := ∀ i j, p.front ≤ i → i < j → j ≤ p.back → p.x i < p.x j

/-- Distance of a point of the patch to the interface, along the patch. -/
noncomputable def Patch.dist (p : Patch) (idx : ℤ) : ℝ := |p.x idx - p.x p.itf|

/-- `s` is a cubic polynomial on the interval. -/
def CubicOn (s : ℝ → ℝ) (a b : ℝ) : Prop := ∃ c0 c1 c2 c3 : ℝ, ∀ z, a ≤ z → z ≤ b → s z = c0 + c1 * z + c2 * z ^ 2 + c3 * z ^ 3

/-- `s` is a cubic spline of class C² over both patches put one after the other: patch 1 to the left of the interface (at 0), patch 2 to its right. -/
structure GlobalSpline (p1 p2 : Patch) (e1 e2 : Bool) (s : ℝ → ℝ) : Prop where
  smooth : ContDiff ℝ 2 s
  left : ∀ k, k < p1.cells e1 → CubicOn s (-p1.dist (p1.brk e1 (k + 1))) (-p1.dist (p1.brk e1 k))
  right : ∀ k, k < p2.cells e2 → CubicOn s (p2.dist (p2.brk e2 k)) (p2.dist (p2.brk e2 (k + 1)))

/-- The property: the derivative at the interface of every global cubic spline is recovered from its values at the interpolation points of both patches and its
derivatives at the break points at distance `m` on patch 1 and `n` on patch 2. -/
def Exact (p1 p2 : Patch) (e1 e2 : Bool) (r : Row) (m n : ℕ) : Prop :=
  ∀ s, GlobalSpline p1 p2 e1 e2 s →
    deriv s 0 = functionCoeffs p1 p2 r (fun j => s (-p1.dist j)) (fun j => s (p2.dist j)) +
      r.cd2 * deriv s (p2.dist (p2.brk e2 n)) + r.cd1 * deriv s (-p1.dist (p1.brk e1 m))

/-! ## Cubic splines -/

theorem cubic_derivs (s : ℝ → ℝ) (hs : ContDiff ℝ 2 s) (a b : ℝ) (hab : a < b) (c0 c1 c2 c3 : ℝ)
    (h : ∀ z, a ≤ z → z ≤ b → s z = c0 + c1 * z + c2 * z ^ 2 + c3 * z ^ 3) (z : ℝ) (hz : z ∈ Set.Icc a b) :
    deriv s z = c1 + 2 * c2 * z + 3 * c3 * z ^ 2 ∧ deriv (deriv s) z = 2 * c2 + 6 * c3 * z := by
  have hc1 : Continuous (deriv s) := hs.continuous_deriv (by norm_num)
  have hc2 : Continuous (deriv (deriv s)) := by
    have := (hs.iterate_deriv' 0 2).continuous
    simpa using this
  have h1 : Set.EqOn (deriv s) (fun z => c1 + 2 * c2 * z + 3 * c3 * z ^ 2) (Set.Ioo a b) := by
    intro z hz
    have he : s =ᶠ[nhds z] fun z => c0 + c1 * z + c2 * z ^ 2 + c3 * z ^ 3 := by
      filter_upwards [Ioo_mem_nhds hz.1 hz.2] with w hw using h w hw.1.le hw.2.le
    have hd : HasDerivAt (fun z => c0 + c1 * z + c2 * z ^ 2 + c3 * z ^ 3) (c1 + 2 * c2 * z + 3 * c3 * z ^ 2) z := by
      have := (((hasDerivAt_const z c0).add ((hasDerivAt_id z).const_mul c1)).add ((hasDerivAt_pow 2 z).const_mul c2)).add
        ((hasDerivAt_pow 3 z).const_mul c3)
      exact this.congr_deriv (by push_cast; ring)
    show deriv s z = _
    rw [he.deriv_eq, hd.deriv]
  have h2 : Set.EqOn (deriv (deriv s)) (fun z => 2 * c2 + 6 * c3 * z) (Set.Ioo a b) := by
    intro z hz
    have he : deriv s =ᶠ[nhds z] fun z => c1 + 2 * c2 * z + 3 * c3 * z ^ 2 := by
      filter_upwards [Ioo_mem_nhds hz.1 hz.2] with w hw using h1 hw
    have hd : HasDerivAt (fun z => c1 + 2 * c2 * z + 3 * c3 * z ^ 2) (2 * c2 + 6 * c3 * z) z := by
      have := ((hasDerivAt_const z c1).add ((hasDerivAt_id z).const_mul (2 * c2))).add ((hasDerivAt_pow 2 z).const_mul (3 * c3))
      exact this.congr_deriv (by push_cast; ring)
    show deriv (deriv s) z = _
    rw [he.deriv_eq, hd.deriv]
  have e1 := h1.closure hc1 (by fun_prop)
  have e2 := h2.closure hc2 (by fun_prop)
  rw [closure_Ioo hab.ne] at e1 e2
  exact ⟨e1 hz, e2 hz⟩

/-- The local relation between three consecutive derivatives of a cubic spline. -/
theorem node_relation (s : ℝ → ℝ) (hs : ContDiff ℝ 2 s) (z L R : ℝ) (hL : 0 < L) (hR : 0 < R) (h1 : CubicOn s (z - L) z) (h2 : CubicOn s z (z + R)) :
    deriv s z = (gammas L R).1 * s (z - L) + (gammas L R).2.1 * s z + (gammas L R).2.2 * s (z + R) +
      alpha L R * deriv s (z + R) + beta L R * deriv s (z - L) := by
  obtain ⟨a0, a1, a2, a3, ha⟩ := h1
  obtain ⟨b0, b1, b2, b3, hb⟩ := h2
  have l0 := cubic_derivs s hs (z - L) z (by linarith) a0 a1 a2 a3 ha (z - L) ⟨le_refl _, by linarith⟩
  have l1 := cubic_derivs s hs (z - L) z (by linarith) a0 a1 a2 a3 ha z ⟨by linarith, le_refl _⟩
  have r0 := cubic_derivs s hs z (z + R) (by linarith) b0 b1 b2 b3 hb z ⟨le_refl _, by linarith⟩
  have r1 := cubic_derivs s hs z (z + R) (by linarith) b0 b1 b2 b3 hb (z + R) ⟨by linarith, le_refl _⟩
  have sl0 := ha (z - L) (le_refl _) (by linarith)
  have sl1 := ha z (by linarith) (le_refl _)
  have sr0 := hb z (le_refl _) (by linarith)
  have sr1 := hb (z + R) (by linarith) (le_refl _)
  have hL' := hL.ne'
  have hR' := hR.ne'
  have hLR : L + R ≠ 0 := (add_pos hL hR).ne'
  -- the second derivative at the end of the left cell and at the start of the right cell
  have k1 : deriv (deriv s) z * L ^ 2 = (4 * deriv s z + 2 * deriv s (z - L)) * L - 6 * (s z - s (z - L)) := by
    rw [l1.2, l1.1, l0.1, sl1, sl0]; ring
  have k2 : deriv (deriv s) z * R ^ 2 = -(4 * deriv s z + 2 * deriv s (z + R)) * R + 6 * (s (z + R) - s z) := by
    rw [r0.2, r0.1, r1.1, sr0, sr1]; ring
  have half : (0.5 : ℝ) = 1 / 2 := by norm_num
  simp only [gammas, alpha, beta, half, add_comm R L]
  field_simp
  have k3 : R ^ 2 * ((4 * deriv s z + 2 * deriv s (z - L)) * L - 6 * (s z - s (z - L))) =
      L ^ 2 * (-(4 * deriv s z + 2 * deriv s (z + R)) * R + 6 * (s (z + R) - s z)) := by
    rw [← k1, ← k2]; ring
  linear_combination (1 / 2) * k3

/-- Value of a cubic at an inner point from the values and derivatives at both ends. -/
theorem hermite_value (s : ℝ → ℝ) (hs : ContDiff ℝ 2 s) (z D x : ℝ) (hD : 0 < D) (hx0 : 0 ≤ x) (hx1 : x ≤ 1) (h : CubicOn s z (z + D)) :
    s (z + x * D) = (1 - x) * (1 - x) * (1 + 2 * x) * s z + x * x * (3 - 2 * x) * s (z + D) +
      D * ((1 - x) * (1 - x) * x * deriv s z + x * x * (x - 1) * deriv s (z + D)) := by
  obtain ⟨b0, b1, b2, b3, hb⟩ := h
  have hxD : 0 ≤ x * D := mul_nonneg hx0 hD.le
  have hxD' : x * D ≤ D := by nlinarith
  have r0 := cubic_derivs s hs z (z + D) (by linarith) b0 b1 b2 b3 hb z ⟨le_refl _, by linarith⟩
  have r1 := cubic_derivs s hs z (z + D) (by linarith) b0 b1 b2 b3 hb (z + D) ⟨by linarith, le_refl _⟩
  rw [r0.1, r1.1, hb z (le_refl _) (by linarith), hb (z + D) (by linarith) (le_refl _), hb (z + x * D) (by linarith) (by linarith)]
  ring

/-! ## Indices and lengths -/

/-- Length of the interval between the points at distance `k` and `k + 1`. -/
noncomputable def Patch.h (p : Patch) (k : ℕ) : ℝ := |p.x (p.pos (k + 1)) - p.x (p.pos k)|

theorem pos_zero (p : Patch) : p.pos 0 = p.itf := by simp [Patch.pos]

theorem pos_inj (p : Patch) (j k : ℕ) (h : p.pos j = p.pos k) : j = k := by
  unfold Patch.pos Patch.step at h
  split at h <;> omega

theorem pos_ne (p : Patch) (j k : ℕ) (h : j ≠ k) : p.pos j ≠ p.pos k := fun e => h (pos_inj p j k e)

theorem pos_mem (p : Patch) (k : ℕ) (hk : k < p.size) : p.pos k ∈ Finset.Icc p.front p.back := by
  unfold Patch.pos Patch.step Patch.itf Patch.back
  rw [Finset.mem_Icc]
  split <;> omega

theorem cellLengths_itf2 (p1 p2 : Patch) : cellLengths p1 p2 false (p2.pos 0) = (p1.h 0, p2.h 0) := by
  simp [cellLengths, Patch.h, Patch.pos]

theorem cellLengths_itf1 (p1 p2 : Patch) : cellLengths p1 p2 true (p1.pos 0) = (p2.h 0, p1.h 0) := by
  simp [cellLengths, Patch.h, Patch.pos]

theorem cellLengths_2 (p1 p2 : Patch) (k : ℕ) : cellLengths p1 p2 false (p2.pos (k + 1)) = (p2.h k, p2.h (k + 1)) := by
  have hne : p2.pos (k + 1) ≠ p2.itf := by rw [← pos_zero]; exact pos_ne _ _ _ (by omega)
  simp only [cellLengths, Bool.false_eq_true, if_false, hne, false_and, true_and, false_or]
  rcases he : p2.ext with _ | _
  · have e1 : p2.pos (k + 1) - 1 = p2.pos k := by simp only [Patch.pos, Patch.step, he, if_true]; push_cast; ring
    have e2 : p2.pos (k + 1) + 1 = p2.pos (k + 1 + 1) := by simp only [Patch.pos, Patch.step, he, if_true]; push_cast; ring
    simp only [if_true, e1, e2, Patch.h]
  · have e1 : p2.pos (k + 1) + 1 = p2.pos k := by simp only [Patch.pos, Patch.step, he, reduceCtorEq, if_false]; push_cast; ring
    have e2 : p2.pos (k + 1) - 1 = p2.pos (k + 1 + 1) := by simp only [Patch.pos, Patch.step, he, reduceCtorEq, if_false]; push_cast; ring
    simp only [reduceCtorEq, if_false, e1, e2, Patch.h]
    rw [abs_sub_comm (p2.x (p2.pos k)), abs_sub_comm (p2.x (p2.pos (k + 1))) (p2.x (p2.pos (k + 1 + 1)))]

theorem cellLengths_1 (p1 p2 : Patch) (k : ℕ) : cellLengths p1 p2 true (p1.pos (k + 1)) = (p1.h (k + 1), p1.h k) := by
  have hne : p1.pos (k + 1) ≠ p1.itf := by rw [← pos_zero]; exact pos_ne _ _ _ (by omega)
  simp only [cellLengths, if_true, hne, if_false, Bool.true_eq_false, false_and, true_and, or_false]
  rcases he : p1.ext with _ | _
  · have e1 : p1.pos (k + 1) - 1 = p1.pos k := by simp only [Patch.pos, Patch.step, he, if_true]; push_cast; ring
    have e2 : p1.pos (k + 1) + 1 = p1.pos (k + 1 + 1) := by simp only [Patch.pos, Patch.step, he, if_true]; push_cast; ring
    simp only [reduceCtorEq, if_false, e1, e2, Patch.h]
  · have e1 : p1.pos (k + 1) + 1 = p1.pos k := by simp only [Patch.pos, Patch.step, he, reduceCtorEq, if_false]; push_cast; ring
    have e2 : p1.pos (k + 1) - 1 = p1.pos (k + 1 + 1) := by simp only [Patch.pos, Patch.step, he, reduceCtorEq, if_false]; push_cast; ring
    simp only [if_true, e1, e2, Patch.h]
    rw [abs_sub_comm, abs_sub_comm (p1.x (p1.pos k))]

/-- Distances to the interface grow by the lengths. -/
theorem dist_pos (p : Patch) (hp : p.Increasing) (j k : ℕ) (hjk : j < k) (hk : k < p.size) :
    p.dist (p.pos k) = p.dist (p.pos j) + |p.x (p.pos k) - p.x (p.pos j)| ∧ 0 < |p.x (p.pos k) - p.x (p.pos j)| := by
  have hmj := Finset.mem_Icc.1 (pos_mem p j (by omega))
  have hmk := Finset.mem_Icc.1 (pos_mem p k hk)
  have hm0 := Finset.mem_Icc.1 (pos_mem p 0 (by omega))
  unfold Patch.dist
  rw [← pos_zero]
  rcases he : p.ext with _ | _
  · have hlt : p.pos j < p.pos k := by simp only [Patch.pos, Patch.step, he, if_true]; omega
    have h1 := hp _ _ hmj.1 hlt hmk.2
    have h2 : p.x (p.pos 0) ≤ p.x (p.pos j) := by
      rcases Nat.eq_zero_or_pos j with rfl | hj
      · exact le_refl _
      · exact (hp _ _ hm0.1 (by simp only [Patch.pos, Patch.step, he, if_true]; omega) hmj.2).le
    rw [abs_of_nonneg (by linarith), abs_of_nonneg (by linarith), abs_of_pos (by linarith)]
    exact ⟨by ring, by linarith⟩
  · have hlt : p.pos k < p.pos j := by simp only [Patch.pos, Patch.step, he, reduceCtorEq, if_false]; omega
    have h1 := hp _ _ hmk.1 hlt hmj.2
    have h2 : p.x (p.pos j) ≤ p.x (p.pos 0) := by
      rcases Nat.eq_zero_or_pos j with rfl | hj
      · exact le_refl _
      · exact (hp _ _ hmj.1 (by simp only [Patch.pos, Patch.step, he, reduceCtorEq, if_false]; omega) hm0.2).le
    rw [abs_of_nonpos (by linarith), abs_of_nonpos (by linarith), abs_of_neg (by linarith)]
    exact ⟨by ring, by linarith⟩

theorem dist_itf (p : Patch) : p.dist (p.pos 0) = 0 := by simp [Patch.dist, pos_zero]

theorem h_pos (p : Patch) (hp : p.Increasing) (k : ℕ) (hk : k + 1 < p.size) : 0 < p.h k := (dist_pos p hp k (k + 1) (by omega) hk).2

theorem dist_succ (p : Patch) (hp : p.Increasing) (k : ℕ) (hk : k + 1 < p.size) : p.dist (p.pos (k + 1)) = p.dist (p.pos k) + p.h k :=
  (dist_pos p hp k (k + 1) (by omega) hk).1

/-! ## The weighted sum of the values -/

variable {p1 p2 : Patch}

/-- The indices of patch 2 other than the interface. -/
noncomputable def inner2 (p2 : Patch) : Finset ℤ := if p2.ext = .front then Finset.Icc (p2.front + 1) p2.back else Finset.Icc p2.front (p2.back - 1)

theorem pos_inner2 (k : ℕ) (hk : k + 1 < p2.size) : p2.pos (k + 1) ∈ inner2 p2 := by
  unfold inner2 Patch.pos Patch.step Patch.itf Patch.back
  split <;> simp_all <;> omega

theorem itf_not_inner2 : p2.pos 0 ∉ inner2 p2 := by
  rw [pos_zero]
  unfold inner2 Patch.itf
  split <;> simp_all

theorem sum_bump_mem (S : Finset ℤ) (f w : ℤ → ℝ) (i : ℤ) (v : ℝ) (hi : i ∈ S) :
    ∑ j ∈ S, f j * bump w i v j = (∑ j ∈ S, f j * w j) + f i * v := by
  have : ∀ j, f j * bump w i v j = f j * w j + if j = i then f i * v else 0 := by
    intro j
    unfold bump
    by_cases h : j = i
    · subst h; simp; ring
    · simp [h]
  simp only [this, Finset.sum_add_distrib, Finset.sum_ite_eq', hi, if_true]

theorem sum_bump_not_mem (S : Finset ℤ) (f w : ℤ → ℝ) (i : ℤ) (v : ℝ) (hi : i ∉ S) :
    ∑ j ∈ S, f j * bump w i v j = ∑ j ∈ S, f j * w j := by
  refine Finset.sum_congr rfl fun j hj => ?_
  unfold bump
  rw [if_neg (fun h : j = i => hi (h ▸ hj))]

theorem sum_scale (S : Finset ℤ) (f w v : ℤ → ℝ) (c q : ℝ) :
    ∑ j ∈ S, f j * (c * (w j - q * v j)) = c * ((∑ j ∈ S, f j * w j) - q * ∑ j ∈ S, f j * v j) := by
  rw [Finset.mul_sum, ← Finset.sum_sub_distrib, Finset.mul_sum]
  exact Finset.sum_congr rfl fun j _ => by ring

theorem sum_scale1 (S : Finset ℤ) (f w : ℤ → ℝ) (c : ℝ) : ∑ j ∈ S, f j * (c * w j) = c * ∑ j ∈ S, f j * w j := by
  rw [Finset.mul_sum]
  exact Finset.sum_congr rfl fun j _ => by ring

theorem setAt_bump (w : ℤ → ℝ) (i : ℤ) (v : ℝ) (h : w i = 0) : setAt w i v = bump w i v := by
  funext j
  unfold setAt bump
  by_cases hj : j = i
  · subst hj; simp [h]
  · simp [hj]

/-! ## Local relations in index form -/

/-- The relations at the interface and on patch 2 satisfied by values and derivatives (`N` cells). -/
structure RightRel (p1 p2 : Patch) (N : ℕ) (f1 f2 : ℤ → ℝ) (d1 d2 : ℕ → ℝ) : Prop where
  hd : d1 0 = d2 0
  hf : f1 (p1.pos 0) = f2 (p2.pos 0)
  itf : d2 0 = (gammas (p1.h 0) (p2.h 0)).1 * f1 (p1.pos 1) + (gammas (p1.h 0) (p2.h 0)).2.1 * f1 (p1.pos 0) +
    (gammas (p1.h 0) (p2.h 0)).2.2 * f2 (p2.pos 1) + alpha (p1.h 0) (p2.h 0) * d2 1 + beta (p1.h 0) (p2.h 0) * d1 1
  nodes : ∀ k, k + 1 < N → d2 (k + 1) = (gammas (p2.h k) (p2.h (k + 1))).1 * f2 (p2.pos k) +
    (gammas (p2.h k) (p2.h (k + 1))).2.1 * f2 (p2.pos (k + 1)) + (gammas (p2.h k) (p2.h (k + 1))).2.2 * f2 (p2.pos (k + 2)) +
    alpha (p2.h k) (p2.h (k + 1)) * d2 (k + 2) + beta (p2.h k) (p2.h (k + 1)) * d2 k

/-- The relations on patch 1. -/
def LeftRel (p1 : Patch) (N : ℕ) (f1 : ℤ → ℝ) (d1 : ℕ → ℝ) : Prop :=
  ∀ k, k + 1 < N → d1 (k + 1) = (gammas (p1.h (k + 1)) (p1.h k)).1 * f1 (p1.pos (k + 2)) +
    (gammas (p1.h (k + 1)) (p1.h k)).2.1 * f1 (p1.pos (k + 1)) + (gammas (p1.h (k + 1)) (p1.h k)).2.2 * f1 (p1.pos k) +
    alpha (p1.h (k + 1)) (p1.h k) * d1 k + beta (p1.h (k + 1)) (p1.h k) * d1 (k + 2)

/-- The relation provided by a row. -/
def Holds (p1 p2 : Patch) (r : Row) (f1 f2 : ℤ → ℝ) (d0 e1 e2 : ℝ) : Prop :=
  d0 = functionCoeffs p1 p2 r f1 f2 + r.cd2 * e2 + r.cd1 * e1

theorem alpha_bounds (L R : ℝ) (hL : 0 < L) (hR : 0 < R) : -(1 / 2) < alpha L R ∧ alpha L R < 0 := by
  have half : (0.5 : ℝ) = 1 / 2 := by norm_num
  have hs := add_pos hR hL
  unfold alpha
  rw [half]
  constructor
  · rw [lt_div_iff₀ hs]; linarith
  · exact div_neg_of_neg_of_pos (by linarith) hs

theorem beta_bounds (L R : ℝ) (hL : 0 < L) (hR : 0 < R) : -(1 / 2) < beta L R ∧ beta L R < 0 := by
  have half : (0.5 : ℝ) = 1 / 2 := by norm_num
  have hs := add_pos hR hL
  unfold beta
  rw [half]
  constructor
  · rw [lt_div_iff₀ hs]; linarith
  · exact div_neg_of_neg_of_pos (by linarith) hs

/-- The elimination of one node. -/
theorem eliminate (d0 S0 b0 a0 S1 b1 a1 e dm dn dp far near g : ℝ) (h0 : d0 = S0 + a0 * dm + b0 * e) (h1 : d0 = S1 + a1 * dn + b1 * e)
    (hl : dn = g + far * dp + near * dm) (ha0 : a0 ≠ 0) (hD : 1 - near * a1 / a0 ≠ 0) :
    d0 = 1 / (1 - near * a1 / a0) * (S1 - near * a1 / a0 * S0) + 1 / (1 - near * a1 / a0) * a1 * g +
      far * a1 / (1 - near * a1 / a0) * dp + (b1 - near * a1 / a0 * b0) / (1 - near * a1 / a0) * e := by
  have hdm : dm = (d0 - S0 - b0 * e) / a0 := by field_simp; linear_combination -h0
  have e1 : (1 - near * a1 / a0) * d0 = (S1 - near * a1 / a0 * S0) + a1 * g + far * a1 * dp + (b1 - near * a1 / a0 * b0) * e := by
    rw [hdm] at hl
    rw [hl] at h1
    field_simp
    field_simp at h1
    linear_combination h1
  have : d0 = ((S1 - near * a1 / a0 * S0) + a1 * g + far * a1 * dp + (b1 - near * a1 / a0 * b0) * e) / (1 - near * a1 / a0) := by
    rw [eq_div_iff hD, ← e1]; ring
  rw [this]
  field_simp

theorem ratio_step (near far q : ℝ) (hn : -(1 / 2) < near ∧ near < 0) (hf : -(1 / 2) < far ∧ far < 0) (hq : -1 < q ∧ q < 0) :
    (0 < near * q ∧ near * q < 1 / 2) ∧ -1 < far / (1 - near * q) ∧ far / (1 - near * q) < 0 := by
  have h1 : 0 < near * q := mul_pos_of_neg_of_neg hn.2 hq.2
  have h2 : near * q < 1 / 2 := by nlinarith
  have h3 : 0 < 1 - near * q := by linarith
  refine ⟨⟨h1, h2⟩, ?_, div_neg_of_neg_of_pos hf.2 h3⟩
  rw [lt_div_iff₀ h3]
  linarith

/-- The condition on the two last rows kept by the recursions. -/
def Ratio (a0 a1 : ℝ) : Prop := a0 ≠ 0 ∧ -1 < a1 / a0 ∧ a1 / a0 < 0

theorem fc_eq (p1 p2 : Patch) (r : Row) (f1 f2 : ℤ → ℝ) :
    functionCoeffs p1 p2 r f1 f2 = (∑ j ∈ Finset.Icc p1.front p1.back, f1 j * r.w1 j) + ∑ j ∈ inner2 p2, f2 j * r.w2 j := rfl

theorem pos_cast (p : Patch) (n : ℕ) : p.itf + (n : ℤ) * p.step = p.pos n := rfl

theorem pos_cast_succ (p : Patch) (n : ℕ) : p.itf + ((n : ℤ) + 1) * p.step = p.pos (n + 1) := by simp [Patch.pos]

theorem pos_cast_pred (p : Patch) (n : ℕ) : p.itf + (((n + 1 : ℕ) : ℤ) - 1) * p.step = p.pos n := by
  unfold Patch.pos; push_cast; ring

theorem pos_one (p : Patch) : p.itf + p.step = p.pos 1 := by simp [Patch.pos]

theorem pos_two (p : Patch) : p.itf + 2 * p.step = p.pos 2 := by simp [Patch.pos]

theorem start_holds (N : ℕ) (h1 : 2 ≤ p1.size) (h2 : 2 ≤ p2.size) (f1 f2 : ℤ → ℝ) (d1 d2 : ℕ → ℝ) (hr : RightRel p1 p2 N f1 f2 d1 d2) :
    Holds p1 p2 (start p1 p2) f1 f2 (d2 0) (d1 1) (d2 1) := by
  have hl := cellLengths_itf2 p1 p2
  rw [pos_zero] at hl
  unfold Holds
  rw [fc_eq]
  simp only [start, hl, pos_one]
  rw [← pos_zero, ← pos_zero]
  rw [setAt_bump _ (p1.pos 0) _ (by simp [setAt, pos_ne p1 0 1 (by omega)]), setAt_bump _ (p1.pos 1) _ rfl,
    setAt_bump _ (p2.pos 1) _ (by simp [setAt, pos_ne p2 1 0 (by omega)]), setAt_bump _ (p2.pos 0) _ rfl,
    sum_bump_mem _ _ _ _ _ (pos_mem p1 0 (by omega)), sum_bump_mem _ _ _ _ _ (pos_mem p1 1 (by omega)),
    sum_bump_mem _ _ _ _ _ (pos_inner2 0 (by omega)), sum_bump_not_mem _ _ _ _ _ itf_not_inner2]
  simp only [mul_zero, Finset.sum_const_zero]
  have e := hr.itf
  linear_combination e

theorem second_holds (N : ℕ) (hN : 2 ≤ N) (h1 : 2 ≤ p1.size) (h2 : 3 ≤ p2.size) (f1 f2 : ℤ → ℝ) (d1 d2 : ℕ → ℝ) (hr : RightRel p1 p2 N f1 f2 d1 d2)
    (r : Row) (h : Holds p1 p2 r f1 f2 (d2 0) (d1 1) (d2 1)) (hD : 1 - r.cd2 * beta (p2.h 0) (p2.h 1) ≠ 0) :
    Holds p1 p2 (second p1 p2 r) f1 f2 (d2 0) (d1 1) (d2 2) := by
  have hl := cellLengths_2 p1 p2 0
  unfold Holds at h ⊢
  rw [fc_eq] at h ⊢
  simp only [second, pos_one, pos_two, zero_add] at hl ⊢
  rw [hl]
  simp only []
  rw [← pos_zero, ← pos_zero]
  rw [sum_bump_mem _ _ _ _ _ (pos_mem p1 0 (by omega)), sum_bump_not_mem _ _ _ _ _ itf_not_inner2,
    sum_bump_mem _ _ _ _ _ (pos_inner2 0 (by omega)), sum_bump_mem _ _ _ _ _ (pos_inner2 1 (by omega)), sum_scale1, sum_scale1]
  have e := hr.nodes 0 (by omega)
  simp only [zero_add, Nat.reduceAdd] at e ⊢
  rw [hr.hf]
  rw [e] at h
  field_simp
  linear_combination h

theorem third_holds (N : ℕ) (hN : 2 ≤ N) (h1 : 3 ≤ p1.size) (f1 f2 : ℤ → ℝ) (d1 : ℕ → ℝ) (d0 e2 : ℝ) (hl1 : LeftRel p1 N f1 d1)
    (hd0 : d1 0 = d0) (r : Row) (h : Holds p1 p2 r f1 f2 d0 (d1 1) e2) (hD : 1 - r.cd1 * alpha (p1.h 1) (p1.h 0) ≠ 0) :
    Holds p1 p2 (third p1 p2 r) f1 f2 d0 (d1 2) e2 := by
  have hl := cellLengths_1 p1 p2 0
  unfold Holds at h ⊢
  rw [fc_eq] at h ⊢
  simp only [third, pos_one, pos_two, zero_add] at hl ⊢
  rw [hl]
  simp only []
  rw [← pos_zero, ← pos_zero]
  rw [sum_bump_mem _ _ _ _ _ (pos_mem p1 0 (by omega)), sum_bump_mem _ _ _ _ _ (pos_mem p1 1 (by omega)),
    sum_bump_mem _ _ _ _ _ (pos_mem p1 2 (by omega)), sum_bump_not_mem _ _ _ _ _ itf_not_inner2, sum_scale1, sum_scale1]
  have e := hl1 0 (by omega)
  simp only [zero_add] at e
  rw [hd0] at e
  rw [e] at h
  field_simp
  linear_combination h

theorem next_holds_2 (N n : ℕ) (hn : n + 2 < N) (h2 : N < p2.size) (f1 f2 : ℤ → ℝ) (d1 d2 : ℕ → ℝ) (hr : RightRel p1 p2 N f1 f2 d1 d2)
    (s : Slots) (e1 : ℝ) (h0 : Holds p1 p2 s.s0 f1 f2 (d2 0) e1 (d2 (n + 1))) (h1 : Holds p1 p2 s.s1 f1 f2 (d2 0) e1 (d2 (n + 2)))
    (ha0 : s.s0.cd2 ≠ 0) (hD : 1 - beta (p2.h (n + 1)) (p2.h (n + 2)) * s.s1.cd2 / s.s0.cd2 ≠ 0) :
    Holds p1 p2 (nextRow p1 p2 false (n + 2) s) f1 f2 (d2 0) e1 (d2 (n + 3)) := by
  have hl := cellLengths_2 p1 p2 (n + 1)
  have hlin := hr.nodes (n + 1) (by omega)
  have key := eliminate (d2 0) _ s.s0.cd1 s.s0.cd2 _ s.s1.cd1 s.s1.cd2 e1 (d2 (n + 1)) (d2 (n + 2)) (d2 (n + 3))
    (alpha (p2.h (n + 1)) (p2.h (n + 2))) (beta (p2.h (n + 1)) (p2.h (n + 2)))
    ((gammas (p2.h (n + 1)) (p2.h (n + 2))).1 * f2 (p2.pos (n + 1)) +
      (gammas (p2.h (n + 1)) (p2.h (n + 2))).2.1 * f2 (p2.pos (n + 2)) + (gammas (p2.h (n + 1)) (p2.h (n + 2))).2.2 * f2 (p2.pos (n + 3)))
    h0 h1 (by linear_combination hlin) ha0 hD
  unfold Holds
  rw [fc_eq, fc_eq] at key
  rw [fc_eq]
  have c1 : p2.itf + ((n + 2 : ℕ) : ℤ) * p2.step = p2.pos (n + 1 + 1) := rfl
  have c2 : p2.itf + (((n + 2 : ℕ) : ℤ) + 1) * p2.step = p2.pos (n + 2 + 1) := pos_cast_succ p2 (n + 2)
  have c3 : p2.itf + (((n + 2 : ℕ) : ℤ) - 1) * p2.step = p2.pos (n + 1) := pos_cast_pred p2 (n + 1)
  simp only [nextRow, Bool.false_eq_true, if_false, own, other, c1, c2, c3, hl]
  rw [sum_bump_mem _ _ _ _ _ (pos_inner2 n (by omega)), sum_bump_mem _ _ _ _ _ (pos_inner2 (n + 1) (by omega)),
    sum_bump_mem _ _ _ _ _ (pos_inner2 (n + 2) (by omega)), sum_scale, sum_scale]
  linear_combination key

theorem next_holds_1 (N n : ℕ) (hn : n + 2 < N) (h2 : N < p1.size) (f1 f2 : ℤ → ℝ) (d1 : ℕ → ℝ) (d0 e2 : ℝ) (hr : LeftRel p1 N f1 d1)
    (s : Slots) (h0 : Holds p1 p2 s.s0 f1 f2 d0 (d1 (n + 1)) e2) (h1 : Holds p1 p2 s.s1 f1 f2 d0 (d1 (n + 2)) e2)
    (ha0 : s.s0.cd1 ≠ 0) (hD : 1 - alpha (p1.h (n + 2)) (p1.h (n + 1)) * s.s1.cd1 / s.s0.cd1 ≠ 0) :
    Holds p1 p2 (nextRow p1 p2 true (n + 2) s) f1 f2 d0 (d1 (n + 3)) e2 := by
  have hl := cellLengths_1 p1 p2 (n + 1)
  have hlin := hr (n + 1) (by omega)
  have key := eliminate d0 (functionCoeffs p1 p2 s.s0 f1 f2) s.s0.cd2 s.s0.cd1 (functionCoeffs p1 p2 s.s1 f1 f2) s.s1.cd2 s.s1.cd1 e2
    (d1 (n + 1)) (d1 (n + 2)) (d1 (n + 3))
    (beta (p1.h (n + 2)) (p1.h (n + 1))) (alpha (p1.h (n + 2)) (p1.h (n + 1)))
    ((gammas (p1.h (n + 2)) (p1.h (n + 1))).1 * f1 (p1.pos (n + 3)) +
      (gammas (p1.h (n + 2)) (p1.h (n + 1))).2.1 * f1 (p1.pos (n + 2)) + (gammas (p1.h (n + 2)) (p1.h (n + 1))).2.2 * f1 (p1.pos (n + 1)))
    (by unfold Holds at h0; linear_combination h0) (by unfold Holds at h1; linear_combination h1) (by linear_combination hlin) ha0 hD
  unfold Holds
  rw [fc_eq, fc_eq] at key
  rw [fc_eq]
  have c1 : p1.itf + ((n + 2 : ℕ) : ℤ) * p1.step = p1.pos (n + 1 + 1) := rfl
  have c2 : p1.itf + (((n + 2 : ℕ) : ℤ) + 1) * p1.step = p1.pos (n + 2 + 1) := pos_cast_succ p1 (n + 2)
  have c3 : p1.itf + (((n + 2 : ℕ) : ℤ) - 1) * p1.step = p1.pos (n + 1) := pos_cast_pred p1 (n + 1)
  simp only [nextRow, if_true, own, other, c1, c2, c3, hl]
  rw [sum_bump_mem _ _ _ _ _ (pos_mem p1 (n + 1) (by omega)), sum_bump_mem _ _ _ _ _ (pos_mem p1 (n + 1 + 1) (by omega)),
    sum_bump_mem _ _ _ _ _ (pos_mem p1 (n + 2 + 1) (by omega)), sum_scale, sum_scale]
  linear_combination key

theorem recursion_succ (on1 : Bool) (M : ℕ) (hM : 2 ≤ M) (s : Slots) :
    recursion p1 p2 on1 (M + 1) s = loopStep p1 p2 on1 (recursion p1 p2 on1 M s) M := by
  unfold recursion
  have e : M + 1 - 2 = (M - 2) + 1 := by omega
  rw [e, List.range'_concat, List.foldl_append]
  simp only [one_mul, List.foldl_cons, List.foldl_nil]
  congr 1
  omega

theorem recursion_inv (on1 : Bool) (P : Row → ℕ → Prop) (Q : Row → Row → Prop) (s : Slots) (N : ℕ)
    (hstep : ∀ n t, n + 2 < N → P t.s0 (n + 1) → P t.s1 (n + 2) → Q t.s0 t.s1 →
      P (nextRow p1 p2 on1 (n + 2) t) (n + 3) ∧ Q t.s1 (nextRow p1 p2 on1 (n + 2) t))
    (hp0 : P s.s0 1) (hp1 : P s.s1 2) (hq : Q s.s0 s.s1) (M : ℕ) (hM : M + 2 ≤ N) :
    let t := recursion p1 p2 on1 (M + 2) s
    P t.s0 (M + 1) ∧ P t.s1 (M + 2) ∧ Q t.s0 t.s1 ∧ (M = 0 → t = s) ∧ (M ≠ 0 → t.s2 = t.s1) := by
  induction M with
  | zero =>
    have : recursion p1 p2 on1 2 s = s := rfl
    simp only [zero_add, this]
    exact ⟨hp0, hp1, hq, by simp, by simp⟩
  | succ M ih =>
    obtain ⟨i0, i1, i2, _, _⟩ := ih (by omega)
    have e : recursion p1 p2 on1 (M + 1 + 2) s = loopStep p1 p2 on1 (recursion p1 p2 on1 (M + 2) s) (M + 2) :=
      recursion_succ on1 (M + 2) (by omega) s
    simp only [e, loopStep]
    have h := hstep M (recursion p1 p2 on1 (M + 2) s) (by omega) i0 i1 i2
    exact ⟨i1, h.1, h.2, by simp, by simp⟩

theorem ratio_next_2 (hp2 : p2.Increasing) (n : ℕ) (hn : n + 3 < p2.size) (s : Slots) (hq : Ratio s.s0.cd2 s.s1.cd2) :
    (1 - beta (p2.h (n + 1)) (p2.h (n + 2)) * s.s1.cd2 / s.s0.cd2 ≠ 0) ∧ Ratio s.s1.cd2 (nextRow p1 p2 false (n + 2) s).cd2 := by
  have hl := cellLengths_2 p1 p2 (n + 1)
  have hL := h_pos p2 hp2 (n + 1) (by omega)
  have hR := h_pos p2 hp2 (n + 2) (by omega)
  have hs := ratio_step _ _ _ (beta_bounds _ _ hL hR) (alpha_bounds _ _ hL hR) hq.2
  have h1 : s.s1.cd2 ≠ 0 := by
    intro h0
    have := hq.2.2
    rw [h0, zero_div] at this
    exact lt_irrefl _ this
  have hD : (1 : ℝ) - beta (p2.h (n + 1)) (p2.h (n + 2)) * s.s1.cd2 / s.s0.cd2 ≠ 0 := by
    rw [mul_div_assoc]; linarith [hs.1.2]
  refine ⟨hD, h1, ?_⟩
  have c1 : p2.itf + ((n + 2 : ℕ) : ℤ) * p2.step = p2.pos (n + 1 + 1) := rfl
  simp only [nextRow, Bool.false_eq_true, if_false, own, c1, hl]
  have e : alpha (p2.h (n + 1)) (p2.h (n + 1 + 1)) * s.s1.cd2 / (1 - beta (p2.h (n + 1)) (p2.h (n + 1 + 1)) * s.s1.cd2 / s.s0.cd2) / s.s1.cd2 =
      alpha (p2.h (n + 1)) (p2.h (n + 2)) / (1 - beta (p2.h (n + 1)) (p2.h (n + 2)) * (s.s1.cd2 / s.s0.cd2)) := by
    rw [← mul_div_assoc, div_div, mul_comm _ s.s1.cd2, mul_comm _ s.s1.cd2, mul_div_mul_left _ _ h1]
  rw [e]
  exact hs.2

theorem ratio_next_1 (hp1 : p1.Increasing) (n : ℕ) (hn : n + 3 < p1.size) (s : Slots) (hq : Ratio s.s0.cd1 s.s1.cd1) :
    (1 - alpha (p1.h (n + 2)) (p1.h (n + 1)) * s.s1.cd1 / s.s0.cd1 ≠ 0) ∧ Ratio s.s1.cd1 (nextRow p1 p2 true (n + 2) s).cd1 := by
  have hl := cellLengths_1 p1 p2 (n + 1)
  have hL := h_pos p1 hp1 (n + 1) (by omega)
  have hR := h_pos p1 hp1 (n + 2) (by omega)
  have hs := ratio_step _ _ _ (alpha_bounds _ _ hR hL) (beta_bounds _ _ hR hL) hq.2
  have h1 : s.s1.cd1 ≠ 0 := by
    intro h0
    have := hq.2.2
    rw [h0, zero_div] at this
    exact lt_irrefl _ this
  have hD : (1 : ℝ) - alpha (p1.h (n + 2)) (p1.h (n + 1)) * s.s1.cd1 / s.s0.cd1 ≠ 0 := by
    rw [mul_div_assoc]; linarith [hs.1.2]
  refine ⟨hD, h1, ?_⟩
  have c1 : p1.itf + ((n + 2 : ℕ) : ℤ) * p1.step = p1.pos (n + 1 + 1) := rfl
  simp only [nextRow, if_true, own, c1, hl]
  have e : beta (p1.h (n + 1 + 1)) (p1.h (n + 1)) * s.s1.cd1 / (1 - alpha (p1.h (n + 1 + 1)) (p1.h (n + 1)) * s.s1.cd1 / s.s0.cd1) / s.s1.cd1 =
      beta (p1.h (n + 2)) (p1.h (n + 1)) / (1 - alpha (p1.h (n + 2)) (p1.h (n + 1)) * (s.s1.cd1 / s.s0.cd1)) := by
    rw [← mul_div_assoc, div_div, mul_comm _ s.s1.cd1, mul_comm _ s.s1.cd1, mul_div_mul_left _ _ h1]
  rw [e]
  exact hs.2

/-! ## The last cell with an additional interpolation point -/

/-- Closing relation on patch 2 in the last cell with an additional point, `m + 2` the last but one break point. -/
structure Closure2 (p2 : Patch) (m : ℕ) (f2 : ℤ → ℝ) (d2 : ℕ → ℝ) (dLast : ℝ) : Prop where
  node : d2 (m + 2) = (gammas (p2.h (m + 1)) (p2.h (m + 2) + p2.h (m + 3))).1 * f2 (p2.pos (m + 1)) +
    (gammas (p2.h (m + 1)) (p2.h (m + 2) + p2.h (m + 3))).2.1 * f2 (p2.pos (m + 2)) +
    (gammas (p2.h (m + 1)) (p2.h (m + 2) + p2.h (m + 3))).2.2 * f2 (p2.pos (m + 4)) +
    alpha (p2.h (m + 1)) (p2.h (m + 2) + p2.h (m + 3)) * dLast + beta (p2.h (m + 1)) (p2.h (m + 2) + p2.h (m + 3)) * d2 (m + 1)
  star : ∀ x, x = p2.h (m + 2) / (p2.h (m + 2) + p2.h (m + 3)) →
    f2 (p2.pos (m + 3)) = (1 - x) * (1 - x) * (1 + 2 * x) * f2 (p2.pos (m + 2)) + x * x * (3 - 2 * x) * f2 (p2.pos (m + 4)) +
      (p2.h (m + 2) + p2.h (m + 3)) * ((1 - x) * (1 - x) * x * d2 (m + 2) + x * x * (x - 1) * dLast)

/-- Closing relation on patch 1. -/
structure Closure1 (p1 : Patch) (m : ℕ) (f1 : ℤ → ℝ) (d1 : ℕ → ℝ) (dLast : ℝ) : Prop where
  node : d1 (m + 2) = (gammas (p1.h (m + 2) + p1.h (m + 3)) (p1.h (m + 1))).1 * f1 (p1.pos (m + 4)) +
    (gammas (p1.h (m + 2) + p1.h (m + 3)) (p1.h (m + 1))).2.1 * f1 (p1.pos (m + 2)) +
    (gammas (p1.h (m + 2) + p1.h (m + 3)) (p1.h (m + 1))).2.2 * f1 (p1.pos (m + 1)) +
    alpha (p1.h (m + 2) + p1.h (m + 3)) (p1.h (m + 1)) * d1 (m + 1) + beta (p1.h (m + 2) + p1.h (m + 3)) (p1.h (m + 1)) * dLast
  star : ∀ x, x = p1.h (m + 3) / (p1.h (m + 2) + p1.h (m + 3)) →
    f1 (p1.pos (m + 3)) = (1 - x) * (1 - x) * (1 + 2 * x) * f1 (p1.pos (m + 4)) + x * x * (3 - 2 * x) * f1 (p1.pos (m + 2)) +
      (p1.h (m + 2) + p1.h (m + 3)) * ((1 - x) * (1 - x) * x * dLast + x * x * (x - 1) * d1 (m + 2))

/-- Elimination of the last derivative. -/
theorem close (dn dp dm g far near kn kp D fs hh : ℝ) (hk : kp ≠ 0) (hD : D ≠ 0) (hd : 1 + far * kn / kp ≠ 0)
    (h1 : dn = g + far * dp + near * dm) (h2 : fs = hh + D * (kn * dn + kp * dp)) :
    dn = 1 / (1 + far * kn / kp) * (g + far * (fs - hh) / kp / D) + 1 / (1 + far * kn / kp) * near * dm := by
  have hdp : dp = (fs - hh) / kp / D - kn / kp * dn := by
    field_simp
    linear_combination -h2
  have e : dn * (1 + far * kn / kp) = g + far * (fs - hh) / kp / D + near * dm := by
    rw [hdp] at h1
    field_simp at h1 ⊢
    linear_combination h1
  calc dn = (g + far * (fs - hh) / kp / D + near * dm) / (1 + far * kn / kp) := (eq_div_iff hd).2 e
    _ = _ := by ring

theorem damp (far kn kp near : ℝ) (hf : far < 0) (hk : kn / kp < 0) (hn : -(1 / 2) < near ∧ near < 0) :
    1 + far * kn / kp ≠ 0 ∧ -(1 / 2) < 1 / (1 + far * kn / kp) * near ∧ 1 / (1 + far * kn / kp) * near < 0 := by
  have h1 : 0 < far * kn / kp := by rw [mul_div_assoc]; exact mul_pos_of_neg_of_neg hf hk
  have h2 : 0 < 1 + far * kn / kp := by linarith
  have h3 : 1 / (1 + far * kn / kp) < 1 := by rw [div_lt_one h2]; linarith
  have h4 : 0 < 1 / (1 + far * kn / kp) := by positivity
  refine ⟨h2.ne', by nlinarith, by nlinarith⟩

/-- `k0`, `k1` of the code have opposite signs. -/
theorem kratio (x : ℝ) (h0 : 0 < x) (h1 : x < 1) : (1 - x) * (1 - x) * x / (x * x * (x - 1)) < 0 ∧ x * x * (x - 1) / ((1 - x) * (1 - x) * x) < 0 ∧
    (1 - x) * (1 - x) * x ≠ 0 ∧ x * x * (x - 1) ≠ 0 := by
  have a : 0 < (1 - x) * (1 - x) * x := by
    have : 0 < 1 - x := by linarith
    positivity
  have b : x * x * (x - 1) < 0 := mul_neg_of_pos_of_neg (by positivity) (by linarith)
  exact ⟨div_neg_of_pos_of_neg a b, div_neg_of_neg_of_pos b a, a.ne', b.ne⟩

/-- The factor in front of the derivative closest to the interface in the closing relation on patch 2. -/
noncomputable def near2 (p2 : Patch) (m : ℕ) : ℝ :=
  let L := p2.h (m + 1)
  let R := p2.h (m + 2) + p2.h (m + 3)
  let x := p2.h (m + 2) / R
  1 / (1 + alpha L R * ((1 - x) * (1 - x) * x) / (x * x * (x - 1))) * beta L R

noncomputable def near1 (p1 : Patch) (m : ℕ) : ℝ :=
  let R := p1.h (m + 1)
  let L := p1.h (m + 2) + p1.h (m + 3)
  let x := p1.h (m + 3) / L
  1 / (1 + beta L R * (x * x * (x - 1)) / ((1 - x) * (1 - x) * x)) * alpha L R

theorem frac_bounds (a b : ℝ) (ha : 0 < a) (hb : 0 < b) : (0 < a / (a + b) ∧ a / (a + b) < 1) ∧ 0 < b / (a + b) ∧ b / (a + b) < 1 := by
  have := add_pos ha hb
  refine ⟨⟨by positivity, ?_⟩, by positivity, ?_⟩ <;> rw [div_lt_one this] <;> linarith

theorem near2_bounds (hp : p2.Increasing) (m : ℕ) (hs : p2.size = m + 5) : -(1 / 2) < near2 p2 m ∧ near2 p2 m < 0 := by
  have a := h_pos p2 hp (m + 1) (by omega)
  have b := h_pos p2 hp (m + 2) (by omega)
  have c := h_pos p2 hp (m + 3) (by omega)
  have hx := (frac_bounds _ _ b c).1
  have hk := kratio _ hx.1 hx.2
  exact (damp _ _ _ _ (alpha_bounds _ _ a (add_pos b c)).2 hk.1 (beta_bounds _ _ a (add_pos b c))).2

theorem near1_bounds (hp : p1.Increasing) (m : ℕ) (hs : p1.size = m + 5) : -(1 / 2) < near1 p1 m ∧ near1 p1 m < 0 := by
  have a := h_pos p1 hp (m + 1) (by omega)
  have b := h_pos p1 hp (m + 2) (by omega)
  have c := h_pos p1 hp (m + 3) (by omega)
  have hx := (frac_bounds _ _ b c).2
  have hk := kratio _ hx.1 hx.2
  exact (damp _ _ _ _ (beta_bounds _ _ (add_pos b c) a).2 hk.2.1 (alpha_bounds _ _ (add_pos b c) a)).2

theorem correction_holds_2 (hp : p2.Increasing) (m : ℕ) (hs : p2.size = m + 5) (f1 f2 : ℤ → ℝ) (d2 : ℕ → ℝ) (dLast d0 e1 : ℝ)
    (hc : Closure2 p2 m f2 d2 dLast) (s : Slots) (h0 : Holds p1 p2 s.s0 f1 f2 d0 e1 (d2 (m + 1))) (h1 : Holds p1 p2 s.s1 f1 f2 d0 e1 (d2 (m + 2)))
    (hq : Ratio s.s0.cd2 s.s1.cd2) (e2 : ℝ) : Holds p1 p2 (correction p1 p2 false s) f1 f2 d0 e1 e2 := by
  have a := h_pos p2 hp (m + 1) (by omega)
  have b := h_pos p2 hp (m + 2) (by omega)
  have c := h_pos p2 hp (m + 3) (by omega)
  have hx := (frac_bounds _ _ b c).1
  have hk := kratio _ hx.1 hx.2
  have hd := damp _ _ _ _ (alpha_bounds _ _ a (add_pos b c)).2 hk.1 (beta_bounds _ _ a (add_pos b c))
  have hcl := close _ _ (d2 (m + 1)) ((gammas (p2.h (m + 1)) (p2.h (m + 2) + p2.h (m + 3))).1 * f2 (p2.pos (m + 1)) +
    (gammas (p2.h (m + 1)) (p2.h (m + 2) + p2.h (m + 3))).2.1 * f2 (p2.pos (m + 2)) +
    (gammas (p2.h (m + 1)) (p2.h (m + 2) + p2.h (m + 3))).2.2 * f2 (p2.pos (m + 4))) _ _ _ _ _ _ _ hk.2.2.2 (add_pos b c).ne' hd.1 hc.node (hc.star _ rfl)
  have hst := ratio_step _ (-(1 / 4)) _ hd.2 (by norm_num) hq.2
  have hD : 1 - near2 p2 m * s.s1.cd2 / s.s0.cd2 ≠ 0 := by
    rw [mul_div_assoc]; have := hst.1.2; unfold near2; simp only []; linarith
  have key := eliminate d0 (functionCoeffs p1 p2 s.s0 f1 f2) s.s0.cd1 s.s0.cd2 (functionCoeffs p1 p2 s.s1 f1 f2) s.s1.cd1 s.s1.cd2 e1 (d2 (m + 1)) (d2 (m + 2)) e2
    0 (near2 p2 m) _ h0 h1 (by rw [zero_mul, add_zero]; exact hcl) hq.1 hD
  have n1 : (p2.size : ℤ) - 3 = ((m + 2 : ℕ) : ℤ) := by rw [hs]; push_cast; ring
  have c1 : p2.itf + ((m + 2 : ℕ) : ℤ) * p2.step = p2.pos (m + 1 + 1) := rfl
  have c2 : p2.itf + (((m + 2 : ℕ) : ℤ) + 1) * p2.step = p2.pos (m + 2 + 1) := pos_cast_succ p2 (m + 2)
  have c3 : p2.itf + (((m + 2 : ℕ) : ℤ) - 1) * p2.step = p2.pos (m + 1) := pos_cast_pred p2 (m + 1)
  have c4 : p2.itf + (((m + 2 : ℕ) : ℤ) + 2) * p2.step = p2.pos (m + 3 + 1) := by unfold Patch.pos; push_cast; ring
  have l1 := cellLengths_2 p1 p2 (m + 1)
  have l2 := cellLengths_2 p1 p2 (m + 2)
  unfold Holds
  rw [fc_eq, fc_eq] at key
  rw [fc_eq]
  simp only [correction, Bool.false_eq_true, if_false, own, other, n1, c1, c2, c3, c4, l1, l2]
  rw [sum_bump_mem _ _ _ _ _ (pos_inner2 m (by omega)), sum_bump_mem _ _ _ _ _ (pos_inner2 (m + 1) (by omega)),
    sum_bump_mem _ _ _ _ _ (pos_inner2 (m + 2) (by omega)), sum_bump_mem _ _ _ _ _ (pos_inner2 (m + 3) (by omega)), sum_scale, sum_scale]
  simp only [near2] at key
  rw [key]
  ring

theorem correction_holds_1 (hp : p1.Increasing) (m : ℕ) (hs : p1.size = m + 5) (f1 f2 : ℤ → ℝ) (d1 : ℕ → ℝ) (dLast d0 e2 : ℝ)
    (hc : Closure1 p1 m f1 d1 dLast) (s : Slots) (h0 : Holds p1 p2 s.s0 f1 f2 d0 (d1 (m + 1)) e2) (h1 : Holds p1 p2 s.s1 f1 f2 d0 (d1 (m + 2)) e2)
    (hq : Ratio s.s0.cd1 s.s1.cd1) (e1 : ℝ) : Holds p1 p2 (correction p1 p2 true s) f1 f2 d0 e1 e2 := by
  have a := h_pos p1 hp (m + 1) (by omega)
  have b := h_pos p1 hp (m + 2) (by omega)
  have c := h_pos p1 hp (m + 3) (by omega)
  have hx := (frac_bounds _ _ b c).2
  have hk := kratio _ hx.1 hx.2
  have hd := damp _ _ _ _ (beta_bounds _ _ (add_pos b c) a).2 hk.2.1 (alpha_bounds _ _ (add_pos b c) a)
  have hcl := close (d1 (m + 2)) dLast (d1 (m + 1)) ((gammas (p1.h (m + 2) + p1.h (m + 3)) (p1.h (m + 1))).1 * f1 (p1.pos (m + 4)) +
    (gammas (p1.h (m + 2) + p1.h (m + 3)) (p1.h (m + 1))).2.1 * f1 (p1.pos (m + 2)) +
    (gammas (p1.h (m + 2) + p1.h (m + 3)) (p1.h (m + 1))).2.2 * f1 (p1.pos (m + 1))) _ (alpha (p1.h (m + 2) + p1.h (m + 3)) (p1.h (m + 1))) _ _ _
    (f1 (p1.pos (m + 3)))
    ((1 - p1.h (m + 3) / (p1.h (m + 2) + p1.h (m + 3))) * (1 - p1.h (m + 3) / (p1.h (m + 2) + p1.h (m + 3))) *
      (1 + 2 * (p1.h (m + 3) / (p1.h (m + 2) + p1.h (m + 3)))) * f1 (p1.pos (m + 4)) +
      p1.h (m + 3) / (p1.h (m + 2) + p1.h (m + 3)) * (p1.h (m + 3) / (p1.h (m + 2) + p1.h (m + 3))) *
      (3 - 2 * (p1.h (m + 3) / (p1.h (m + 2) + p1.h (m + 3)))) * f1 (p1.pos (m + 2))) hk.2.2.1 (add_pos b c).ne' hd.1
    (by have := hc.node; linear_combination this) (by rw [hc.star _ rfl]; ring)
  have hst := ratio_step _ (-(1 / 4)) _ hd.2 (by norm_num) hq.2
  have hD : 1 - near1 p1 m * s.s1.cd1 / s.s0.cd1 ≠ 0 := by
    rw [mul_div_assoc]; have := hst.1.2; unfold near1; simp only []; linarith
  have key := eliminate d0 (functionCoeffs p1 p2 s.s0 f1 f2) s.s0.cd2 s.s0.cd1 (functionCoeffs p1 p2 s.s1 f1 f2) s.s1.cd2 s.s1.cd1 e2 (d1 (m + 1)) (d1 (m + 2)) e1
    0 (near1 p1 m) _ (by unfold Holds at h0; linear_combination h0) (by unfold Holds at h1; linear_combination h1)
    (by rw [zero_mul, add_zero]; exact hcl) hq.1 hD
  have n1 : (p1.size : ℤ) - 3 = ((m + 2 : ℕ) : ℤ) := by rw [hs]; push_cast; ring
  have c1 : p1.itf + ((m + 2 : ℕ) : ℤ) * p1.step = p1.pos (m + 1 + 1) := rfl
  have c2 : p1.itf + (((m + 2 : ℕ) : ℤ) + 1) * p1.step = p1.pos (m + 2 + 1) := pos_cast_succ p1 (m + 2)
  have c3 : p1.itf + (((m + 2 : ℕ) : ℤ) - 1) * p1.step = p1.pos (m + 1) := pos_cast_pred p1 (m + 1)
  have c4 : p1.itf + (((m + 2 : ℕ) : ℤ) + 2) * p1.step = p1.pos (m + 3 + 1) := by unfold Patch.pos; push_cast; ring
  have l1 := cellLengths_1 p1 p2 (m + 1)
  have l2 := cellLengths_1 p1 p2 (m + 2)
  unfold Holds
  rw [fc_eq, fc_eq] at key
  rw [fc_eq]
  simp only [correction, if_true, own, other, n1, c1, c2, c3, c4, l1, l2]
  rw [sum_bump_mem _ _ _ _ _ (pos_mem p1 (m + 1) (by omega)), sum_bump_mem _ _ _ _ _ (pos_mem p1 (m + 1 + 1) (by omega)),
    sum_bump_mem _ _ _ _ _ (pos_mem p1 (m + 2 + 1) (by omega)), sum_bump_mem _ _ _ _ _ (pos_mem p1 (m + 3 + 1) (by omega)), sum_scale, sum_scale]
  simp only [near1] at key
  rw [key]
  ring

/-! ## The coefficient of patch 1 after the recursion on patch 2 -/

theorem chain (n : ℕ) : ∀ A B : ℕ → ℝ, (∀ k, k < n → (-(1 / 2) < A k ∧ A k ≤ 0) ∧ -(1 / 2) < B k ∧ B k < 0) →
    ∃ e : ℕ → ℝ, e 0 = 1 ∧ (∀ k, k < n → e (k + 1) = A k * e (k + 2) + B k * e k) ∧ e (n + 1) = 0 ∧ -1 < e 1 ∧ e 1 ≤ 0 := by
  induction n with
  | zero => exact fun A B _ => ⟨fun k => if k = 0 then 1 else 0, by simp, by simp, by simp, by norm_num, by norm_num⟩
  | succ n ih =>
    intro A B h
    obtain ⟨e, h0, h1, h2, h3, h4⟩ := ih (fun k => A (k + 1)) (fun k => B (k + 1)) (fun k hk => h (k + 1) (by omega))
    have hA := (h 0 (by omega)).1
    have hB := (h 0 (by omega)).2
    have hp : 0 ≤ A 0 * e 1 := mul_nonneg_of_nonpos_of_nonpos hA.2 h4
    have hp' : A 0 * e 1 < 1 / 2 := by nlinarith
    have hd : 0 < 1 - A 0 * e 1 := by linarith
    refine ⟨fun k => match k with
      | 0 => 1
      | k + 1 => B 0 / (1 - A 0 * e 1) * e k, rfl, ?_, ?_, ?_, ?_⟩
    · intro k hk
      rcases k with _ | k
      · simp only [zero_add, h0]
        field_simp
        ring
      · have := h1 k (by omega)
        simp only []
        rw [this]
        ring
    · simp only [h2, mul_zero]
    · simp only [h0, mul_one]
      rw [lt_div_iff₀ hd]
      linarith
    · simp only [h0, mul_one]
      exact (div_neg_of_neg_of_pos hB.2 hd).le

theorem start_ratio (hp1 : p1.Increasing) (hp2 : p2.Increasing) (h1 : 2 ≤ p1.size) (h2 : 3 ≤ p2.size) :
    (1 - (start p1 p2).cd2 * beta (p2.h 0) (p2.h 1) ≠ 0) ∧ Ratio (start p1 p2).cd2 (second p1 p2 (start p1 p2)).cd2 := by
  have hl := cellLengths_itf2 p1 p2
  rw [pos_zero] at hl
  have hl1 := cellLengths_2 p1 p2 0
  have ha := alpha_bounds _ _ (h_pos p1 hp1 0 (by omega)) (h_pos p2 hp2 0 (by omega))
  have hb := beta_bounds _ _ (h_pos p2 hp2 0 (by omega)) (h_pos p2 hp2 1 (by omega))
  have ha1 := alpha_bounds _ _ (h_pos p2 hp2 0 (by omega)) (h_pos p2 hp2 1 (by omega))
  have e : (start p1 p2).cd2 = alpha (p1.h 0) (p2.h 0) := by simp only [start, hl]
  have hst := ratio_step _ _ (alpha (p1.h 0) (p2.h 0)) hb ha1 ⟨by linarith, ha.2⟩
  refine ⟨?_, ?_, ?_⟩
  · rw [e, mul_comm]; linarith [hst.1.2]
  · rw [e]; exact ha.2.ne
  · have : (second p1 p2 (start p1 p2)).cd2 / (start p1 p2).cd2 =
        alpha (p2.h 0) (p2.h 1) / (1 - beta (p2.h 0) (p2.h 1) * alpha (p1.h 0) (p2.h 0)) := by
      simp only [second, pos_one, zero_add] at hl1 ⊢
      rw [hl1, e]
      simp only []
      rw [mul_comm (beta _ _), mul_div_right_comm, mul_div_assoc, div_self ha.2.ne, mul_one]
    rw [this]
    exact hst.2

/-- The recursion on patch 2. -/
theorem stage2_inv (hp1 : p1.Increasing) (hp2 : p2.Increasing) (h1 : 2 ≤ p1.size) (N : ℕ) (h2 : N < p2.size) (M : ℕ) (hM : M + 2 ≤ N) :
    let t := recursion p1 p2 false (M + 2) { s0 := start p1 p2, s1 := second p1 p2 (start p1 p2), s2 := second p1 p2 (start p1 p2) }
    (∀ f1 f2 d1 d2, RightRel p1 p2 N f1 f2 d1 d2 →
      Holds p1 p2 t.s0 f1 f2 (d2 0) (d1 1) (d2 (M + 1)) ∧ Holds p1 p2 t.s1 f1 f2 (d2 0) (d1 1) (d2 (M + 2))) ∧ Ratio t.s0.cd2 t.s1.cd2 ∧ t.s2 = t.s1 := by
  have hsr := start_ratio hp1 hp2 h1 (by omega)
  have h := recursion_inv (p1 := p1) (p2 := p2) false
    (fun r k => ∀ f1 f2 d1 d2, RightRel p1 p2 N f1 f2 d1 d2 → Holds p1 p2 r f1 f2 (d2 0) (d1 1) (d2 k)) (fun r0 r1 => Ratio r0.cd2 r1.cd2)
    { s0 := start p1 p2, s1 := second p1 p2 (start p1 p2), s2 := second p1 p2 (start p1 p2) } N
    (by
      intro n t hn i0 i1 iq
      have hr := ratio_next_2 (p1 := p1) hp2 n (by omega) t iq
      exact ⟨fun f1 f2 d1 d2 hrel => next_holds_2 N n hn h2 f1 f2 d1 d2 hrel t (d1 1) (i0 _ _ _ _ hrel) (i1 _ _ _ _ hrel) iq.1 hr.1, hr.2⟩)
    (fun f1 f2 d1 d2 hrel => start_holds N h1 (by omega) f1 f2 d1 d2 hrel)
    (fun f1 f2 d1 d2 hrel => second_holds N (by omega) h1 (by omega) f1 f2 d1 d2 hrel _ (start_holds N h1 (by omega) f1 f2 d1 d2 hrel) hsr.1)
    hsr.2 M hM
  obtain ⟨a, b, c, d, e⟩ := h
  refine ⟨fun f1 f2 d1 d2 hrel => ⟨a _ _ _ _ hrel, b _ _ _ _ hrel⟩, c, ?_⟩
  rcases Nat.eq_zero_or_pos M with h0 | h0
  · rw [d h0]
  · exact e (by omega)

theorem stage2_plain (hp1 : p1.Increasing) (hp2 : p2.Increasing) (h1 : 2 ≤ p1.size) (h2 : 3 ≤ p2.size) (f1 f2 : ℤ → ℝ) (d1 d2 : ℕ → ℝ)
    (hr : RightRel p1 p2 (p2.size - 1) f1 f2 d1 d2) : Holds p1 p2 (stage2 p1 p2 false).s2 f1 f2 (d2 0) (d1 1) (d2 (p2.size - 1)) := by
  have h := stage2_inv hp1 hp2 h1 (p2.size - 1) (by omega) (p2.size - 1 - 2) (by omega)
  have e : p2.size - 1 - 2 + 2 = p2.size - 1 := by omega
  rw [e] at h
  simp only [stage2, Bool.false_eq_true, if_false]
  rw [h.2.2]
  exact (h.1 _ _ _ _ hr).2

theorem stage2_extra (hp1 : p1.Increasing) (hp2 : p2.Increasing) (h1 : 2 ≤ p1.size) (m : ℕ) (h2 : p2.size = m + 5) (f1 f2 : ℤ → ℝ) (d1 d2 : ℕ → ℝ)
    (hr : RightRel p1 p2 (m + 2) f1 f2 d1 d2) (dLast : ℝ) (hc : Closure2 p2 m f2 d2 dLast) (e2 : ℝ) :
    Holds p1 p2 (stage2 p1 p2 true).s2 f1 f2 (d2 0) (d1 1) e2 := by
  have h := stage2_inv hp1 hp2 h1 (m + 2) (by omega) m (by omega)
  have e : p2.size - 3 = m + 2 := by omega
  simp only [stage2, if_true, e]
  exact correction_holds_2 hp2 m h2 f1 f2 d2 dLast (d2 0) (d1 1) hc _ (h.1 _ _ _ _ hr).1 (h.1 _ _ _ _ hr).2 h.2.1 e2

/-- Number of relations on patch 2 that do not involve the additional point. -/
theorem stage2_cd1 (hp1 : p1.Increasing) (hp2 : p2.Increasing) (h1 : 2 ≤ p1.size) (g2 : Bool) (h2 : if g2 then 5 ≤ p2.size else 3 ≤ p2.size) :
    -1 < (stage2 p1 p2 g2).s2.cd1 ∧ (stage2 p1 p2 g2).s2.cd1 < 0 := by
  have hs2 : 3 ≤ p2.size := by split at h2 <;> omega
  have ha := alpha_bounds _ _ (h_pos p1 hp1 0 (by omega)) (h_pos p2 hp2 0 (by omega))
  have hb := beta_bounds _ _ (h_pos p1 hp1 0 (by omega)) (h_pos p2 hp2 0 (by omega))
  -- values zero, derivative one on patch 1, zero at the end of patch 2
  have fin : ∀ (e : ℕ → ℝ), e 0 = 1 → -1 < e 1 → e 1 ≤ 0 →
      (∀ d1 d2 : ℕ → ℝ, d1 0 = d2 0 → d1 1 = 1 → (∀ k, d2 k = beta (p1.h 0) (p2.h 0) / (1 - alpha (p1.h 0) (p2.h 0) * e 1) * e k) →
        d2 0 = alpha (p1.h 0) (p2.h 0) * d2 1 + beta (p1.h 0) (p2.h 0) * d1 1 → d2 0 = (stage2 p1 p2 g2).s2.cd1) →
      -1 < (stage2 p1 p2 g2).s2.cd1 ∧ (stage2 p1 p2 g2).s2.cd1 < 0 := by
    intro e he0 he1 he2 hk
    have hp : 0 ≤ alpha (p1.h 0) (p2.h 0) * e 1 := mul_nonneg_of_nonpos_of_nonpos ha.2.le he2
    have hp' : alpha (p1.h 0) (p2.h 0) * e 1 < 1 / 2 := by nlinarith
    have hd : 0 < 1 - alpha (p1.h 0) (p2.h 0) * e 1 := by linarith
    have := hk (fun k => if k = 0 then beta (p1.h 0) (p2.h 0) / (1 - alpha (p1.h 0) (p2.h 0) * e 1) else 1)
      (fun k => beta (p1.h 0) (p2.h 0) / (1 - alpha (p1.h 0) (p2.h 0) * e 1) * e k) (by simp [he0]) (by simp) (fun _ => rfl)
      (by simp only [he0, one_ne_zero, if_false]; field_simp; ring)
    rw [← this, he0, mul_one]
    refine ⟨?_, div_neg_of_neg_of_pos hb.2 hd⟩
    rw [lt_div_iff₀ hd]
    linarith
  cases g2 with
  | false =>
    obtain ⟨e, he0, hek, hen, he1, he2⟩ := chain (p2.size - 2) (fun k => alpha (p2.h k) (p2.h (k + 1))) (fun k => beta (p2.h k) (p2.h (k + 1)))
      (fun k hk => by
        have a := alpha_bounds _ _ (h_pos p2 hp2 k (by omega)) (h_pos p2 hp2 (k + 1) (by omega))
        exact ⟨⟨a.1, a.2.le⟩, beta_bounds _ _ (h_pos p2 hp2 k (by omega)) (h_pos p2 hp2 (k + 1) (by omega))⟩)
    refine fin e he0 he1 he2 fun d1 d2 h01 h11 hd2 hitf => ?_
    have := stage2_plain hp1 hp2 h1 hs2 (fun _ => 0) (fun _ => 0) d1 d2
      { hd := h01, hf := rfl, itf := by simpa using hitf, nodes := by
          intro k hk
          simp only [mul_zero, zero_add, hd2, hek k (by omega)]
          ring }
    unfold Holds at this
    have e' : p2.size - 1 = p2.size - 2 + 1 := by omega
    rw [fc_eq, h11, hd2 (p2.size - 1), e', hen] at this
    simpa using this
  | true =>
    simp only [if_true] at h2
    obtain ⟨m, hm⟩ : ∃ m, p2.size = m + 5 := ⟨p2.size - 5, by omega⟩
    obtain ⟨e, he0, hek, hen, he1, he2⟩ := chain (m + 2) (fun k => if k = m + 1 then 0 else alpha (p2.h k) (p2.h (k + 1)))
      (fun k => if k = m + 1 then near2 p2 m else beta (p2.h k) (p2.h (k + 1)))
      (fun k hk => by
        have a := alpha_bounds _ _ (h_pos p2 hp2 k (by omega)) (h_pos p2 hp2 (k + 1) (by omega))
        have b := beta_bounds _ _ (h_pos p2 hp2 k (by omega)) (h_pos p2 hp2 (k + 1) (by omega))
        split
        · exact ⟨by norm_num, near2_bounds hp2 m hm⟩
        · exact ⟨⟨a.1, a.2.le⟩, b⟩)
    refine fin e he0 he1 he2 fun d1 d2 h01 h11 hd2 hitf => ?_
    have b := h_pos p2 hp2 (m + 2) (by omega)
    have c := h_pos p2 hp2 (m + 3) (by omega)
    have a := h_pos p2 hp2 (m + 1) (by omega)
    have hx := (frac_bounds _ _ b c).1
    have hk := kratio _ hx.1 hx.2
    have hdd := damp _ _ _ _ (alpha_bounds _ _ a (add_pos b c)).2 hk.1 (beta_bounds _ _ a (add_pos b c))
    have hl := hek (m + 1) (by omega)
    simp only [if_true, zero_mul, zero_add] at hl
    have hl' : d2 (m + 2) = near2 p2 m * d2 (m + 1) := by rw [hd2, hd2, hl]; ring
    have hcl : Closure2 p2 m (fun _ => 0) d2
        (-((1 - p2.h (m + 2) / (p2.h (m + 2) + p2.h (m + 3))) * (1 - p2.h (m + 2) / (p2.h (m + 2) + p2.h (m + 3))) * (p2.h (m + 2) / (p2.h (m + 2) + p2.h (m + 3)))) /
          (p2.h (m + 2) / (p2.h (m + 2) + p2.h (m + 3)) * (p2.h (m + 2) / (p2.h (m + 2) + p2.h (m + 3))) * (p2.h (m + 2) / (p2.h (m + 2) + p2.h (m + 3)) - 1)) * d2 (m + 2)) := by
      generalize hxe : p2.h (m + 2) / (p2.h (m + 2) + p2.h (m + 3)) = x at *
      have hk0 := hk.2.2.1
      have hk1 := hk.2.2.2
      constructor
      · simp only [mul_zero, zero_add]
        have h3 : near2 p2 m = 1 / (1 + alpha (p2.h (m + 1)) (p2.h (m + 2) + p2.h (m + 3)) * ((1 - x) * (1 - x) * x) / (x * x * (x - 1))) *
            beta (p2.h (m + 1)) (p2.h (m + 2) + p2.h (m + 3)) := by
          simp only [near2, hxe]
        rw [h3] at hl'
        have hne := hdd.1
        have h4 : (1 + alpha (p2.h (m + 1)) (p2.h (m + 2) + p2.h (m + 3)) * ((1 - x) * (1 - x) * x) / (x * x * (x - 1))) * d2 (m + 2) =
            beta (p2.h (m + 1)) (p2.h (m + 2) + p2.h (m + 3)) * d2 (m + 1) := by
          rw [hl', ← mul_assoc, ← mul_assoc, mul_one_div_cancel hne, one_mul]
        rw [← h4]
        ring
      · intro y hy
        rw [hxe] at hy
        subst hy
        simp only [mul_zero, zero_add]
        rw [← mul_assoc (y * y * (y - 1)), mul_div_cancel₀ _ hk1]
        ring
    have := stage2_extra hp1 hp2 h1 m hm (fun _ => 0) (fun _ => 0) d1 d2
      { hd := h01, hf := rfl, itf := by simpa using hitf, nodes := by
          intro k hk
          have hne : k ≠ m + 1 := by omega
          have h5 := hek k (by omega)
          simp only [hne, if_false] at h5
          simp only [mul_zero, zero_add, hd2, h5]
          ring } _ hcl 0
    unfold Holds at this
    rw [fc_eq, h11] at this
    simpa using this

/-- The recursion on patch 1. -/
theorem stage1_inv (hp1 : p1.Increasing) (r : Row) (hr : -1 < r.cd1 ∧ r.cd1 < 0) (N : ℕ) (h1 : N < p1.size) (M : ℕ) (hM : M + 2 ≤ N)
    (f1 f2 : ℤ → ℝ) (d1 : ℕ → ℝ) (e2 : ℝ) (hl : LeftRel p1 N f1 d1) (h : Holds p1 p2 r f1 f2 (d1 0) (d1 1) e2) :
    let t := recursion p1 p2 true (M + 2) { s0 := r, s1 := third p1 p2 r, s2 := r }
    Holds p1 p2 t.s0 f1 f2 (d1 0) (d1 (M + 1)) e2 ∧ Holds p1 p2 t.s1 f1 f2 (d1 0) (d1 (M + 2)) e2 ∧ Ratio t.s0.cd1 t.s1.cd1 ∧ (M ≠ 0 → t.s2 = t.s1) := by
  have hl1 := cellLengths_1 p1 p2 0
  have ha := alpha_bounds _ _ (h_pos p1 hp1 1 (by omega)) (h_pos p1 hp1 0 (by omega))
  have hb := beta_bounds _ _ (h_pos p1 hp1 1 (by omega)) (h_pos p1 hp1 0 (by omega))
  have hst := ratio_step _ _ _ ha hb hr
  have hD : 1 - r.cd1 * alpha (p1.h 1) (p1.h 0) ≠ 0 := by rw [mul_comm]; linarith [hst.1.2]
  have hq : Ratio r.cd1 (third p1 p2 r).cd1 := by
    refine ⟨hr.2.ne, ?_⟩
    have : (third p1 p2 r).cd1 / r.cd1 = beta (p1.h 1) (p1.h 0) / (1 - alpha (p1.h 1) (p1.h 0) * r.cd1) := by
      simp only [third, pos_one, zero_add] at hl1 ⊢
      rw [hl1]
      simp only []
      rw [mul_comm (alpha _ _), div_div, mul_comm r.cd1 (beta _ _), mul_div_mul_right _ _ hr.2.ne]
    rw [this]
    exact hst.2
  obtain ⟨a, b, c, _, e⟩ := recursion_inv (p1 := p1) (p2 := p2) true
    (fun r k => Holds p1 p2 r f1 f2 (d1 0) (d1 k) e2) (fun r0 r1 => Ratio r0.cd1 r1.cd1)
    { s0 := r, s1 := third p1 p2 r, s2 := r } N
    (by
      intro n t hn i0 i1 iq
      have hr := ratio_next_1 (p2 := p2) hp1 n (by omega) t iq
      exact ⟨next_holds_1 N n hn h1 f1 f2 d1 (d1 0) e2 hl t i0 i1 iq.1 hr.1, hr.2⟩)
    h (third_holds N (by omega) (by omega) f1 f2 d1 (d1 0) e2 hl rfl r h hD) hq M hM
  exact ⟨a, b, c, e⟩

/-! ## From splines to relations -/

theorem brk_pos (p : Patch) (e : Bool) (k : ℕ) (h : e = false ∨ k ≠ p.cells e) : p.brk e k = p.pos k := by
  unfold Patch.brk
  rw [if_neg]
  rintro ⟨h1, h2⟩
  rcases h with h | h
  · rw [h1] at h; cases h
  · exact h h2

theorem cub2 {e1 e2 : Bool} {s : ℝ → ℝ} (hs : GlobalSpline p1 p2 e1 e2 s) (k : ℕ) (hk : k < p2.cells e2) (h : e2 = false ∨ k + 1 < p2.cells e2) :
    CubicOn s (p2.dist (p2.pos k)) (p2.dist (p2.pos (k + 1))) := by
  have := hs.right k hk
  rwa [brk_pos p2 e2 k (Or.inr (by omega)), brk_pos p2 e2 (k + 1) (h.imp id fun h => by omega)] at this

theorem cub1 {e1 e2 : Bool} {s : ℝ → ℝ} (hs : GlobalSpline p1 p2 e1 e2 s) (k : ℕ) (hk : k < p1.cells e1) (h : e1 = false ∨ k + 1 < p1.cells e1) :
    CubicOn s (-p1.dist (p1.pos (k + 1))) (-p1.dist (p1.pos k)) := by
  have := hs.left k hk
  rwa [brk_pos p1 e1 k (Or.inr (by omega)), brk_pos p1 e1 (k + 1) (h.imp id fun h => by omega)] at this

/-- Number of cells whose ends are consecutive points. -/
def Patch.plain (p : Patch) (e : Bool) : ℕ := if e then p.cells e - 1 else p.cells e

theorem plain_lt (p : Patch) (e : Bool) (k : ℕ) (h : k < p.plain e) : k < p.cells e ∧ (e = false ∨ k + 1 < p.cells e) ∧ k + 1 < p.size := by
  unfold Patch.plain Patch.cells at *
  cases e <;> simp at * <;> omega

theorem spline_right {e1 e2 : Bool} {s : ℝ → ℝ} (hs : GlobalSpline p1 p2 e1 e2 s) (hp1 : p1.Increasing) (hp2 : p2.Increasing) (h1 : 0 < p1.plain e1)
    (h2 : 0 < p2.plain e2) : RightRel p1 p2 (p2.plain e2) (fun j => s (-p1.dist j)) (fun j => s (p2.dist j)) (fun k => deriv s (-p1.dist (p1.pos k)))
      (fun k => deriv s (p2.dist (p2.pos k))) where
  hd := by simp only [dist_itf, neg_zero]
  hf := by simp only [dist_itf, neg_zero]
  itf := by
    have q1 := plain_lt p1 e1 0 h1
    have q2 := plain_lt p2 e2 0 h2
    have c1 := cub1 hs 0 q1.1 q1.2.1
    have c2 := cub2 hs 0 q2.1 q2.2.1
    have l1 := dist_succ p1 hp1 0 (by omega)
    have l2 := dist_succ p2 hp2 0 (by omega)
    rw [dist_itf, zero_add] at l1 l2
    simp only [dist_itf, zero_add, l1, l2, neg_zero] at c1 c2 ⊢
    have := node_relation s hs.smooth 0 (p1.h 0) (p2.h 0) (h_pos p1 hp1 0 (by omega)) (h_pos p2 hp2 0 (by omega)) (by simpa using c1) (by simpa using c2)
    simpa using this
  nodes := by
    intro k hk
    have q1 := plain_lt p2 e2 k (by omega)
    have q2 := plain_lt p2 e2 (k + 1) (by omega)
    have c1 := cub2 hs k q1.1 q1.2.1
    have c2 := cub2 hs (k + 1) q2.1 q2.2.1
    have l1 := dist_succ p2 hp2 k (by omega)
    have l2 := dist_succ p2 hp2 (k + 1) (by omega)
    have := node_relation s hs.smooth (p2.dist (p2.pos (k + 1))) (p2.h k) (p2.h (k + 1)) (h_pos p2 hp2 k (by omega)) (h_pos p2 hp2 (k + 1) (by omega))
      (by rw [l1, add_sub_cancel_right, ← l1]; exact c1) (by rw [← l2]; exact c2)
    rw [← l2] at this
    have e : p2.dist (p2.pos (k + 1)) - p2.h k = p2.dist (p2.pos k) := by rw [l1]; ring
    rw [e] at this
    exact this

theorem spline_left {e1 e2 : Bool} {s : ℝ → ℝ} (hs : GlobalSpline p1 p2 e1 e2 s) (hp1 : p1.Increasing) :
    LeftRel p1 (p1.plain e1) (fun j => s (-p1.dist j)) (fun k => deriv s (-p1.dist (p1.pos k))) := by
  intro k hk
  have q1 := plain_lt p1 e1 k (by omega)
  have q2 := plain_lt p1 e1 (k + 1) (by omega)
  have c1 := cub1 hs k q1.1 q1.2.1
  have c2 := cub1 hs (k + 1) q2.1 q2.2.1
  have l1 := dist_succ p1 hp1 k (by omega)
  have l2 := dist_succ p1 hp1 (k + 1) (by omega)
  have ea : -p1.dist (p1.pos (k + 1)) - p1.h (k + 1) = -p1.dist (p1.pos (k + 1 + 1)) := by rw [l2]; ring
  have eb : -p1.dist (p1.pos (k + 1)) + p1.h k = -p1.dist (p1.pos k) := by rw [l1]; ring
  have := node_relation s hs.smooth (-p1.dist (p1.pos (k + 1))) (p1.h (k + 1)) (p1.h k) (h_pos p1 hp1 (k + 1) (by omega)) (h_pos p1 hp1 k (by omega))
    (by rw [ea]; exact c2) (by rw [eb]; exact c1)
  rw [ea, eb] at this
  simp only []
  linear_combination this

theorem spline_closure2 {e1 : Bool} {s : ℝ → ℝ} (hs : GlobalSpline p1 p2 e1 true s) (hp2 : p2.Increasing) (m : ℕ) (hm : p2.size = m + 5) :
    Closure2 p2 m (fun j => s (p2.dist j)) (fun k => deriv s (p2.dist (p2.pos k))) (deriv s (p2.dist (p2.pos (m + 4)))) := by
  have hcells : p2.cells true = m + 3 := by simp [Patch.cells, hm]
  have a := h_pos p2 hp2 (m + 1) (by omega)
  have b := h_pos p2 hp2 (m + 2) (by omega)
  have c := h_pos p2 hp2 (m + 3) (by omega)
  have l1 := dist_succ p2 hp2 (m + 1) (by omega)
  have l2 := dist_succ p2 hp2 (m + 2) (by omega)
  have l3 := dist_succ p2 hp2 (m + 3) (by omega)
  have c1 := cub2 hs (m + 1) (by omega) (by omega)
  have c2 := hs.right (m + 2) (by omega)
  rw [brk_pos p2 true (m + 2) (Or.inr (by omega))] at c2
  have eb : p2.brk true (m + 2 + 1) = p2.pos (m + 4) := by simp [Patch.brk, hcells]
  rw [eb] at c2
  have e4 : p2.dist (p2.pos (m + 4)) = p2.dist (p2.pos (m + 2)) + (p2.h (m + 2) + p2.h (m + 3)) := by rw [l3, l2]; ring
  have e1 : p2.dist (p2.pos (m + 2)) - p2.h (m + 1) = p2.dist (p2.pos (m + 1)) := by rw [l1]; ring
  constructor
  · have := node_relation s hs.smooth (p2.dist (p2.pos (m + 2))) (p2.h (m + 1)) (p2.h (m + 2) + p2.h (m + 3)) a (add_pos b c)
      (by rw [e1]; exact c1) (by rw [← e4]; exact c2)
    rw [e1, ← e4] at this
    exact this
  · intro x hx
    have hb := (frac_bounds _ _ b c).1
    rw [← hx] at hb
    have := hermite_value s hs.smooth (p2.dist (p2.pos (m + 2))) (p2.h (m + 2) + p2.h (m + 3)) x (add_pos b c) hb.1.le hb.2.le (by rw [← e4]; exact c2)
    have e : p2.dist (p2.pos (m + 2)) + x * (p2.h (m + 2) + p2.h (m + 3)) = p2.dist (p2.pos (m + 3)) := by
      rw [hx, div_mul_cancel₀ _ (add_pos b c).ne', l2]
    rw [e, ← e4] at this
    exact this

theorem spline_closure1 {e2 : Bool} {s : ℝ → ℝ} (hs : GlobalSpline p1 p2 true e2 s) (hp1 : p1.Increasing) (m : ℕ) (hm : p1.size = m + 5) :
    Closure1 p1 m (fun j => s (-p1.dist j)) (fun k => deriv s (-p1.dist (p1.pos k))) (deriv s (-p1.dist (p1.pos (m + 4)))) := by
  have hcells : p1.cells true = m + 3 := by simp [Patch.cells, hm]
  have a := h_pos p1 hp1 (m + 1) (by omega)
  have b := h_pos p1 hp1 (m + 2) (by omega)
  have c := h_pos p1 hp1 (m + 3) (by omega)
  have l1 := dist_succ p1 hp1 (m + 1) (by omega)
  have l2 := dist_succ p1 hp1 (m + 2) (by omega)
  have l3 := dist_succ p1 hp1 (m + 3) (by omega)
  have c1 := cub1 hs (m + 1) (by omega) (by omega)
  have c2 := hs.left (m + 2) (by omega)
  rw [brk_pos p1 true (m + 2) (Or.inr (by omega))] at c2
  have eb : p1.brk true (m + 2 + 1) = p1.pos (m + 4) := by simp [Patch.brk, hcells]
  rw [eb] at c2
  have e4 : -p1.dist (p1.pos (m + 4)) + (p1.h (m + 2) + p1.h (m + 3)) = -p1.dist (p1.pos (m + 2)) := by rw [l3, l2]; ring
  have e4' : -p1.dist (p1.pos (m + 2)) - (p1.h (m + 2) + p1.h (m + 3)) = -p1.dist (p1.pos (m + 4)) := by rw [l3, l2]; ring
  have e1 : -p1.dist (p1.pos (m + 2)) + p1.h (m + 1) = -p1.dist (p1.pos (m + 1)) := by rw [l1]; ring
  constructor
  · have := node_relation s hs.smooth (-p1.dist (p1.pos (m + 2))) (p1.h (m + 2) + p1.h (m + 3)) (p1.h (m + 1)) (add_pos b c) a
      (by rw [e4']; exact c2) (by rw [e1]; exact c1)
    rw [e1, e4'] at this
    linear_combination this
  · intro x hx
    have hb := (frac_bounds _ _ b c).2
    rw [← hx] at hb
    have := hermite_value s hs.smooth (-p1.dist (p1.pos (m + 4))) (p1.h (m + 2) + p1.h (m + 3)) x (add_pos b c) hb.1.le hb.2.le (by rw [e4]; exact c2)
    have e : -p1.dist (p1.pos (m + 4)) + x * (p1.h (m + 2) + p1.h (m + 3)) = -p1.dist (p1.pos (m + 3)) := by
      rw [hx, div_mul_cancel₀ _ (add_pos b c).ne', l3]; ring
    rw [e, e4] at this
    exact this

/-! ## Main results -/

/-- After the recursion on patch 2 only. -/
theorem stage2_exact (hp1 : p1.Increasing) (hp2 : p2.Increasing) (e1 e2 : Bool) (h1 : 0 < p1.plain e1)
    (h2 : if e2 then 3 ≤ p2.cells e2 else 2 ≤ p2.cells e2) :
    Exact p1 p2 e1 e2 (stage2 p1 p2 e2).s2 1 (p2.cells e2) ∧ -1 < (stage2 p1 p2 e2).s2.cd1 ∧ (stage2 p1 p2 e2).s2.cd1 < 0 := by
  have hs1 : 2 ≤ p1.size := (plain_lt p1 e1 0 h1).2.2
  have hb : ∀ s, GlobalSpline p1 p2 e1 e2 s → p1.brk e1 1 = p1.pos 1 := by
    intro s _
    apply brk_pos
    cases e1
    · exact Or.inl rfl
    · right; simp [Patch.plain] at h1; omega
  cases e2 with
  | false =>
    simp only [Bool.false_eq_true, if_false, Patch.cells] at h2
    refine ⟨?_, stage2_cd1 hp1 hp2 hs1 false (by simp; omega)⟩
    intro s hs
    have := stage2_plain hp1 hp2 hs1 (by omega) _ _ _ _ (spline_right hs hp1 hp2 h1 (by simp [Patch.plain, Patch.cells]; omega))
    unfold Holds at this
    rw [hb s hs, brk_pos p2 false _ (Or.inl rfl)]
    simp only [dist_itf] at this
    exact this
  | true =>
    simp only [if_true, Patch.cells] at h2
    refine ⟨?_, stage2_cd1 hp1 hp2 hs1 true (by simp; omega)⟩
    intro s hs
    obtain ⟨m, hm⟩ : ∃ m, p2.size = m + 5 := ⟨p2.size - 5, by omega⟩
    have hpl : p2.plain true = m + 2 := by simp [Patch.plain, Patch.cells, hm]
    have hr := spline_right hs hp1 hp2 h1 (by omega)
    rw [hpl] at hr
    have := stage2_extra hp1 hp2 hs1 m hm _ _ _ _ hr _ (spline_closure2 hs hp2 m hm) (deriv s (p2.dist (p2.brk true (p2.cells true))))
    unfold Holds at this
    rw [hb s hs]
    simp only [dist_itf] at this
    exact this

/-- The coefficient of patch 2 stays zero during the recursion on patch 1. -/
theorem stage1_zero (r : Row) (h : r.cd2 = 0) (M : ℕ) :
    let t := recursion p1 p2 true (M + 2) { s0 := r, s1 := third p1 p2 r, s2 := r }
    t.s0.cd2 = 0 ∧ t.s1.cd2 = 0 ∧ t.s2.cd2 = 0 := by
  have h3 : (third p1 p2 r).cd2 = 0 := by simp [third, h]
  obtain ⟨a, b, _, c, d⟩ := recursion_inv (p1 := p1) (p2 := p2) true (fun r _ => r.cd2 = 0) (fun _ _ => True)
    { s0 := r, s1 := third p1 p2 r, s2 := r } (M + 2)
    (by intro n t _ i0 i1 _; simp [nextRow, other, i0, i1]) h h3 trivial M (le_refl _)
  refine ⟨a, b, ?_⟩
  rcases Nat.eq_zero_or_pos M with h0 | h0
  · rw [c h0]; exact h
  · rw [d (by omega)]; exact b

/-- **C72** For increasing points, any extremities and any numbers of cells (at least three on patch 1; on patch 2 at least two, three with an additional
interpolation point): the coefficients give the derivative at the interface of every global cubic spline. With an additional interpolation point on
a patch the derivative at the end of this patch is not used. -/
theorem c72_non_uniform (hp1 : p1.Increasing) (hp2 : p2.Increasing) (e1 e2 : Bool) (h1 : 3 ≤ p1.cells e1)
    (h2 : if e2 then 3 ≤ p2.cells e2 else 2 ≤ p2.cells e2) :
    ∃ r, nonUniform p1 p2 e1 e2 = some r ∧ Exact p1 p2 e1 e2 r (p1.cells e1) (p2.cells e2) ∧ (e1 = true → r.cd1 = 0) ∧ (e2 = true → r.cd2 = 0) := by
  have h1' : 0 < p1.plain e1 := by unfold Patch.plain; split <;> omega
  obtain ⟨hx, hcd⟩ := stage2_exact hp1 hp2 e1 e2 h1' h2
  have hs1 : 4 ≤ p1.size := by unfold Patch.cells at h1; split at h1 <;> omega
  have hs2 : 3 ≤ p2.size := by unfold Patch.cells at h2; split at h2 <;> simp_all <;> omega
  have hn : ¬(p1.size < 2 ∨ p2.size < 2) := by omega
  refine ⟨_, by rw [nonUniform, if_neg hn], ?_, ?_, ?_⟩
  · intro s hs
    have hst := hx s hs
    have hb : p1.brk e1 1 = p1.pos 1 := brk_pos p1 e1 1 (Or.inr (by omega))
    rw [hb] at hst
    have hH : Holds p1 p2 (stage2 p1 p2 e2).s2 (fun j => s (-p1.dist j)) (fun j => s (p2.dist j)) ((fun k => deriv s (-p1.dist (p1.pos k))) 0)
        ((fun k => deriv s (-p1.dist (p1.pos k))) 1) (deriv s (p2.dist (p2.brk e2 (p2.cells e2)))) := by
      unfold Holds
      simp only [dist_itf, neg_zero]
      exact hst
    cases e1 with
    | false =>
      have hc : p1.cells false = p1.size - 1 := rfl
      have hi := stage1_inv hp1 _ hcd (p1.size - 1) (by omega) (p1.size - 1 - 2) (by omega) _ _ _ _ (spline_left hs hp1) hH
      have e : p1.size - 1 - 2 + 2 = p1.size - 1 := by omega
      rw [e] at hi
      simp only [Bool.false_eq_true, if_false]
      rw [hi.2.2.2 (by omega)]
      have := hi.2.1
      unfold Holds at this
      simp only [dist_itf, neg_zero] at this
      rw [brk_pos p1 false _ (Or.inl rfl), hc]
      exact this
    | true =>
      have hc : p1.cells true = p1.size - 2 := rfl
      obtain ⟨m, hm⟩ : ∃ m, p1.size = m + 5 := ⟨p1.size - 5, by omega⟩
      have hpl : p1.plain true = m + 2 := by simp [Patch.plain, Patch.cells, hm]
      have hl := spline_left hs hp1
      rw [hpl] at hl
      have hi := stage1_inv hp1 _ hcd (m + 2) (by omega) m (by omega) _ _ _ _ hl hH
      have e : p1.size - 3 = m + 2 := by omega
      simp only [if_true, e]
      have := correction_holds_1 hp1 m hm _ _ _ _ _ _ (spline_closure1 hs hp1 m hm) _ hi.1 hi.2.1 hi.2.2.1
        (deriv s (-p1.dist (p1.brk true (p1.cells true))))
      unfold Holds at this
      simp only [dist_itf, neg_zero] at this
      exact this
  · rintro rfl
    simp [correction, own]
  · rintro rfl
    have hz : (stage2 p1 p2 true).s2.cd2 = 0 := by simp [stage2, correction, own]
    obtain ⟨n, hn⟩ : ∃ n, (if e1 = true then p1.size - 3 else p1.size - 1) = n + 2 := by
      refine ⟨(if e1 = true then p1.size - 3 else p1.size - 1) - 2, ?_⟩
      unfold Patch.cells at h1
      split at h1 <;> simp_all <;> omega
    rw [hn]
    have := stage1_zero (p1 := p1) (p2 := p2) _ hz n
    cases e1 with
    | false => exact this.2.2
    | true => simp [correction, other, this.1, this.2.1]

/-! ### The constructor with a number of cells -/

/-- The ranges taken by the constructor with a number of cells: the `n` cells (or all of them) next to the interface, same points. -/
theorem reduced_spec (p : Patch) (n : ℕ) (hp : p.Increasing) : (p.reduced n).size = min (n + 1) p.size ∧ (p.reduced n).ext = p.ext ∧
    (∀ k, (p.reduced n).pos k = p.pos k) ∧ (∀ k, (p.reduced n).dist (p.pos k) = p.dist (p.pos k)) ∧ (p.reduced n).Increasing := by
  rcases he : p.ext with _ | _
  · have hitf : (p.reduced n).itf = p.itf := by simp [Patch.reduced, he, Patch.itf]
    refine ⟨by simp [Patch.reduced, he], by simp [Patch.reduced, he], fun k => ?_, fun k => ?_, ?_⟩
    · unfold Patch.pos; rw [hitf]; simp [Patch.step, Patch.reduced, he]
    · unfold Patch.dist; rw [hitf]; simp [Patch.reduced, he]
    · intro i j hi hij hj
      simp only [Patch.reduced, he, Patch.back] at hi hj ⊢
      exact hp i j hi hij (by unfold Patch.back; omega)
  · have hitf : (p.reduced n).itf = p.itf := by simp [Patch.reduced, he, Patch.itf, Patch.back]; ring
    refine ⟨by simp [Patch.reduced, he], by simp [Patch.reduced, he], fun k => ?_, fun k => ?_, ?_⟩
    · unfold Patch.pos; rw [hitf]; simp [Patch.step, Patch.reduced, he]
    · unfold Patch.dist; rw [hitf]; simp [Patch.reduced, he]
    · intro i j hi hij hj
      simp only [Patch.reduced, he, Patch.back] at hi hj ⊢
      exact hp i j (by omega) hij (by unfold Patch.back; omega)

/-- **C72** The constructor with a number of cells, at least three and at most the cells of the patches: the derivative is recovered from the values
on the chosen cells and the derivatives of the spline at their ends. -/
theorem c72_chosen_cells (hp1 : p1.Increasing) (hp2 : p2.Increasing) (n : ℕ) (hn : 3 ≤ n) (h1 : n < p1.size) (h2 : n < p2.size) :
    ∃ r, nonUniform (p1.reduced n) (p2.reduced n) false false = some r ∧ ∀ s, GlobalSpline p1 p2 false false s →
      deriv s 0 = functionCoeffs (p1.reduced n) (p2.reduced n) r (fun j => s (-p1.dist j)) (fun j => s (p2.dist j)) +
        r.cd2 * deriv s (p2.dist (p2.pos n)) + r.cd1 * deriv s (-p1.dist (p1.pos n)) := by
  obtain ⟨a1, b1, c1, d1, i1⟩ := reduced_spec p1 n hp1
  obtain ⟨a2, b2, c2, d2, i2⟩ := reduced_spec p2 n hp2
  have e1 : (p1.reduced n).cells false = n := by simp only [Patch.cells, Bool.false_eq_true, if_false]; omega
  have e2 : (p2.reduced n).cells false = n := by simp only [Patch.cells, Bool.false_eq_true, if_false]; omega
  have x1 : (p1.reduced n).dist = p1.dist := by
    funext j; have := c1 0; simp only [pos_zero] at this
    unfold Patch.dist; rw [this]; simp only [Patch.reduced]; cases p1.ext <;> rfl
  have x2 : (p2.reduced n).dist = p2.dist := by
    funext j; have := c2 0; simp only [pos_zero] at this
    unfold Patch.dist; rw [this]; simp only [Patch.reduced]; cases p2.ext <;> rfl
  obtain ⟨r, hr, hx, _⟩ := c72_non_uniform i1 i2 false false (by omega) (by simp; omega)
  refine ⟨r, hr, fun s hs => ?_⟩
  have hg : GlobalSpline (p1.reduced n) (p2.reduced n) false false s := by
    refine ⟨hs.smooth, fun k hk => ?_, fun k hk => ?_⟩
    · have := hs.left k (by simp [Patch.cells]; omega)
      simpa only [brk_pos _ false _ (Or.inl rfl), c1, x1] using this
    · have := hs.right k (by simp [Patch.cells]; omega)
      simpa only [brk_pos _ false _ (Or.inl rfl), c2, x2] using this
  have := hx s hg
  rw [e1, e2, brk_pos _ false _ (Or.inl rfl), brk_pos _ false _ (Or.inl rfl), c1, c2, x1, x2] at this
  exact this

/-! ### Small patches -/

theorem square_spline (e1 e2 : Bool) : GlobalSpline p1 p2 e1 e2 (fun z => z ^ 2) :=
  ⟨by fun_prop, fun _ _ => ⟨0, 0, 1, 0, fun z _ _ => by ring⟩, fun _ _ => ⟨0, 0, 1, 0, fun z _ _ => by ring⟩⟩

/-- **C72, finding** With exactly two cells on patch 1 (which the class accepts) the coefficients are those of the step before: they recover the interface derivative from
the derivative at the point next to the interface, and never from the derivative at the end of the two cells. -/
theorem c72_two_cells (hp1 : p1.Increasing) (hp2 : p2.Increasing) (e2 : Bool) (h1 : p1.size = 3)
    (h2 : if e2 then 3 ≤ p2.cells e2 else 2 ≤ p2.cells e2) :
    ∃ r, nonUniform p1 p2 false e2 = some r ∧ Exact p1 p2 false e2 r 1 (p2.cells e2) ∧ ¬Exact p1 p2 false e2 r 2 (p2.cells e2) := by
  have hs2 : 3 ≤ p2.size := by unfold Patch.cells at h2; cases e2 <;> simp at h2 <;> omega
  obtain ⟨hx, hcd⟩ := stage2_exact hp1 hp2 false e2 (by simp [Patch.plain, Patch.cells, h1]) h2
  have hr : nonUniform p1 p2 false e2 = some (stage2 p1 p2 e2).s2 := by
    have hn : ¬(p1.size < 2 ∨ p2.size < 2) := by omega
    rw [nonUniform, if_neg hn]
    simp only [Bool.false_eq_true, if_false, h1]
    rfl
  refine ⟨_, hr, hx, fun h => ?_⟩
  have a := hx _ (square_spline false e2)
  have b := h _ (square_spline false e2)
  have hd : ∀ z : ℝ, deriv (fun z => z ^ 2) z = 2 * z := fun z => by simp
  rw [a, brk_pos p1 false _ (Or.inl rfl), brk_pos p1 false _ (Or.inl rfl)] at b
  simp only [hd] at b
  have l := dist_succ p1 hp1 1 (by omega)
  have p := h_pos p1 hp1 1 (by omega)
  have q : (stage2 p1 p2 e2).s2.cd1 * p1.h 1 = 0 := by
    have : p1.dist (p1.pos 2) = p1.dist (p1.pos 1) + p1.h 1 := l
    rw [this] at b
    linarith
  rcases mul_eq_zero.1 q with q | q
  · linarith [hcd.2]
  · linarith

/-- **C72, finding** "Please provide at least 2 cells" is raised only for less than two points: one cell per patch is accepted, and the result then depends on
coordinates outside of the index ranges (an out-of-range read). -/
theorem c72_one_cell : ∃ p1 p2 p2' : Patch, p1.size = 2 ∧ p2.size = 2 ∧ p2'.size = 2 ∧ p1.Increasing ∧ p2.Increasing ∧ p2'.Increasing ∧
    (p2.ext = p2'.ext ∧ p2.front = p2'.front) ∧ (∀ i, p2.front ≤ i → i ≤ p2.back → p2.x i = p2'.x i) ∧
    ∃ r r', nonUniform p1 p2 false false = some r ∧ nonUniform p1 p2' false false = some r' ∧ r.cd1 ≠ r'.cd1 := by
  refine ⟨⟨.back, 0, 2, fun i => i⟩, ⟨.front, 0, 2, fun i => i⟩, ⟨.front, 0, 2, fun i => if i ≤ 1 then (i : ℝ) else 3⟩, rfl, rfl, rfl, ?_, ?_, ?_, ⟨rfl, rfl⟩, ?_, _, _, rfl, rfl, ?_⟩
  · intro i j _ h _; show (i : ℝ) < j; exact_mod_cast h
  · intro i j _ h _; show (i : ℝ) < j; exact_mod_cast h
  · intro i j _ h hj
    simp only [Patch.back] at hj
    simp only [show i ≤ 1 by omega, show j ≤ 1 by omega, if_true]
    exact_mod_cast h
  · intro i _ hi
    simp only [Patch.back] at hi
    simp only [show i ≤ 1 by omega, if_true]
  · norm_num [stage2, recursion, second, start, cellLengths, alpha, beta, Patch.itf, Patch.step, Patch.back, show Ext.back ≠ Ext.front from nofun]

/-! ### Non-vacuity -/

/-- Points with growing distances, the interface at the last point on patch 1 and at the first one on patch 2. -/
noncomputable def exP1 (n : ℕ) : Patch := ⟨.back, 0, n, fun i => (i : ℝ) ^ 3 + i⟩
noncomputable def exP2 (n : ℕ) : Patch := ⟨.front, 5, n, fun i => (i : ℝ) ^ 3 + i⟩

theorem exCubic_mono {i j : ℤ} (h : i < j) : ((i : ℝ) ^ 3 + i) < (j : ℝ) ^ 3 + j := by
  have h' : (i : ℝ) < j := by exact_mod_cast h
  nlinarith [sq_nonneg ((i : ℝ) + j), sq_nonneg (i : ℝ), sq_nonneg (j : ℝ), mul_pos (sub_pos.2 h') (sub_pos.2 h')]

example : (exP1 7).Increasing ∧ (exP2 9).Increasing ∧ 3 ≤ (exP1 7).cells true ∧ 3 ≤ (exP2 9).cells true ∧ 2 ≤ (exP2 9).cells false ∧
    GlobalSpline (exP1 7) (exP2 9) true false (fun z => z ^ 2) :=
  ⟨fun _ _ _ h _ => exCubic_mono h, fun _ _ _ h _ => exCubic_mono h, by simp [Patch.cells, exP1], by simp [Patch.cells, exP2], by simp [Patch.cells, exP2],
    square_spline _ _⟩

example : ∃ r, nonUniform (exP1 7) (exP2 9) true true = some r ∧ Exact (exP1 7) (exP2 9) true true r 5 7 ∧ r.cd1 = 0 ∧ r.cd2 = 0 := by
  obtain ⟨r, h1, h2, h3, h4⟩ := c72_non_uniform (p1 := exP1 7) (p2 := exP2 9) (fun _ _ _ h _ => exCubic_mono h) (fun _ _ _ h _ => exCubic_mono h) true true
    (by simp [Patch.cells, exP1]) (by simp [Patch.cells, exP2])
  exact ⟨r, h1, h2, h3 rfl, h4 rfl⟩

end Verif.InterfaceDerivs
