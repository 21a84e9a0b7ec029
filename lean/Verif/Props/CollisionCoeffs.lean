import Verif.Model.Collisions
import Verif.Props.CollisionsInter
import Verif.Props.CollisionsIntra
import Mathlib.Analysis.Calculus.Deriv.Abs
import Mathlib.Analysis.Calculus.LHopital
import Mathlib.Analysis.Calculus.Deriv.MeanValue
import Mathlib.Analysis.SpecialFunctions.ExpDeriv
import Mathlib.Analysis.SpecialFunctions.Sqrt
import Mathlib.MeasureTheory.Integral.IntervalIntegral.FundThmCalculus
import Mathlib.Tactic.FieldSimp
import Mathlib.Tactic.LinearCombination
import Mathlib.Tactic.Linarith
import Mathlib.Tactic.Positivity
import Mathlib.Tactic.NormNum
import Mathlib.Tactic.Ring

/-!
# C63: coefficients of the intra-species collision operator

The operator is `∂_v (D ∂_v f - Nu f)`; after integration by parts its momentum is `∫ (∂_v D + Nu) f` and its energy
`∫ ((D + v ∂_v D) + v Nu) f`.  The kernel velocity and temperature are chosen so that the two (discrete) integrals vanish.
-/

namespace Verif.Collisions

open Real Filter Topology

theorem meansLoop_eq (n : ℕ) (w v f D dvD : ℕ → ℝ) :
    meansLoop n w v f D dvD = ⟨∑ k ∈ Finset.range n, w k * (D k * f k), ∑ k ∈ Finset.range n, w k * (D k * f k * v k),
      ∑ k ∈ Finset.range n, w k * (D k * f k * v k ^ 2), ∑ k ∈ Finset.range n, w k * (dvD k * f k),
      ∑ k ∈ Finset.range n, w k * (D k * f k + dvD k * f k * v k)⟩ := by
  unfold meansLoop
  induction n with
  | zero => simp
  | succ n ih =>
      rw [List.range_succ, List.foldl_append, ih]
      simp only [List.foldl_cons, List.foldl_nil, Finset.sum_range_succ]
      congr 1
      ring

/-- **C63** The operator conserves momentum and energy in the discrete (quadrature) sense, for every distribution and every
diffusion coefficient for which the kernel moments are defined. -/
theorem c63_conservation (n : ℕ) (w v f D dvD : ℕ → ℝ) :
    let m := meansLoop n w v f D dvD
    let Nu := fun k => nucoll (D k) (v k) (vcoll m) (tcoll m)
    m.i0 * m.i4 - m.i1 * m.i3 ≠ 0 → tcoll m ≠ 0 →
    (∑ k ∈ Finset.range n, w k * ((dvD k + Nu k) * f k) = 0) ∧
      (∑ k ∈ Finset.range n, w k * (((D k + v k * dvD k) + v k * Nu k) * f k) = 0) := by
  intro m Nu hP hT
  have hm := meansLoop_eq n w v f D dvD
  have e0 : m.i0 = ∑ k ∈ Finset.range n, w k * (D k * f k) := by simp only [m, hm]
  have e1 : m.i1 = ∑ k ∈ Finset.range n, w k * (D k * f k * v k) := by simp only [m, hm]
  have e2 : m.i2 = ∑ k ∈ Finset.range n, w k * (D k * f k * v k ^ 2) := by simp only [m, hm]
  have e3 : m.i3 = ∑ k ∈ Finset.range n, w k * (dvD k * f k) := by simp only [m, hm]
  have e4 : m.i4 = ∑ k ∈ Finset.range n, w k * (D k * f k + dvD k * f k * v k) := by simp only [m, hm]
  have hV : (m.i0 * m.i4 - m.i1 * m.i3) * vcoll m = m.i1 * m.i4 - m.i2 * m.i3 := by
    rw [vcoll]; field_simp
  have hTc : (m.i0 * m.i4 - m.i1 * m.i3) * tcoll m = m.i0 * m.i2 - m.i1 * m.i1 := by
    rw [tcoll]; field_simp
  have s1 : ∑ k ∈ Finset.range n, w k * ((dvD k + Nu k) * f k)
      = m.i3 - (m.i1 - vcoll m * m.i0) / tcoll m := by
    rw [e0, e1, e3, sub_div, Finset.mul_sum, Finset.sum_div, Finset.sum_div, ← Finset.sum_sub_distrib,
      ← Finset.sum_sub_distrib]
    refine Finset.sum_congr rfl fun k _ => ?_
    simp only [Nu, nucoll]
    field_simp
    ring
  have s2 : ∑ k ∈ Finset.range n, w k * (((D k + v k * dvD k) + v k * Nu k) * f k)
      = m.i4 - (m.i2 - vcoll m * m.i1) / tcoll m := by
    rw [e1, e2, e4, sub_div, Finset.mul_sum, Finset.sum_div, Finset.sum_div, ← Finset.sum_sub_distrib,
      ← Finset.sum_sub_distrib]
    refine Finset.sum_congr rfl fun k _ => ?_
    simp only [Nu, nucoll]
    field_simp
    ring
  constructor
  · rw [s1, sub_eq_zero, eq_div_iff hT]
    refine mul_left_cancel₀ hP ?_
    linear_combination m.i3 * hTc + m.i0 * hV
  · rw [s2, sub_eq_zero, eq_div_iff hT]
    refine mul_left_cancel₀ hP ?_
    linear_combination m.i4 * hTc + m.i1 * hV

/-- **C63** Those coefficients are the only ones: any kernel velocity and temperature conserving discrete momentum and energy
are the computed ones. -/
theorem c63_unique (n : ℕ) (w v f D dvD : ℕ → ℝ) (V T : ℝ) (hT : T ≠ 0) :
    let m := meansLoop n w v f D dvD
    m.i0 * m.i4 - m.i1 * m.i3 ≠ 0 →
    (∑ k ∈ Finset.range n, w k * ((dvD k + nucoll (D k) (v k) V T) * f k) = 0) →
    (∑ k ∈ Finset.range n, w k * (((D k + v k * dvD k) + v k * nucoll (D k) (v k) V T) * f k) = 0) →
    V = vcoll m ∧ T = tcoll m := by
  intro m hP h1 h2
  have hm := meansLoop_eq n w v f D dvD
  have e0 : m.i0 = ∑ k ∈ Finset.range n, w k * (D k * f k) := by simp only [m, hm]
  have e1 : m.i1 = ∑ k ∈ Finset.range n, w k * (D k * f k * v k) := by simp only [m, hm]
  have e2 : m.i2 = ∑ k ∈ Finset.range n, w k * (D k * f k * v k ^ 2) := by simp only [m, hm]
  have e3 : m.i3 = ∑ k ∈ Finset.range n, w k * (dvD k * f k) := by simp only [m, hm]
  have e4 : m.i4 = ∑ k ∈ Finset.range n, w k * (D k * f k + dvD k * f k * v k) := by simp only [m, hm]
  have s1 : ∑ k ∈ Finset.range n, w k * ((dvD k + nucoll (D k) (v k) V T) * f k)
      = m.i3 - (m.i1 - V * m.i0) / T := by
    rw [e0, e1, e3, sub_div, Finset.mul_sum, Finset.sum_div, Finset.sum_div, ← Finset.sum_sub_distrib,
      ← Finset.sum_sub_distrib]
    refine Finset.sum_congr rfl fun k _ => ?_
    simp only [nucoll]
    field_simp
    ring
  have s2 : ∑ k ∈ Finset.range n, w k * (((D k + v k * dvD k) + v k * nucoll (D k) (v k) V T) * f k)
      = m.i4 - (m.i2 - V * m.i1) / T := by
    rw [e1, e2, e4, sub_div, Finset.mul_sum, Finset.sum_div, Finset.sum_div, ← Finset.sum_sub_distrib,
      ← Finset.sum_sub_distrib]
    refine Finset.sum_congr rfl fun k _ => ?_
    simp only [nucoll]
    field_simp
    ring
  rw [s1, sub_eq_zero, eq_div_iff hT] at h1
  rw [s2, sub_eq_zero, eq_div_iff hT] at h2
  constructor
  · rw [vcoll]; field_simp
    linear_combination m.i4 * h1 - m.i3 * h2
  · rw [tcoll]; field_simp
    linear_combination m.i0 * h2 - m.i1 * h1

/-- A concrete case meets the hypotheses of `c63_conservation`: three points, constant diffusion. -/
example : let m := meansLoop 3 (fun _ => 1) (fun k => (k:ℝ) - 1) (fun _ => 1) (fun _ => 1) (fun _ => 0)
    m.i0 * m.i4 - m.i1 * m.i3 ≠ 0 ∧ tcoll m ≠ 0 := by
  intro m
  have hm : m = ⟨3, 0, 2, 0, 3⟩ := by
    simp only [m, meansLoop_eq, Finset.sum_range_succ, Finset.sum_range_zero]
    norm_num
  rw [hm, tcoll]
  norm_num

/-! ## The diffusion coefficient and its derivative -/

theorem hasDerivAt_erf (x : ℝ) : HasDerivAt erf (phiPrime x) x := by
  have hc : Continuous fun t : ℝ => exp (-t ^ 2) := by fun_prop
  have := (intervalIntegral.integral_hasDerivAt_right (hc.intervalIntegrable 0 x)
    (hc.stronglyMeasurableAtFilter _ _) hc.continuousAt).const_mul (2 / sqrt π)
  unfold erf phiPrime
  rwa [show -x * x = -x ^ 2 by ring]

theorem erf_zero : erf 0 = 0 := by simp [erf]

theorem phiPrime_pos (x : ℝ) : 0 < phiPrime x := by unfold phiPrime; positivity

theorem hasDerivAt_phiPrime (x : ℝ) : HasDerivAt phiPrime (-2 * x * phiPrime x) x := by
  have h1 : HasDerivAt (fun y : ℝ => -y * y) (-2 * x) x := by
    exact ((hasDerivAt_id' x).fun_neg.fun_mul (hasDerivAt_id' x)).congr_deriv (by ring)
  have := (h1.exp).const_mul (2 / sqrt π)
  unfold phiPrime
  exact this.congr_deriv (by ring)

/-- `erf x - x erf' x`, twice `x²` times the Chandrasekhar function. -/
noncomputable def numer (x : ℝ) : ℝ := erf x - x * phiPrime x

theorem hasDerivAt_numer (x : ℝ) : HasDerivAt numer (2 * x ^ 2 * phiPrime x) x := by
  have := (hasDerivAt_erf x).fun_sub ((hasDerivAt_id' x).fun_mul (hasDerivAt_phiPrime x))
  unfold numer
  exact this.congr_deriv (by ring)

theorem pos_of_deriv_pos {g g' : ℝ → ℝ} (hg : ∀ x, HasDerivAt g (g' x) x) (h0 : g 0 = 0)
    (hpos : ∀ x, 0 < x → 0 < g' x) {x : ℝ} (hx : 0 < x) : 0 < g x := by
  have hmono : StrictMonoOn g (Set.Ici 0) := by
    refine strictMonoOn_of_deriv_pos (convex_Ici 0) (fun y _ => (hg y).continuousAt.continuousWithinAt) ?_
    intro y hy
    rw [interior_Ici] at hy
    rw [(hg y).deriv]
    exact hpos y hy
  have := hmono (Set.mem_Ici.2 le_rfl) (Set.mem_Ici.2 hx.le) hx
  rwa [h0] at this

theorem erf_pos {x : ℝ} (hx : 0 < x) : 0 < erf x :=
  pos_of_deriv_pos hasDerivAt_erf erf_zero (fun y _ => phiPrime_pos y) hx

theorem numer_pos {x : ℝ} (hx : 0 < x) : 0 < numer x :=
  pos_of_deriv_pos hasDerivAt_numer (by simp [numer, erf_zero])
    (fun y hy => by have := phiPrime_pos y; positivity) hx

theorem psi_eq (x : ℝ) : psi x = numer x / (2 * x ^ 2) := by
  simp only [psi, numer]
  rcases eq_or_ne x 0 with rfl | hx
  · simp
  · field_simp; norm_num; ring

theorem psi_pos {x : ℝ} (hx : 0 < x) : 0 < psi x := by
  rw [psi_eq]; have := numer_pos hx; positivity

/-- `erf - psi` is positive: the diffusion coefficient is. -/
theorem erf_sub_psi_pos {x : ℝ} (hx : 0 < x) : 0 < erf x - psi x := by
  have h : ∀ y, HasDerivAt (fun y => 2 * y ^ 2 * erf y - numer y) (4 * y * erf y) y := by
    intro y
    have h2 : HasDerivAt (fun y : ℝ => 2 * y ^ 2) (4 * y) y := by
      have := ((hasDerivAt_pow 2 y).const_mul 2)
      exact this.congr_deriv (by norm_num; ring)
    have := (h2.fun_mul (hasDerivAt_erf y)).fun_sub (hasDerivAt_numer y)
    exact this.congr_deriv (by ring)
  have := pos_of_deriv_pos h (by simp [numer, erf_zero]) (fun y hy => by have := erf_pos hy; positivity) hx
  rw [psi_eq]
  have hx2 : 0 < 2 * x ^ 2 := by positivity
  rw [show erf x - numer x / (2 * x ^ 2) = (2 * x ^ 2 * erf x - numer x) / (2 * x ^ 2) by field_simp]
  exact div_pos this hx2

/-- `3 psi - erf` is negative: the diffusion coefficient decreases with `|v|`. -/
theorem three_psi_sub_erf_neg {x : ℝ} (hx : 0 < x) : 3 * psi x - erf x < 0 := by
  have h : ∀ y, HasDerivAt (fun y => 2 * y ^ 2 * erf y - 3 * numer y) (4 * y * numer y) y := by
    intro y
    have h2 : HasDerivAt (fun y : ℝ => 2 * y ^ 2) (4 * y) y := by
      have := ((hasDerivAt_pow 2 y).const_mul 2)
      exact this.congr_deriv (by norm_num; ring)
    have := (h2.fun_mul (hasDerivAt_erf y)).fun_sub ((hasDerivAt_numer y).const_mul 3)
    exact this.congr_deriv (by simp only [numer]; ring)
  have := pos_of_deriv_pos h (by simp [numer, erf_zero]) (fun y hy => by have := numer_pos hy; positivity) hx
  rw [psi_eq]
  have hx2 : 0 < 2 * x ^ 2 := by positivity
  rw [show 3 * (numer x / (2 * x ^ 2)) - erf x = -((2 * x ^ 2 * erf x - 3 * numer x) / (2 * x ^ 2)) by field_simp; ring]
  exact neg_lt_zero.2 (div_pos this hx2)

/-- The profile `(erf - psi) / x` and its derivative. -/
theorem hasDerivAt_profile {x : ℝ} (hx : x ≠ 0) :
    HasDerivAt (fun y => (erf y - psi y) * (1 / y)) ((3 * psi x - erf x) * (1 / x) * (1 / x)) x := by
  have e : (fun y => (erf y - psi y) * (1 / y)) = fun y => (erf y - numer y / (2 * y ^ 2)) / y := by
    funext y; rw [psi_eq]; ring
  have h2 : HasDerivAt (fun y : ℝ => 2 * y ^ 2) (4 * x) x := by
    have := ((hasDerivAt_pow 2 x).const_mul 2)
    exact this.congr_deriv (by norm_num; ring)
  have := ((hasDerivAt_erf x).fun_sub ((hasDerivAt_numer x).fun_div h2 (by positivity))).fun_div (hasDerivAt_id' x) hx
  rw [e]
  refine this.congr_deriv ?_
  rw [psi_eq]
  simp only [numer]
  field_simp
  ring

/-- **C63** The coefficient used for `∂_v D` is the derivative of the coefficient used for `D`, at every velocity where the
general formula is used (any sign of `v`). -/
theorem c63_derivative (T nu v : ℝ) (hT : 0 < T) (hv : 1e-15 < |v| / sqrt (2 * T)) :
    HasDerivAt (dcoll T nu) (dvDcoll T nu v) v := by
  have hvT : 0 < sqrt (2 * T) := sqrt_pos.2 (by positivity)
  have hv0 : v ≠ 0 := by
    rintro rfl
    simp at hv
    linarith
  have hx : |v| / sqrt (2 * T) ≠ 0 := by positivity
  have habs : HasDerivAt (fun y : ℝ => |y| / sqrt (2 * T)) (v / |v| / sqrt (2 * T)) v := by
    rcases lt_or_gt_of_ne hv0 with h | h
    · have := (hasDerivAt_abs_neg h).div_const (sqrt (2 * T))
      rwa [abs_of_neg h, div_neg, div_self hv0]
    · have := (hasDerivAt_abs_pos h).div_const (sqrt (2 * T))
      rwa [abs_of_pos h, div_self hv0]
  have hcomp : HasDerivAt (fun y => coefAD T nu * ((erf (|y| / sqrt (2 * T)) - psi (|y| / sqrt (2 * T)))
      * (1 / (|y| / sqrt (2 * T))))) (coefAD T nu * ((3 * psi (|v| / sqrt (2 * T)) - erf (|v| / sqrt (2 * T)))
      * (1 / (|v| / sqrt (2 * T))) * (1 / (|v| / sqrt (2 * T))) * (v / |v| / sqrt (2 * T)))) v :=
    (HasDerivAt.comp v (h₂ := fun y => (erf y - psi y) * (1 / y)) (hasDerivAt_profile hx) habs).const_mul (coefAD T nu)
  have hev : dcoll T nu =ᶠ[𝓝 v] fun y => coefAD T nu * ((erf (|y| / sqrt (2 * T)) - psi (|y| / sqrt (2 * T)))
      * (1 / (|y| / sqrt (2 * T)))) := by
    have hc : ContinuousAt (fun y : ℝ => |y| / sqrt (2 * T)) v := habs.continuousAt
    filter_upwards [hc.eventually (lt_mem_nhds hv)] with y hy
    simp only [dcoll, if_pos hy]
    ring
  refine (hcomp.congr_of_eventuallyEq hev).congr_deriv ?_
  simp only [dvDcoll, if_pos hv]
  ring

/-- **C63** The diffusion coefficient is positive at every velocity. -/
theorem c63_positive (T nu v : ℝ) (hT : 0 < T) (hnu : 0 < nu) : 0 < dcoll T nu v := by
  have hvT : 0 < sqrt (2 * T) := sqrt_pos.2 (by positivity)
  simp only [dcoll]
  split_ifs with h
  · have hx : 0 < |v| / sqrt (2 * T) := lt_trans (by norm_num) h
    have h1 := erf_sub_psi_pos hx
    have h2 : 0 < coefAD T nu := by unfold coefAD; positivity
    positivity
  · positivity

/-- **C63** The derivative coefficient has the sign opposite to the velocity: diffusion decreases with `|v|`. -/
theorem c63_decreasing (T nu v : ℝ) (hT : 0 < T) (hnu : 0 < nu) (hv : 1e-15 < |v| / sqrt (2 * T)) :
    v * dvDcoll T nu v < 0 := by
  have hvT : 0 < sqrt (2 * T) := sqrt_pos.2 (by positivity)
  have hx : 0 < |v| / sqrt (2 * T) := lt_trans (by norm_num) hv
  have hv0 : 0 < |v| := by
    by_contra h
    have : |v| = 0 := le_antisymm (not_lt.1 h) (abs_nonneg v)
    rw [this] at hx; simp at hx
  simp only [dvDcoll, if_pos hv]
  have h1 := three_psi_sub_erf_neg hx
  have h2 : 0 < coefAD T nu := by unfold coefAD; positivity
  have h3 : 0 < v * (v / |v|) := by
    rw [← mul_div_assoc, ← abs_mul_abs_self]; positivity
  have h4 : 0 < coefAD T nu / sqrt (2 * T) * (1 / (|v| / sqrt (2 * T))) * (1 / (|v| / sqrt (2 * T))) := by positivity
  have := mul_neg_of_pos_of_neg (mul_pos h3 h4) h1
  calc _ = v * (v / |v|) * (coefAD T nu / sqrt (2 * T) * (1 / (|v| / sqrt (2 * T))) * (1 / (|v| / sqrt (2 * T))))
        * (3 * psi (|v| / sqrt (2 * T)) - erf (|v| / sqrt (2 * T))) := by ring
    _ < 0 := this

/-- **C63** The value used near zero velocity is the limit of the general formula at zero velocity. -/
theorem c63_limit (T nu : ℝ) :
    Tendsto (fun x => coefAD T nu * ((erf x - psi x) * (1 / x))) (𝓝[≠] 0) (𝓝 (sqrt 2 * T * nu)) := by
  have hpi : 0 < sqrt π := sqrt_pos.2 pi_pos
  have hphi0 : phiPrime 0 = 2 / sqrt π := by simp [phiPrime]
  have hphic : Tendsto phiPrime (𝓝[≠] 0) (𝓝 (2 / sqrt π)) := by
    rw [← hphi0]; exact (hasDerivAt_phiPrime 0).continuousAt.tendsto.mono_left nhdsWithin_le_nhds
  have h1 : Tendsto (fun x => erf x / x) (𝓝[≠] 0) (𝓝 (2 / sqrt π)) := by
    refine HasDerivAt.lhopital_zero_nhdsNE (f' := phiPrime) (g' := fun _ => 1) (Eventually.of_forall hasDerivAt_erf)
      (Eventually.of_forall fun x => hasDerivAt_id x) (Eventually.of_forall fun _ => one_ne_zero) ?_ ?_ ?_
    · have := (hasDerivAt_erf 0).continuousAt.tendsto.mono_left (nhdsWithin_le_nhds (s := {0}ᶜ))
      rwa [erf_zero] at this
    · exact tendsto_id.mono_left nhdsWithin_le_nhds
    · simpa using hphic
  have h2 : Tendsto (fun x => numer x / (2 * x ^ 3)) (𝓝[≠] 0) (𝓝 (2 / sqrt π / 3)) := by
    have hd : ∀ x : ℝ, HasDerivAt (fun x : ℝ => 2 * x ^ 3) (6 * x ^ 2) x := by
      intro x
      have := (hasDerivAt_pow 3 x).const_mul 2
      exact this.congr_deriv (by norm_num; ring)
    refine HasDerivAt.lhopital_zero_nhdsNE (f' := fun x => 2 * x ^ 2 * phiPrime x) (g' := fun x => 6 * x ^ 2)
      (Eventually.of_forall hasDerivAt_numer) (Eventually.of_forall hd) ?_ ?_ ?_ ?_
    · filter_upwards [self_mem_nhdsWithin] with x hx
      have : x ≠ 0 := hx
      positivity
    · have := (hasDerivAt_numer 0).continuousAt.tendsto.mono_left (nhdsWithin_le_nhds (s := {0}ᶜ))
      have z : numer 0 = 0 := by simp [numer, erf_zero]
      rwa [z] at this
    · have := (hd 0).continuousAt.tendsto.mono_left (nhdsWithin_le_nhds (s := {0}ᶜ))
      simpa using this
    · refine (hphic.div_const 3).congr' ?_
      filter_upwards [self_mem_nhdsWithin] with x hx
      have : x ≠ 0 := hx
      field_simp
      norm_num
      ring
  have h3 := (h1.sub h2).const_mul (coefAD T nu)
  have e : coefAD T nu * (2 / sqrt π - 2 / sqrt π / 3) = sqrt 2 * T * nu := by
    unfold coefAD
    rw [sqrt_mul (by norm_num)]
    field_simp
    norm_num
    ring
  rw [e] at h3
  refine h3.congr' ?_
  filter_upwards [self_mem_nhdsWithin] with x hx
  have : x ≠ 0 := hx
  rw [psi_eq]
  field_simp

/-- **C63** Below the threshold velocity the coefficient used for `∂_v D` is also the derivative of the coefficient used for `D`. (At the threshold itself
`D` passes from its limit value to the general formula.) -/
theorem c63_derivative_at_rest (T nu v : ℝ) (hv : |v| / sqrt (2 * T) < 1e-15) :
    HasDerivAt (dcoll T nu) (dvDcoll T nu v) v := by
  have hc : Continuous (fun y : ℝ => |y| / sqrt (2 * T)) := continuous_abs.div_const _
  have hev : dcoll T nu =ᶠ[𝓝 v] fun _ => sqrt 2 * T * nu := by
    filter_upwards [hc.continuousAt.eventually (gt_mem_nhds hv)] with y hy
    simp only [dcoll, if_neg (not_lt.2 hy.le)]
  have : dvDcoll T nu v = 0 := by simp only [dvDcoll, if_neg (not_lt.2 hv.le)]
  rw [this]
  exact (hasDerivAt_const v _).congr_of_eventuallyEq hev

/-- **C63** The diffusion coefficient is a non-increasing function of `|v|`, for all velocities (across the threshold too); in particular it is even and is nowhere larger
than at rest. -/
theorem c63_monotone (T nu v w : ℝ) (hT : 0 < T) (hnu : 0 < nu) (h : |v| ≤ |w|) :
    dcoll T nu w ≤ dcoll T nu v := by
  have hvT : 0 < sqrt (2 * T) := sqrt_pos.2 (by positivity)
  have hA : 0 < coefAD T nu := by unfold coefAD; positivity
  obtain ⟨g, hg⟩ : ∃ g : ℝ → ℝ, g = fun y => (erf y - psi y) * (1 / y) := ⟨_, rfl⟩
  have hgd : ∀ x, 0 < x → HasDerivAt g ((3 * psi x - erf x) * (1 / x) * (1 / x)) x := fun x hx => by
    rw [hg]; exact hasDerivAt_profile hx.ne'
  have hanti : AntitoneOn g (Set.Ioi 0) := by
    refine antitoneOn_of_deriv_nonpos (convex_Ioi 0) (fun x hx => (hgd x hx).continuousAt.continuousWithinAt) ?_ ?_
    · intro x hx
      rw [interior_Ioi] at hx
      exact (hgd x hx).differentiableAt.differentiableWithinAt
    · intro x hx
      rw [interior_Ioi] at hx
      rw [(hgd x hx).deriv]
      have h1 := three_psi_sub_erf_neg hx
      have hx' : (0 : ℝ) < 1 / x := one_div_pos.2 hx
      exact (mul_neg_of_neg_of_pos (mul_neg_of_neg_of_pos h1 hx') hx').le
  have hlim : ∀ x, 0 < x → coefAD T nu * g x ≤ sqrt 2 * T * nu := by
    intro x hx
    have ht : Tendsto (fun y => coefAD T nu * g y) (𝓝[>] 0) (𝓝 (sqrt 2 * T * nu)) := by
      rw [hg]
      exact (c63_limit T nu).mono_left (nhdsWithin_mono _ fun y hy => ne_of_gt hy)
    refine ge_of_tendsto ht ?_
    filter_upwards [Ioo_mem_nhdsGT hx] with y hy
    exact mul_le_mul_of_nonneg_left (hanti hy.1 hx hy.2.le) hA.le
  have hle : |v| / sqrt (2 * T) ≤ |w| / sqrt (2 * T) := by gcongr
  simp only [dcoll]
  have e : ∀ x, coefAD T nu * (erf x - psi x) * (1 / x) = coefAD T nu * g x := fun x => by rw [hg]; ring
  split_ifs with h1 h2 h2
  · rw [e, e]
    exact mul_le_mul_of_nonneg_left (hanti (lt_trans (by norm_num) h2 : (0 : ℝ) < _) (lt_trans (by norm_num) h1 : (0 : ℝ) < _) hle) hA.le
  · rw [e]; exact hlim _ (lt_trans (by norm_num) h1)
  · exact absurd (lt_of_lt_of_le h2 hle) h1
  · exact le_refl _

/-- **C63** The values used for (nearly) zero velocities are the limits at zero velocity of the general formulas of the diffusion coefficient and of its derivative. -/
theorem c63_at_rest (T nu v : ℝ) (hv : |v| / sqrt (2 * T) ≤ 1e-15) :
    Tendsto (fun x => coefAD T nu * ((erf x - psi x) * (1 / x))) (𝓝[≠] 0) (𝓝 (dcoll T nu v)) ∧
    Tendsto (fun x => coefAD T nu / sqrt (2 * T) * (1 / x) * (1 / x) * (3 * psi x - erf x)) (𝓝[≠] 0) (𝓝 (dvDcoll T nu v)) := by
  have hn := not_lt.2 hv
  have ed : dcoll T nu v = sqrt 2 * T * nu := by simp only [dcoll, if_neg hn]
  have ev : dvDcoll T nu v = 0 := by simp only [dvDcoll, if_neg hn]
  refine ⟨by rw [ed]; exact c63_limit T nu, ?_⟩
  rw [ev]
  have hcont : ∀ f : ℝ → ℝ, (∀ x, ∃ d, HasDerivAt f d x) → Tendsto f (𝓝[≠] 0) (𝓝 (f 0)) := fun f hf => by
    obtain ⟨d, hd⟩ := hf 0
    exact hd.continuousAt.tendsto.mono_left nhdsWithin_le_nhds
  have hd2 : ∀ x : ℝ, HasDerivAt (fun x : ℝ => x ^ 2) (2 * x) x := fun x => by simpa using hasDerivAt_pow 2 x
  have hN : Tendsto (fun x => numer x / x ^ 2) (𝓝[≠] 0) (𝓝 0) := by
    refine HasDerivAt.lhopital_zero_nhdsNE (f' := fun x => 2 * x ^ 2 * phiPrime x) (g' := fun x => 2 * x)
      (Eventually.of_forall hasDerivAt_numer) (Eventually.of_forall hd2) ?_ ?_ ?_ ?_
    · filter_upwards [self_mem_nhdsWithin] with x hx
      have : x ≠ 0 := hx
      positivity
    · have := hcont numer fun x => ⟨_, hasDerivAt_numer x⟩
      rwa [show numer 0 = 0 by simp [numer, erf_zero]] at this
    · simpa using hcont (fun x : ℝ => x ^ 2) fun x => ⟨_, hd2 x⟩
    · have := (hcont (fun x => x * phiPrime x) fun x => ⟨_, (hasDerivAt_id' x).fun_mul (hasDerivAt_phiPrime x)⟩)
      rw [zero_mul] at this
      refine this.congr' ?_
      filter_upwards [self_mem_nhdsWithin] with x hx
      have : x ≠ 0 := hx
      field_simp
  have hd4 : ∀ x : ℝ, HasDerivAt (fun x : ℝ => 2 * x ^ 4) (8 * x ^ 3) x := fun x => by
    have := (hasDerivAt_pow 4 x).const_mul 2
    exact this.congr_deriv (by norm_num; ring)
  have hdN : ∀ x : ℝ, HasDerivAt (fun x => 3 * numer x - 2 * x ^ 2 * erf x) (-4 * x * numer x) x := fun x => by
    have := ((hasDerivAt_numer x).const_mul 3).fun_sub (((hd2 x).const_mul 2).fun_mul (hasDerivAt_erf x))
    exact this.congr_deriv (by simp only [numer]; ring)
  have h : Tendsto (fun x => (3 * numer x - 2 * x ^ 2 * erf x) / (2 * x ^ 4)) (𝓝[≠] 0) (𝓝 0) := by
    refine HasDerivAt.lhopital_zero_nhdsNE (f' := fun x => -4 * x * numer x) (g' := fun x => 8 * x ^ 3)
      (Eventually.of_forall hdN) (Eventually.of_forall hd4) ?_ ?_ ?_ ?_
    · filter_upwards [self_mem_nhdsWithin] with x hx
      have : x ≠ 0 := hx
      positivity
    · have := hcont _ fun x => ⟨_, hdN x⟩
      simpa [numer, erf_zero] using this
    · simpa using hcont (fun x : ℝ => 2 * x ^ 4) fun x => ⟨_, hd4 x⟩
    · have := hN.const_mul (-1 / 2)
      rw [mul_zero] at this
      refine this.congr' ?_
      filter_upwards [self_mem_nhdsWithin] with x hx
      have : x ≠ 0 := hx
      field_simp
      norm_num
      ring
  have := h.const_mul (coefAD T nu / sqrt (2 * T))
  rw [mul_zero] at this
  refine this.congr' ?_
  filter_upwards [self_mem_nhdsWithin] with x hx
  have : x ≠ 0 := hx
  rw [psi_eq]
  field_simp

/-- A particle at rest. -/
example : |(0 : ℝ)| / sqrt (2 * 2) ≤ 1e-15 := by norm_num

/-- Ordinary velocities are in the range of the general formula. -/
example : (1e-15 : ℝ) < |(-3 : ℝ)| / sqrt (2 * 2) := by
  rw [show (2 * 2 : ℝ) = 2 ^ 2 by norm_num, sqrt_sq (by norm_num)]; norm_num

/-- **C63** The coefficients computed by the operator conserve discrete momentum and energy: the statement for the coefficients
actually assembled by `CollisionsIntra::operator()` on a non-uniform grid. -/
theorem c63_operator_conserves (n : ℕ) (w v : ℕ → ℝ) (nustar : ℝ) (f : ℕ → ℝ) :
    let vg := ghosted v n
    let c := intraCoeffs n w v vg (staggered v n) nustar f
    let m := meansLoop n w v f (fun k => c.D (k + 1)) (fun k => c.dvD (k + 1))
    m.i0 * m.i4 - m.i1 * m.i3 ≠ 0 → c.Tc ≠ 0 →
    (∑ k ∈ Finset.range n, w k * ((c.dvD (k + 1) + c.Nu (k + 1)) * f k) = 0) ∧
    (∑ k ∈ Finset.range n, w k * (((c.D (k + 1) + v k * c.dvD (k + 1)) + v k * c.Nu (k + 1)) * f k) = 0) := by
  intro vg c m hP hT
  have hg : ∀ k < n, vg (k + 1) = v k := by
    intro k hk
    simp only [vg, ghosted]
    rw [if_neg (by omega), if_neg (by omega), Nat.add_sub_cancel]
  have := c63_conservation n w v f (fun k => c.D (k + 1)) (fun k => c.dvD (k + 1)) hP hT
  simp only at this
  have hNu : ∀ k < n, c.Nu (k + 1) = nucoll (c.D (k + 1)) (v k) (vcoll m) (tcoll m) := by
    intro k hk
    show nucoll (c.D (k + 1)) (vg (k + 1)) (vcoll m) (tcoll m) = _
    rw [hg k hk]
  constructor
  · rw [← this.1]
    exact Finset.sum_congr rfl fun k hk => by rw [hNu k (Finset.mem_range.1 hk)]
  · rw [← this.2]
    exact Finset.sum_congr rfl fun k hk => by rw [hNu k (Finset.mem_range.1 hk)]

/-- **C63** What the coefficients are: with `N`, `U`, `T` the discrete density, mean velocity and temperature of the
distribution and `nu = nustar N / T^{3/2}`, the diffusion coefficient is that of the Maxwellian of temperature `T` evaluated at the
ghosted points and, for the staggered coefficient, half way between two neighbouring ghosted points. -/
theorem c63_coefficients (n : ℕ) (hn : 2 ≤ n) (w v : ℕ → ℝ) (nustar : ℝ) (f : ℕ → ℝ) (N U T : ℝ) (hN : N ≠ 0)
    (hdens : N = ∑ k ∈ Finset.range n, w k * f k) (hvel : N * U = ∑ k ∈ Finset.range n, w k * (v k * f k))
    (htemp : N * T = ∑ k ∈ Finset.range n, w k * ((v k - U) ^ 2 * f k)) :
    let vg := ghosted v n
    let c := intraCoeffs n w v vg (staggered v n) nustar f
    (∀ k, c.D k = dcoll T (nustar * N / T ^ (1.5 : ℝ)) (vg k)) ∧
    (∀ k, c.dvD k = dvDcoll T (nustar * N / T ^ (1.5 : ℝ)) (vg k)) ∧
    (∀ k ≤ n, c.Ds k = dcoll T (nustar * N / T ^ (1.5 : ℝ)) ((vg k + vg (k + 1)) / 2)) := by
  intro vg c
  have hd : density n w v f = N := by rw [density, momentLoop_eq, hdens]
  have hu : velocity n w v f = U := by
    have h1 : ∑ k ∈ Finset.range n, w k * f k * v k = N * U := by
      rw [hvel]; exact Finset.sum_congr rfl fun k _ => by ring
    rw [velocity, ← density, hd, momentLoop_eq, h1]
    exact mul_div_cancel_left₀ _ hN
  have ht : temperature n w v f = T := by
    have h1 : ∑ k ∈ Finset.range n, w k * f k * v k = N * U := by
      rw [hvel]; exact Finset.sum_congr rfl fun k _ => by ring
    have h2 : ∑ k ∈ Finset.range n, w k * f k * v k ^ 2 = N * T + N * U ^ 2 := by
      have : ∑ k ∈ Finset.range n, w k * ((v k - U) ^ 2 * f k)
          = ∑ k ∈ Finset.range n, w k * f k * v k ^ 2 - 2 * U * ∑ k ∈ Finset.range n, w k * (v k * f k)
            + U ^ 2 * ∑ k ∈ Finset.range n, w k * f k := by
        rw [Finset.mul_sum, Finset.mul_sum, ← Finset.sum_sub_distrib, ← Finset.sum_add_distrib]
        exact Finset.sum_congr rfl fun k _ => by ring
      rw [← htemp, ← hvel, ← hdens] at this
      linear_combination -this
    rw [temperature, ← density, hd, hu, momentLoop_eq, h1, h2]
    field_simp
    ring
  refine ⟨fun k => ?_, fun k => ?_, fun k hk => ?_⟩
  · show dcoll (temperature n w v f) (collfreq _ _ _ ()) (vg k) = _
    rw [collfreq, hd, ht]
  · show dvDcoll (temperature n w v f) (collfreq _ _ _ ()) (vg k) = _
    rw [collfreq, hd, ht]
  · show dcoll (temperature n w v f) (collfreq _ _ _ ()) (staggered v n k) = _
    rw [collfreq, hd, ht, c43_staggered_midpoints v n k hn hk]

/-- Two points `-1, 1` with unit weights and values: density 2, mean velocity 0, temperature 1. -/
example : (2 : ℝ) ≠ 0 ∧ (2 : ℝ) = ∑ k ∈ Finset.range 2, (1 : ℝ) * 1 ∧
    (2 : ℝ) * 0 = ∑ k ∈ Finset.range 2, 1 * ((if k = 0 then -1 else 1) * (1 : ℝ)) ∧
    (2 : ℝ) * 1 = ∑ k ∈ Finset.range 2, 1 * (((if k = 0 then -1 else 1) - 0) ^ 2 * (1 : ℝ)) := by
  norm_num [Finset.sum_range_succ]

end Verif.Collisions
