import Verif.Model.Sources
import Verif.Props.CollisionsInter
import Mathlib.Analysis.SpecialFunctions.Exp
import Mathlib.Tactic.FieldSimp
import Mathlib.Tactic.LinearCombination
import Mathlib.Tactic.Linarith
import Mathlib.Tactic.Positivity
import Mathlib.Tactic.NormNum
import Mathlib.Tactic.Ring

/-!
# C40, C41: Krook operators
-/

namespace Verif.Sources

open Real

/-- **C40** The constant operator leaves the target unchanged. -/
theorem c40_target_fixed (A m g dt : ℝ) : krookConstant A m g dt g = g := by simp [krookConstant]

/-- **C40** Two successive steps are one step of the summed duration (semigroup), and a step of zero duration does nothing. -/
theorem c40_semigroup (A m g s t f : ℝ) :
    krookConstant A m g t (krookConstant A m g s f) = krookConstant A m g (s + t) f ∧ krookConstant A m g 0 f = f := by
  constructor
  · simp only [krookConstant]
    rw [show -A * m * (s + t) = -A * m * s + -A * m * t by ring, exp_add]; ring
  · simp [krookConstant]

/-- **C40** The operator is the exact solution of `df/dt = -A m (f - g)`: the derivative in time of the result satisfies the
equation at all times. -/
theorem c40_exact_solution (A m g f t : ℝ) :
    HasDerivAt (fun t => krookConstant A m g t f) (-A * m * (krookConstant A m g t f - g)) t := by
  have h : HasDerivAt (fun t => -A * m * t) (-A * m) t := by
    simpa using (hasDerivAt_id' t).const_mul (-A * m)
  have := (h.exp.const_mul (f - g)).const_add g
  simp only [krookConstant]
  exact this.congr_deriv (by ring)

/-- **C40** With non-negative amplitude and mask the result lies between the old value and the target: the distance to
the target never grows and positivity is kept. -/
theorem c40_contraction (A m g dt f : ℝ) (hA : 0 ≤ A) (hm : 0 ≤ m) (hdt : 0 ≤ dt) :
    |krookConstant A m g dt f - g| ≤ |f - g| ∧
      min f g ≤ krookConstant A m g dt f ∧ krookConstant A m g dt f ≤ max f g := by
  have he : exp (-A * m * dt) ≤ 1 := by
    rw [exp_le_one_iff]
    have := mul_nonneg (mul_nonneg hA hm) hdt
    linarith
  have hp := exp_pos (-A * m * dt)
  have e : krookConstant A m g dt f - g = (f - g) * exp (-A * m * dt) := by simp only [krookConstant]; ring
  refine ⟨?_, ?_, ?_⟩
  · rw [e, abs_mul, abs_of_pos hp]
    exact mul_le_of_le_one_right (abs_nonneg _) he
  · rcases le_total f g with h | h
    · rw [min_eq_left h]; nlinarith
    · rw [min_eq_right h]; nlinarith
  · rcases le_total f g with h | h
    · rw [max_eq_right h]; nlinarith
    · rw [max_eq_left h]; nlinarith

/-- **C40** Where the mask is positive the distribution tends to the target as the duration grows. -/
theorem c40_converges (A m g f : ℝ) (hA : 0 < A) (hm : 0 < m) :
    Filter.Tendsto (fun dt => krookConstant A m g dt f) Filter.atTop (nhds g) := by
  have h : Filter.Tendsto (fun dt : ℝ => exp (-A * m * dt)) Filter.atTop (nhds 0) := by
    refine tendsto_exp_atBot.comp ?_
    have : Filter.Tendsto (fun dt : ℝ => (A * m) * dt) Filter.atTop Filter.atTop :=
      Filter.tendsto_id.const_mul_atTop (mul_pos hA hm)
    refine (Filter.tendsto_neg_atTop_atBot.comp this).congr fun t => ?_
    simp only [Function.comp]; ring
  have := (h.const_mul (f - g)).const_add g
  simpa [krookConstant] using this

example : |krookConstant 1 1 0 1 2 - 0| ≤ |(2:ℝ) - 0| := (c40_contraction 1 1 0 1 2 (by norm_num) (by norm_num) (by norm_num)).1

/-! ## Adaptive operator -/

theorem quadSum_eq (n : ℕ) (w f : ℕ → ℝ) : quadSum n w f = ∑ k ∈ Finset.range n, w k * f k := by
  unfold quadSum
  induction n with
  | zero => rfl
  | succ n ih => rw [List.range_succ, List.foldl_append, ih, Finset.sum_range_succ]; rfl

theorem quadSum_relax (n : ℕ) (w f g : ℕ → ℝ) (c : ℝ) :
    quadSum n w (fun k => f k + -c * (f k - g k)) = quadSum n w f - c * (quadSum n w f - quadSum n w g) := by
  simp only [quadSum_eq]
  rw [← Finset.sum_sub_distrib, Finset.mul_sum, ← Finset.sum_sub_distrib]
  exact Finset.sum_congr rfl fun k _ => by ring

theorem quadSum_rate (n : ℕ) (w f g : ℕ → ℝ) (c : ℝ) :
    quadSum n w (fun k => -c * (f k - g k)) = -c * (quadSum n w f - quadSum n w g) := by
  simp only [quadSum_eq]
  rw [← Finset.sum_sub_distrib, Finset.mul_sum]
  exact Finset.sum_congr rfl fun k _ => by ring

/-- **C41** The derivative itself conserves the charge: for every state, the ion and electron densities have the same rate of
change (target of the requested density, electron density different from it). -/
theorem c41_derivative_conserves (n : ℕ) (w g : ℕ → ℝ) (A d m : ℝ) (f : Pair) (hg : quadSum n w g = d)
    (he : quadSum n w f.elec ≠ d) :
    let k := krookDerivative n w g A d m f f
    quadSum n w k.ion - quadSum n w k.elec = 0 := by
  intro k
  have h1 : k.ion = fun j => -(m * A) * (f.ion j - g j) := by funext j; simp [k, krookDerivative, krookAmplitudes]
  have h2 : k.elec = fun j => -(m * (A * (quadSum n w f.ion - d) / (quadSum n w f.elec - d))) * (f.elec j - g j) := by
    funext j; simp [k, krookDerivative, krookAmplitudes]
  rw [h1, h2, quadSum_rate, quadSum_rate, hg]
  have := sub_ne_zero.2 he
  field_simp
  ring

/-- Densities after one step, in terms of the initial ones. -/
theorem krookAdaptive_densities (n : ℕ) (w g : ℕ → ℝ) (A d m dt : ℝ) (f : Pair) (hg : quadSum n w g = d)
    (he : quadSum n w f.elec ≠ d) :
    let c := m * A * (0.5 * dt)
    let a := quadSum n w f.ion - d
    let b := quadSum n w f.elec - d
    let f1 := krookAdaptive n w g A d m dt f
    quadSum n w f1.ion - quadSum n w f.ion = -(2 * c) * a ∧
      quadSum n w f1.elec - quadSum n w f.elec = -(2 * c) * (a * (1 - c) / (b - c * a)) * b := by
  intro c a b f1
  have hb : b ≠ 0 := sub_ne_zero.2 he
  set k1 := krookDerivative n w g A d m f f with hk1
  set f' := pairUpdate f k1 (0.5 * dt) with hf'
  have i1 : f'.ion = fun j => f.ion j + -c * (f.ion j - g j) := by
    funext j; simp only [f', pairUpdate, k1, krookDerivative, krookAmplitudes, c]; ring
  have e1 : f'.elec = fun j => f.elec j + -(c * (a / b)) * (f.elec j - g j) := by
    funext j; simp only [f', pairUpdate, k1, krookDerivative, krookAmplitudes, c, a, b]; ring
  have hi : quadSum n w f'.ion - d = a * (1 - c) := by
    rw [i1, quadSum_relax, hg]; simp only [a]; ring
  have hel : quadSum n w f'.elec - d = b - c * a := by
    rw [e1, quadSum_relax, hg]
    have : c * (a / b) * (quadSum n w f.elec - d) = c * a := by
      show c * (a / b) * b = _; field_simp
    rw [this]; simp only [b]; ring
  have r1 : f1.ion = fun j => f.ion j + -(2 * c) * (f.ion j - g j) := by
    funext j
    simp only [f1, krookAdaptive, Timestepper.rk2, pairUpdate, krookDerivative, krookAmplitudes, c]; ring
  have r2 : f1.elec = fun j => f.elec j + -(2 * c * (a * (1 - c) / (b - c * a))) * (f.elec j - g j) := by
    funext j
    have : f1.elec j = f.elec j + -m * (A * (quadSum n w f'.ion - d) / (quadSum n w f'.elec - d))
        * (f.elec j - g j) * dt := rfl
    rw [this, hi, hel]
    simp only [c]; ring
  constructor
  · rw [r1, quadSum_relax, hg]; simp only [a]; ring
  · rw [r2, quadSum_relax, hg]; simp only [b]; ring

/-- **C41** Exact characterisation: one step changes both densities equally **iff** it does nothing (no source, mask, time
step, or ion density already on target) or the plasma was neutral at that position. In particular the documented claim holds for
neutral states only. -/
theorem c41_conservation_iff (n : ℕ) (w g : ℕ → ℝ) (A d m dt : ℝ) (f : Pair) (hg : quadSum n w g = d)
    (he : quadSum n w f.elec ≠ d)
    (hmid : quadSum n w f.elec - d - m * A * (0.5 * dt) * (quadSum n w f.ion - d) ≠ 0) :
    let f1 := krookAdaptive n w g A d m dt f
    (quadSum n w f1.ion - quadSum n w f1.elec = quadSum n w f.ion - quadSum n w f.elec) ↔
      (m * A * dt = 0 ∨ quadSum n w f.ion = d ∨ quadSum n w f.ion = quadSum n w f.elec) := by
  intro f1
  obtain ⟨h1, h2⟩ := krookAdaptive_densities n w g A d m dt f hg he
  set c := m * A * (0.5 * dt) with hc
  set a := quadSum n w f.ion - d with ha
  set b := quadSum n w f.elec - d with hb
  have hb0 : b ≠ 0 := sub_ne_zero.2 he
  have e1 : (quadSum n w f1.ion - quadSum n w f1.elec = quadSum n w f.ion - quadSum n w f.elec) ↔
      -(2 * c) * a = -(2 * c) * (a * (1 - c) / (b - c * a)) * b := by
    rw [← h1, ← h2]
    constructor <;> intro h <;> linarith
  rw [e1]
  have e2 : (-(2 * c) * a = -(2 * c) * (a * (1 - c) / (b - c * a)) * b) ↔ c * (c * (a * (a - b))) = 0 := by
    have : -(2 * c) * (a * (1 - c) / (b - c * a)) * b = -(2 * c) * (a * (1 - c)) * b / (b - c * a) := by
      ring
    rw [this, eq_div_iff hmid]
    constructor <;> intro h <;> linarith
  rw [e2]
  have hcz : c = 0 ↔ m * A * dt = 0 := by
    rw [hc]
    constructor
    · intro h; nlinarith
    · intro h
      rw [show m * A * (0.5 * dt) = 0.5 * (m * A * dt) by ring, h, mul_zero]
  clear_value c
  rw [mul_eq_zero (a := c), mul_eq_zero (a := c), mul_eq_zero (a := a), hcz]
  constructor
  · rintro (h | h | h | h)
    · exact Or.inl h
    · exact Or.inl h
    · exact Or.inr (Or.inl (sub_eq_zero.1 h))
    · right; right; linarith
  · rintro (h | h | h)
    · exact Or.inl h
    · right; right; left; linarith
    · right; right; right; linarith

/-- **C41** (finding) The documented local charge conservation fails: a two-point state, with the target of the requested density,
whose charge changes in one step. -/
theorem c41_charge_not_conserved : ∃ (n : ℕ) (w g : ℕ → ℝ) (A d m dt : ℝ) (f : Pair),
    quadSum n w g = d ∧ quadSum n w f.elec ≠ d ∧
    (let f1 := krookAdaptive n w g A d m dt f
     quadSum n w f1.ion - quadSum n w f1.elec ≠ quadSum n w f.ion - quadSum n w f.elec) := by
  refine ⟨1, fun _ => 1, fun _ => 1, 1, 1, 1, 1, ⟨fun _ => 2, fun _ => 3⟩, by simp [quadSum], by norm_num [quadSum], ?_⟩
  have h := c41_conservation_iff 1 (fun _ => 1) (fun _ => 1) 1 1 1 1 ⟨fun _ => 2, fun _ => 3⟩ (by simp [quadSum])
    (by norm_num [quadSum]) (by norm_num [quadSum])
  intro f1 hc
  have := h.1 hc
  norm_num [quadSum] at this

/-- **C41** The ion density relaxes towards the target density at the prescribed rate. -/
theorem c41_ion_density (n : ℕ) (w g : ℕ → ℝ) (A d m dt : ℝ) (f : Pair) (hg : quadSum n w g = d)
    (he : quadSum n w f.elec ≠ d) :
    quadSum n w (krookAdaptive n w g A d m dt f).ion - d = (1 - m * A * dt) * (quadSum n w f.ion - d) := by
  have := (krookAdaptive_densities n w g A d m dt f hg he).1
  linear_combination this

end Verif.Sources
