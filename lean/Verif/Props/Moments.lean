import Verif.Model.Moments
import Verif.Props.CollisionsInter
import Mathlib.Algebra.BigOperators.Intervals
import Mathlib.Algebra.Order.BigOperators.Ring.Finset
import Mathlib.Tactic.FieldSimp
import Mathlib.Tactic.LinearCombination
import Mathlib.Tactic.Linarith
import Mathlib.Tactic.Positivity
import Mathlib.Tactic.NormNum
import Mathlib.Tactic.Ring

/-!
# C44: charge density, C57: fluid moments
-/

namespace Verif.Moments

open Finset

/-- Specification: charge of the kinetic species, each one's charge times its density. -/
noncomputable def kineticCharge (nkin : ℕ) (charge : ℕ → ℝ) (nv : ℕ) (w : ℕ → ℝ) (f : ℕ → ℕ → ℝ) : ℝ :=
  ∑ s ∈ range nkin, charge s * ∑ k ∈ range nv, w k * f s k

/-- Specification: with `nsp` species of which the first `nkin` are kinetic, the last species is adiabatic when it is not
kinetic, and contributes its charge (unit density). -/
noncomputable def adiabaticCharge (nsp nkin : ℕ) (charge : ℕ → ℝ) : ℝ := if nkin < nsp then charge (nsp - 1) else 0

theorem integrand_eq (nkin : ℕ) (charge : ℕ → ℝ) (f : ℕ → ℕ → ℝ) (k : ℕ) :
    integrand nkin charge f k = ∑ s ∈ range nkin, charge s * f s k := by
  unfold integrand
  induction nkin with
  | zero => rfl
  | succ n ih => rw [List.range_succ, List.foldl_append, ih, sum_range_succ]; rfl

theorem apply_integrand (nkin : ℕ) (charge : ℕ → ℝ) (nv : ℕ) (w : ℕ → ℝ) (f : ℕ → ℕ → ℝ) :
    Quadrature.apply w nv (integrand nkin charge f) = kineticCharge nkin charge nv w f := by
  unfold Quadrature.apply kineticCharge
  simp only [integrand_eq, mul_sum]
  rw [sum_comm]
  exact sum_congr rfl fun s _ => sum_congr rfl fun k _ => by ring

/-- **C44** The 2D2V calculator returns the charge of the kinetic species plus that of the adiabatic one, for every set of
species. -/
theorem c44_xyvxvy (nsp nkin : ℕ) (charge : ℕ → ℝ) (nv : ℕ) (w : ℕ → ℝ) (f : ℕ → ℕ → ℝ) (h1 : 1 ≤ nkin)
    (h2 : nkin ≤ nsp) :
    chargeDensityXYVxVy nsp nkin charge nv w f = kineticCharge nkin charge nv w f + adiabaticCharge nsp nkin charge := by
  simp only [chargeDensityXYVxVy, apply_integrand, adiabaticCharge]
  split_ifs with h3 h4 h4
  · rfl
  · omega
  · omega
  · rw [add_zero]

/-- **C44** The 1D1V calculator returns the charge of the kinetic species only. -/
theorem c44_xvx_kinetic (nkin : ℕ) (charge : ℕ → ℝ) (nv : ℕ) (w : ℕ → ℝ) (f : ℕ → ℕ → ℝ) :
    chargeDensityXVx nkin charge nv w f = kineticCharge nkin charge nv w f := by
  simp [chargeDensityXVx, apply_integrand]

/-- **C44** (finding) hence it accounts for every species exactly when no adiabatic species carries charge; with an adiabatic
species the documented contribution is missing. -/
theorem c44_xvx_iff (nsp nkin : ℕ) (charge : ℕ → ℝ) (nv : ℕ) (w : ℕ → ℝ) (f : ℕ → ℕ → ℝ) :
    chargeDensityXVx nkin charge nv w f = kineticCharge nkin charge nv w f + adiabaticCharge nsp nkin charge ↔
      (nsp ≤ nkin ∨ charge (nsp - 1) = 0) := by
  rw [c44_xvx_kinetic]
  unfold adiabaticCharge
  split_ifs with h
  · constructor
    · intro e; right; linarith
    · rintro (e | e)
      · omega
      · rw [e, add_zero]
  · simp [not_lt.1 h]

/-- Kinetic ions of charge one and adiabatic electrons: a uniform plasma gets a non-zero charge density. -/
example : chargeDensityXVx 1 (fun s => if s = 0 then 1 else -1) 2 (fun _ => 0.5) (fun _ _ => 1) = 1 ∧
    chargeDensityXYVxVy 2 1 (fun s => if s = 0 then 1 else -1) 2 (fun _ => 0.5) (fun _ _ => 1) = 0 := by
  constructor
  · rw [c44_xvx_kinetic]; norm_num [kineticCharge, sum_range_succ]
  · rw [c44_xyvxvy _ _ _ _ _ _ (by norm_num) (by norm_num)]
    norm_num [kineticCharge, adiabaticCharge, sum_range_succ]

theorem sum_slices (P : ℕ) (off len : ℕ → ℕ) (h0 : off 0 = 0) (hs : ∀ r < P, off (r + 1) = off r + len r) (g : ℕ → ℝ) :
    ∑ r ∈ range P, ∑ k ∈ range (len r), g (off r + k) = ∑ k ∈ range (off P), g k := by
  induction P with
  | zero => simp [h0]
  | succ P ih =>
      rw [sum_range_succ, ih (fun r hr => hs r (by omega)), hs P (by omega), sum_range_add]

/-- **C44** In parallel (velocity grid cut into consecutive slices, one per rank) the reduced result is the kinetic charge of the
global grid plus `P` times the adiabatic charge. -/
theorem c44_mpi_value (P : ℕ) (off len : ℕ → ℕ) (h0 : off 0 = 0) (hs : ∀ r < P, off (r + 1) = off r + len r)
    (nsp nkin : ℕ) (charge : ℕ → ℝ) (w : ℕ → ℝ) (f : ℕ → ℕ → ℝ) (h1 : 1 ≤ nkin) (h2 : nkin ≤ nsp) :
    mpiChargeDensity P off len nsp nkin charge w f
      = kineticCharge nkin charge (off P) w f + P * adiabaticCharge nsp nkin charge := by
  unfold mpiChargeDensity
  simp only [c44_xyvxvy _ _ _ _ _ _ h1 h2, sum_add_distrib, sum_const, card_range, nsmul_eq_mul]
  congr 1
  unfold kineticCharge
  rw [sum_comm]
  refine sum_congr rfl fun s _ => ?_
  rw [← mul_sum, sum_slices P off len h0 hs (fun k => w k * f s k)]

/-- **C44** The parallel result is the serial one exactly for one rank or without charged adiabatic species (finding: with several
ranks the adiabatic charge is counted once per rank). -/
theorem c44_mpi_iff (P : ℕ) (off len : ℕ → ℕ) (h0 : off 0 = 0) (hs : ∀ r < P, off (r + 1) = off r + len r)
    (nsp nkin : ℕ) (charge : ℕ → ℝ) (w : ℕ → ℝ) (f : ℕ → ℕ → ℝ) (h1 : 1 ≤ nkin) (h2 : nkin ≤ nsp) :
    mpiChargeDensity P off len nsp nkin charge w f = chargeDensityXYVxVy nsp nkin charge (off P) w f ↔
      (P = 1 ∨ nkin = nsp ∨ charge (nsp - 1) = 0) := by
  rw [c44_mpi_value P off len h0 hs nsp nkin charge w f h1 h2, c44_xyvxvy _ _ _ _ _ _ h1 h2, add_right_inj]
  unfold adiabaticCharge
  split_ifs with h
  · constructor
    · intro e
      have : ((P : ℝ) - 1) * charge (nsp - 1) = 0 := by linear_combination e
      rcases mul_eq_zero.1 this with e | e
      · left; have : (P : ℝ) = 1 := by linarith
        exact_mod_cast this
      · exact Or.inr (Or.inr e)
    · rintro (e | e | e)
      · rw [e]; simp
      · omega
      · rw [e]; simp
  · have : nkin = nsp := by omega
    simp [this]

/-- Two ranks with one velocity point each meet the hypotheses. -/
example : mpiChargeDensity 2 (fun r => r) (fun _ => 1) 2 1 (fun s => if s = 0 then 1 else -1) (fun _ => 0.5)
    (fun _ _ => 1) = -1 := by
  rw [c44_mpi_value 2 (fun r => r) (fun _ => 1) rfl (fun _ _ => rfl) _ _ _ _ _ (by norm_num) (by norm_num)]
  norm_num [kineticCharge, adiabaticCharge, sum_range_succ]

/-! ## Fluid moments -/

/-- **C57** The scalar and the field overloads compute the same values. -/
theorem c57_overloads_agree (nv : ℕ) (w v f : ℕ → ℝ) (d u : ℝ) :
    fluidVelocity nv w v f d = fluidVelocityField nv w v f d ∧
      fluidTemperature nv w v f d u = fluidTemperatureField nv w v f d u := by
  constructor
  · simp only [fluidVelocity, fluidVelocityField, Quadrature.apply, sum_div]
    exact sum_congr rfl fun k _ => by ring
  · simp only [fluidTemperature, fluidTemperatureField, Quadrature.apply, sum_div]
    exact sum_congr rfl fun k _ => by ring

/-- **C57** The moments determine the raw moments and conversely: with the computed density and velocity,
`∫ v f = n V` and `∫ v² f = n (T + V²)`. -/
theorem c57_raw_moments (nv : ℕ) (w v f : ℕ → ℝ) :
    let n := fluidDensity nv w f
    let V := fluidVelocity nv w v f n
    let T := fluidTemperature nv w v f n V
    n ≠ 0 → (∑ k ∈ range nv, w k * f k = n) ∧ (∑ k ∈ range nv, w k * (v k * f k) = n * V) ∧
      (∑ k ∈ range nv, w k * (v k ^ 2 * f k) = n * (T + V ^ 2)) := by
  intro n V T hn
  have h0 : ∑ k ∈ range nv, w k * f k = n := rfl
  have h1 : ∑ k ∈ range nv, w k * (v k * f k) = n * V := by
    simp only [V, fluidVelocity]; rw [mul_div_cancel₀ _ hn]; rfl
  refine ⟨h0, h1, ?_⟩
  have hT : n * T = ∑ k ∈ range nv, w k * ((v k - V) * (v k - V) * f k) := by
    simp only [T, fluidTemperature]; rw [mul_div_cancel₀ _ hn]; rfl
  have : ∑ k ∈ range nv, w k * ((v k - V) * (v k - V) * f k)
      = ∑ k ∈ range nv, w k * (v k ^ 2 * f k) - 2 * V * ∑ k ∈ range nv, w k * (v k * f k)
        + V ^ 2 * ∑ k ∈ range nv, w k * f k := by
    rw [mul_sum, mul_sum, ← sum_sub_distrib, ← sum_add_distrib]
    exact sum_congr rfl fun k _ => by ring
  rw [this, h0, h1] at hT
  linarith

/-- **C57** Scaling a distribution scales the density and leaves velocity and temperature unchanged. -/
theorem c57_scaling (nv : ℕ) (w v f : ℕ → ℝ) (c : ℝ) (hc : c ≠ 0) :
    let n := fluidDensity nv w f
    let V := fluidVelocity nv w v f n
    let f' := fun k => c * f k
    let n' := fluidDensity nv w f'
    n' = c * n ∧ fluidVelocity nv w v f' n' = V ∧ fluidTemperature nv w v f' n' V = fluidTemperature nv w v f n V := by
  intro n V f' n'
  have h0 : n' = c * n := by
    simp only [n', n, fluidDensity, Quadrature.apply, f', mul_sum]
    exact sum_congr rfl fun k _ => by ring
  refine ⟨h0, ?_, ?_⟩
  · simp only [V, fluidVelocity, h0]
    have : Quadrature.apply w nv (fun k => v k * f' k) = c * Quadrature.apply w nv (fun k => v k * f k) := by
      simp only [Quadrature.apply, f', mul_sum]
      exact sum_congr rfl fun k _ => by ring
    rw [this, mul_div_mul_left _ _ hc]
  · simp only [fluidTemperature, h0]
    have : Quadrature.apply w nv (fun k => (v k - V) * (v k - V) * f' k)
        = c * Quadrature.apply w nv (fun k => (v k - V) * (v k - V) * f k) := by
      simp only [Quadrature.apply, f', mul_sum]
      exact sum_congr rfl fun k _ => by ring
    rw [this, mul_div_mul_left _ _ hc]

/-- **C57** Galilean invariance: shifting all velocities by `u` shifts the mean velocity and leaves the temperature unchanged. -/
theorem c57_galilean (nv : ℕ) (w v f : ℕ → ℝ) (u : ℝ) (hn : fluidDensity nv w f ≠ 0) :
    let n := fluidDensity nv w f
    let V := fluidVelocity nv w v f n
    let v' := fun k => v k + u
    fluidVelocity nv w v' f n = V + u ∧
      fluidTemperature nv w v' f n (V + u) = fluidTemperature nv w v f n V := by
  intro n V v'
  constructor
  · simp only [V, fluidVelocity]
    rw [div_add' _ _ _ hn]
    congr 1
    have : u * n = ∑ k ∈ range nv, w k * (u * f k) := by
      simp only [n, fluidDensity, Quadrature.apply, mul_sum]; exact sum_congr rfl fun k _ => by ring
    rw [this]
    simp only [Quadrature.apply, v']
    rw [← sum_add_distrib]
    exact sum_congr rfl fun k _ => by ring
  · simp only [fluidTemperature, v']
    simp only [add_sub_add_right_eq_sub]

/-- **C57** The temperature of a non-negative distribution (non-negative weights, positive density) is non-negative. -/
theorem c57_temperature_nonneg (nv : ℕ) (w v f : ℕ → ℝ) (V : ℝ) (hw : ∀ k < nv, 0 ≤ w k) (hf : ∀ k < nv, 0 ≤ f k)
    (hn : 0 < fluidDensity nv w f) : 0 ≤ fluidTemperature nv w v f (fluidDensity nv w f) V := by
  refine div_nonneg (sum_nonneg fun k hk => ?_) hn.le
  have hk := mem_range.1 hk
  exact mul_nonneg (hw k hk) (mul_nonneg (mul_self_nonneg _) (hf k hk))

/-- **C57** The mean velocity lies between the smallest and the largest velocity of the grid. -/
theorem c57_velocity_bounds (nv : ℕ) (w v f : ℕ → ℝ) (a b : ℝ) (hw : ∀ k < nv, 0 ≤ w k) (hf : ∀ k < nv, 0 ≤ f k)
    (hn : 0 < fluidDensity nv w f) (hv : ∀ k < nv, a ≤ v k ∧ v k ≤ b) :
    a ≤ fluidVelocity nv w v f (fluidDensity nv w f) ∧ fluidVelocity nv w v f (fluidDensity nv w f) ≤ b := by
  unfold fluidVelocity
  rw [le_div_iff₀ hn, div_le_iff₀ hn]
  constructor
  · simp only [fluidDensity, Quadrature.apply, mul_sum]
    refine sum_le_sum fun k hk => ?_
    have hk := mem_range.1 hk
    nlinarith [mul_nonneg (hw k hk) (hf k hk), (hv k hk).1]
  · simp only [fluidDensity, Quadrature.apply, mul_sum]
    refine sum_le_sum fun k hk => ?_
    have hk := mem_range.1 hk
    nlinarith [mul_nonneg (hw k hk) (hf k hk), (hv k hk).2]

/-- **C57** The moments computed inside the collision operators (raw loop) are the same as those of `FluidMoments`. -/
theorem c57_collision_moments_agree (nv : ℕ) (w v f : ℕ → ℝ) (hn : fluidDensity nv w f ≠ 0) :
    Collisions.density nv w v f = fluidDensity nv w f ∧
      Collisions.velocity nv w v f = fluidVelocity nv w v f (fluidDensity nv w f) ∧
      Collisions.temperature nv w v f
        = fluidTemperature nv w v f (fluidDensity nv w f) (fluidVelocity nv w v f (fluidDensity nv w f)) := by
  have h0 : Collisions.density nv w v f = fluidDensity nv w f := by
    rw [Collisions.density, Collisions.momentLoop_eq]; rfl
  have hd : Collisions.density nv w v f ≠ 0 := by rwa [h0]
  obtain ⟨-, a1, a2⟩ := Collisions.c39_discrete_moments nv w v f hd
  have h1 : Collisions.velocity nv w v f = fluidVelocity nv w v f (fluidDensity nv w f) := by
    rw [fluidVelocity, eq_div_iff hn, ← h0, mul_comm, a1]; rfl
  refine ⟨h0, h1, ?_⟩
  rw [fluidTemperature, eq_div_iff hn, ← h0, mul_comm, a2, h1, h0]
  exact sum_congr rfl fun k _ => by ring

example : fluidDensity 3 (fun _ => 1) (fun _ => 1) ≠ 0 := by norm_num [fluidDensity, Quadrature.apply]

end Verif.Moments
