import Verif.Model.Collisions
import Mathlib.MeasureTheory.Integral.Gamma
import Mathlib.MeasureTheory.Measure.Lebesgue.Integral
import Mathlib.Analysis.SpecialFunctions.Gamma.Basic
import Mathlib.Analysis.SpecialFunctions.Gaussian.GaussianIntegral
import Mathlib.Tactic.FieldSimp
import Mathlib.Tactic.LinearCombination
import Mathlib.Tactic.Linarith
import Mathlib.Tactic.Positivity
import Mathlib.Tactic.NormNum
import Mathlib.Tactic.Ring

/-!
# C39: inter-species collisions exchange momentum and energy without creating any

Velocities of species `s` are normalised to `sqrt (T₀ / m_s)`, so the momentum of species `s` is proportional to
`sqrt m_s` times the first velocity moment of its distribution, and its energy to half the second moment.
-/

namespace Verif.Collisions

open MeasureTheory Real

variable {Sp : Type*}

/-- **C39** The mass-weighted momentum exchange terms cancel. -/
theorem c39_momentum_cancels (mass dens vel temp : Sp → ℝ) (nu : ℝ) (e i : Sp) (he : 0 < mass e) (hi : 0 < mass i) :
    sqrt (mass e) * (exchange mass nu dens vel temp e i).momElec
      + sqrt (mass i) * (exchange mass nu dens vel temp e i).momIon = 0 := by
  have h1 : sqrt (mass i) * sqrt (mass e / mass i) = sqrt (mass e) := by
    rw [← sqrt_mul hi.le]; congr 1; field_simp
  simp only [exchange]
  linear_combination (nu * dens e * (vel e - sqrt (mass e / mass i) * vel i)) * h1

/-- **C39** The energy exchanges (heat plus work of the friction) cancel. -/
theorem c39_energy_cancels (mass dens vel temp : Sp → ℝ) (nu : ℝ) (e i : Sp) :
    let x := exchange mass nu dens vel temp e i
    (x.enElec + vel e * x.momElec) + (x.enIon + vel i * x.momIon) = 0 := by
  simp only [exchange]; ring

/-- **C39** Species with the same (dimensional) velocity and the same temperature exchange nothing. -/
theorem c39_equilibrium (mass dens vel temp : Sp → ℝ) (nu : ℝ) (e i : Sp) (he : 0 < mass e) (hi : 0 < mass i)
    (hV : vel e / sqrt (mass e) = vel i / sqrt (mass i)) (hT : temp e = temp i) :
    exchange mass nu dens vel temp e i = ⟨0, 0, 0, 0⟩ := by
  have hse : 0 < sqrt (mass e) := sqrt_pos.2 he
  have hsi : 0 < sqrt (mass i) := sqrt_pos.2 hi
  have h : vel e - sqrt (mass e / mass i) * vel i = 0 := by
    rw [sqrt_div he.le]
    field_simp at hV ⊢
    linarith
  simp [exchange, h, hT]

/-- **C39** Hotter species lose heat: with species at rest the electron energy exchange has the sign of
`temp i - temp e`. -/
theorem c39_heat_flows_to_colder (mass dens vel temp : Sp → ℝ) (nu : ℝ) (e i : Sp) (he : 0 < mass e)
    (hi : 0 < mass i) (hn : 0 < dens e) (hnu : 0 < nu) (hV : vel e = 0) (hVi : vel i = 0) (hT : temp i < temp e) :
    (exchange mass nu dens vel temp e i).enElec < 0 ∧ 0 < (exchange mass nu dens vel temp e i).enIon := by
  have : 0 < 3 * nu * (mass e / (mass e + mass i)) * dens e * (temp e - temp i) := by
    have := sub_pos.2 hT
    positivity
  constructor <;> simp only [exchange, hV, hVi] <;> linarith

/-- **C39** The friction opposes the velocity difference (dissipation): the electron momentum exchange times the velocity
difference is never positive. -/
theorem c39_friction_dissipates (mass dens vel temp : Sp → ℝ) (nu : ℝ) (e i : Sp) (hn : 0 ≤ dens e) (hnu : 0 ≤ nu) :
    (exchange mass nu dens vel temp e i).momElec * (vel e - sqrt (mass e / mass i) * vel i) ≤ 0 := by
  simp only [exchange]
  have h1 := mul_nonneg hnu hn
  have h2 := mul_self_nonneg (vel e - sqrt (mass e / mass i) * vel i)
  nlinarith [mul_nonneg h1 h2]

theorem rpow_three_halves {x : ℝ} (hx : 0 ≤ x) : x ^ (1.5 : ℝ) = x * sqrt x := by
  rcases hx.eq_or_lt with rfl | h
  · rw [zero_rpow (by norm_num)]; simp
  · have : (1.5 : ℝ) = 1 + 1 / 2 := by norm_num
    rw [this, rpow_add h, rpow_one, ← sqrt_eq_rpow]

/-- **C39** The two collision frequencies computed from the same profile are reciprocal:
`m_e n_e ν_ei = m_i n_i ν_ie`. -/
theorem c39_reciprocity (mass charge dens temp : Sp → ℝ) (Lx nustar0 : ℝ) (e i : Sp) (hme : 0 < mass e)
    (hmi : 0 < mass i) (hqe : charge e ≠ 0) (hqi : charge i ≠ 0) (hne : dens e ≠ 0) (hni : dens i ≠ 0)
    (hTe : 0 < temp e) (hTi : 0 < temp i) (hL : Lx ≠ 0) :
    let nustar := nustarProfile mass charge e Lx nustar0
    mass e * dens e * collfreqAbElec mass charge nustar dens temp e i
      = mass i * dens i * collfreqAbIon mass charge nustar dens temp e i := by
  intro nustar
  have hr : 0 < mass e / mass i := div_pos hme hmi
  set S := temp e * mass i + mass e * temp i with hS
  have hSpos : 0 < S := by positivity
  have e1 : 1 + mass e / mass i * temp i / temp e = S / (mass i * temp e) := by rw [hS]; field_simp
  have e2 : 1 + 1 / (mass e / mass i) * temp e / temp i = S / (mass e * temp i) := by rw [hS]; field_simp; ring
  simp only [collfreqAbElec, collfreqAbIon, nustar, nustarProfile]
  rw [e1, e2, rpow_three_halves hTe.le, rpow_three_halves hTi.le, rpow_three_halves (by positivity),
    rpow_three_halves (by positivity), sqrt_div hSpos.le, sqrt_div hSpos.le, sqrt_mul hmi.le, sqrt_mul hme.le,
    div_self hme.ne', sqrt_one, sqrt_div hme.le]
  have a1 := sqrt_pos.2 hme
  have a2 := sqrt_pos.2 hmi
  have a3 := sqrt_pos.2 hTe
  have a4 := sqrt_pos.2 hTi
  have a5 := sqrt_pos.2 hSpos
  have b1 := sq_sqrt hme.le
  have b2 := sq_sqrt hmi.le
  set se := sqrt (mass e)
  set si := sqrt (mass i)
  have c1 : mass e = se ^ 2 := b1.symm
  have c2 : mass i = si ^ 2 := b2.symm
  rw [c1, c2]
  field_simp
  ring

/-- **C39** The ion terms, defined by balance from the electron ones, are what the electron formulas give with the two
species exchanged (and the ion collision frequency): the operator is symmetric in the two species. -/
theorem c39_species_symmetry (mass charge dens vel temp : Sp → ℝ) (Lx nustar0 : ℝ) (e i : Sp) (hme : 0 < mass e)
    (hmi : 0 < mass i) (hqe : charge e ≠ 0) (hqi : charge i ≠ 0) (hne : dens e ≠ 0) (hni : dens i ≠ 0)
    (hTe : 0 < temp e) (hTi : 0 < temp i) (hL : Lx ≠ 0) :
    let nustar := nustarProfile mass charge e Lx nustar0
    let x := exchange mass (collfreqAbElec mass charge nustar dens temp e i) dens vel temp e i
    let y := exchange mass (collfreqAbIon mass charge nustar dens temp e i) dens vel temp i e
    x.momIon = y.momElec ∧ x.enIon = y.enElec := by
  intro nustar x y
  have hrec := c39_reciprocity mass charge dens temp Lx nustar0 e i hme hmi hqe hqi hne hni hTe hTi hL
  simp only at hrec
  set ne := collfreqAbElec mass charge nustar dens temp e i with hnee
  set ni := collfreqAbIon mass charge nustar dens temp e i with hnii
  have a1 := sqrt_pos.2 hme
  have a2 := sqrt_pos.2 hmi
  have s1 : sqrt (mass e / mass i) = sqrt (mass e) / sqrt (mass i) := sqrt_div hme.le _
  have s2 : sqrt (mass i / mass e) = sqrt (mass i) / sqrt (mass e) := sqrt_div hmi.le _
  have c1 : mass e = sqrt (mass e) ^ 2 := (sq_sqrt hme.le).symm
  have c2 : mass i = sqrt (mass i) ^ 2 := (sq_sqrt hmi.le).symm
  have hni' : ni = mass e * dens e * ne / (mass i * dens i) := by
    rw [eq_div_iff (by positivity)]
    linear_combination -hrec
  have hsum : mass e + mass i ≠ 0 := by positivity
  have key : x.momIon = y.momElec := by
    simp only [x, y, exchange]
    rw [← hnee, ← hnii, hni', s1, s2]
    rw [show mass e * dens e * ne / (mass i * dens i)
      = sqrt (mass e) ^ 2 * dens e * ne / (sqrt (mass i) ^ 2 * dens i) by rw [← c1, ← c2]]
    field_simp
    ring
  refine ⟨key, ?_⟩
  have key' : y.enElec = -3 * ni * (mass i / (mass i + mass e)) * dens i * (temp i - temp e) - vel i * x.momIon := by
    rw [key]; rfl
  rw [key']
  simp only [x, exchange]
  rw [← hnee, hni']
  have hsum' : mass i + mass e ≠ 0 := by positivity
  rw [add_comm (mass i) (mass e)]
  field_simp
  ring

/-- The hypotheses of the symmetry theorem hold for hydrogen-like parameters. -/
example : let nustar := nustarProfile (fun b : Bool => if b then (1:ℝ) else 400) (fun b => if b then (-1:ℝ) else 1) true 10 0.5
    0 < collfreqAbElec (fun b : Bool => if b then (1:ℝ) else 400) (fun b => if b then (-1:ℝ) else 1) nustar
      (fun _ => 1) (fun _ => 1) true false := by
  simp [collfreqAbElec, nustarProfile]; positivity

/-! ## Moments of the Maxwellian and of the source -/

theorem integrable_pow_gauss {b : ℝ} (hb : 0 < b) (k : ℕ) : Integrable fun x : ℝ => x ^ k * exp (-b * x ^ 2) := by
  have := integrable_rpow_mul_exp_neg_mul_sq hb (s := k) (by
    have : (0:ℝ) ≤ k := Nat.cast_nonneg k
    linarith)
  simpa using this

theorem integral_odd_gauss {b : ℝ} (k : ℕ) (hk : Odd k) : ∫ x : ℝ, x ^ k * exp (-b * x ^ 2) = 0 := by
  have h := integral_neg_eq_self (fun x : ℝ => x ^ k * exp (-b * x ^ 2)) volume
  simp only [hk.neg_pow, even_two.neg_pow, neg_mul, integral_neg] at h ⊢
  linarith

theorem integral_even_gauss {b : ℝ} (hb : 0 < b) (k : ℕ) (hk : Even k) :
    ∫ x : ℝ, x ^ k * exp (-b * x ^ 2) = b ^ (-((k : ℝ) + 1) / 2) * Real.Gamma (((k : ℝ) + 1) / 2) := by
  have h := integral_rpow_mul_exp_neg_mul_rpow (p := 2) (q := k) (b := b) (by norm_num)
    (by have : (0:ℝ) ≤ k := Nat.cast_nonneg k
        linarith) hb
  have e : (fun x : ℝ => x ^ k * exp (-b * x ^ 2)) = fun x => (fun y : ℝ => y ^ (k : ℝ) * exp (-b * y ^ (2 : ℝ))) |x| := by
    funext x
    simp only [rpow_natCast, rpow_two, sq_abs]
    rw [hk.pow_abs]
  rw [e, integral_comp_abs (f := fun y : ℝ => y ^ (k : ℝ) * exp (-b * y ^ (2 : ℝ))), h]
  ring

theorem gauss_moments {T : ℝ} (hT : 0 < T) :
    let M := fun x : ℝ => exp (-(1 / (2 * T)) * x ^ 2)
    let Z := sqrt (2 * π * T)
    (∫ x, M x = Z) ∧ (∫ x, x * M x = 0) ∧ (∫ x, x ^ 2 * M x = T * Z) ∧ (∫ x, x ^ 3 * M x = 0) ∧
      (∫ x, x ^ 4 * M x = 3 * T ^ 2 * Z) := by
  intro M Z
  have hb : 0 < 1 / (2 * T) := by positivity
  have h0 : ∫ x, M x = Z := by
    have := integral_gaussian (1 / (2 * T))
    rw [this]; congr 1; field_simp
  have hG3 : Real.Gamma (((2 : ℕ) + 1 : ℝ) / 2) = sqrt π / 2 := by
    have : (((2 : ℕ) + 1 : ℝ) / 2) = 1 / 2 + 1 := by norm_num
    rw [this, Real.Gamma_add_one (by norm_num), Real.Gamma_one_half_eq]; ring
  have hG5 : Real.Gamma (((4 : ℕ) + 1 : ℝ) / 2) = 3 * sqrt π / 4 := by
    have : (((4 : ℕ) + 1 : ℝ) / 2) = (((2 : ℕ) + 1 : ℝ) / 2) + 1 := by norm_num
    rw [this, Real.Gamma_add_one (by norm_num), hG3]; norm_num; ring
  have hT2 : (0:ℝ) < 2 * T := by positivity
  have hZ : Z = sqrt π * sqrt (2 * T) := by
    simp only [Z]; rw [← sqrt_mul pi_pos.le]; congr 1; ring
  have hinv : ∀ r : ℝ, (1 / (2 * T)) ^ (-r) = (2 * T) ^ r := by
    intro r
    rw [one_div, inv_rpow hT2.le, rpow_neg hT2.le, inv_inv]
  refine ⟨h0, ?_, ?_, ?_, ?_⟩
  · have := integral_odd_gauss (b := 1 / (2 * T)) 1 (by decide)
    simpa only [pow_one] using this
  · have := integral_even_gauss hb 2 (by decide)
    rw [this, hG3]
    have e : -(((2 : ℕ) : ℝ) + 1) / 2 = -(1 + 1 / 2 : ℝ) := by norm_num
    rw [e, hinv, rpow_add hT2, rpow_one, ← sqrt_eq_rpow, hZ]; ring
  · exact integral_odd_gauss (b := 1 / (2 * T)) 3 (by decide)
  · have := integral_even_gauss hb 4 (by decide)
    rw [this, hG5]
    have e : -(((4 : ℕ) : ℝ) + 1) / 2 = -(2 + 1 / 2 : ℝ) := by norm_num
    rw [e, hinv, rpow_add hT2, rpow_two, ← sqrt_eq_rpow, hZ]; ring

theorem maxwellian_eq (n u T v : ℝ) :
    maxwellian n u T v = n / sqrt (2 * π * T) * exp (-(1 / (2 * T)) * (v - u) ^ 2) := by
  simp only [maxwellian]
  rw [show -(v - u) * (v - u) / (2 * T) = -(1 / (2 * T)) * (v - u) ^ 2 by ring]
  ring

/-- **C39** The Maxwellian used by the operator has the requested density, mean velocity and temperature. -/
theorem c39_maxwellian_moments (n u T : ℝ) (hT : 0 < T) :
    (∫ v, maxwellian n u T v = n) ∧ (∫ v, (v - u) * maxwellian n u T v = 0) ∧
      (∫ v, (v - u) ^ 2 * maxwellian n u T v = n * T) := by
  obtain ⟨h0, h1, h2, -, -⟩ := gauss_moments hT
  simp only at h0 h1 h2
  have hZ : sqrt (2 * π * T) ≠ 0 := (sqrt_pos.2 (by positivity)).ne'
  have sub : ∀ g : ℝ → ℝ, ∫ v, g (v - u) = ∫ x, g x := fun g => integral_sub_right_eq_self g u
  refine ⟨?_, ?_, ?_⟩
  · have := sub (fun x => n / sqrt (2 * π * T) * exp (-(1 / (2 * T)) * x ^ 2))
    simp only [maxwellian_eq]
    rw [this, integral_const_mul, h0]; field_simp
  · have := sub (fun x => n / sqrt (2 * π * T) * (x * exp (-(1 / (2 * T)) * x ^ 2)))
    have e : (fun v => (v - u) * maxwellian n u T v)
        = fun v => n / sqrt (2 * π * T) * ((v - u) * exp (-(1 / (2 * T)) * (v - u) ^ 2)) := by
      funext v; rw [maxwellian_eq]; ring
    rw [e, this, integral_const_mul, h1, mul_zero]
  · have := sub (fun x => n / sqrt (2 * π * T) * (x ^ 2 * exp (-(1 / (2 * T)) * x ^ 2)))
    have e : (fun v => (v - u) ^ 2 * maxwellian n u T v)
        = fun v => n / sqrt (2 * π * T) * ((v - u) ^ 2 * exp (-(1 / (2 * T)) * (v - u) ^ 2)) := by
      funext v; rw [maxwellian_eq]; ring
    rw [e, this, integral_const_mul, h2]; field_simp

/-- **C39** The source added to a species has zero mass, momentum `R` and energy `Q + u R` (velocity integrals over the whole
line, for every density, velocity, temperature and exchange terms). -/
theorem c39_source_moments (n u T Q R : ℝ) (hn : n ≠ 0) (hT : 0 < T) :
    (∫ v, interDf n u T Q R v = 0) ∧ (∫ v, v * interDf n u T Q R v = R) ∧
      (∫ v, v ^ 2 / 2 * interDf n u T Q R v = Q + u * R) := by
  obtain ⟨h0, h1, h2, h3, h4⟩ := gauss_moments hT
  simp only at h0 h1 h2 h3 h4
  have hb : 0 < 1 / (2 * T) := by positivity
  set Z := sqrt (2 * π * T) with hZdef
  have hZ : Z ≠ 0 := (sqrt_pos.2 (by positivity)).ne'
  have sub : ∀ g : ℝ → ℝ, ∫ v, g (v - u) = ∫ x, g x := fun g => integral_sub_right_eq_self g u
  set M : ℝ → ℝ := fun x => exp (-(1 / (2 * T)) * x ^ 2) with hM
  have i0 : Integrable fun x => M x := by simpa only [pow_zero, one_mul] using integrable_pow_gauss hb 0
  have i1 : Integrable fun x => x * M x := by simpa only [pow_one] using integrable_pow_gauss hb 1
  have i2 : Integrable fun x => x ^ 2 * M x := integrable_pow_gauss hb 2
  have i3 : Integrable fun x => x ^ 3 * M x := integrable_pow_gauss hb 3
  have i4 : Integrable fun x => x ^ 4 * M x := integrable_pow_gauss hb 4
  have poly : ∀ c0 c1 c2 c3 c4 : ℝ, ∫ x, (c0 * M x + c1 * (x * M x) + c2 * (x ^ 2 * M x) + c3 * (x ^ 3 * M x)
      + c4 * (x ^ 4 * M x)) = c0 * Z + c2 * (T * Z) + c4 * (3 * T ^ 2 * Z) := by
    intro c0 c1 c2 c3 c4
    rw [integral_add, integral_add, integral_add, integral_add, integral_const_mul, integral_const_mul,
      integral_const_mul, integral_const_mul, integral_const_mul]
    · have e1 : ∫ x, x * M x = 0 := h1
      have e3 : ∫ x, x ^ 3 * M x = 0 := h3
      have e0 : ∫ x, M x = Z := h0
      have e2 : ∫ x, x ^ 2 * M x = T * Z := h2
      have e4 : ∫ x, x ^ 4 * M x = 3 * T ^ 2 * Z := h4
      rw [e0, e1, e2, e3, e4]; ring
    · exact i0.const_mul _
    · exact i1.const_mul _
    · exact (i0.const_mul _).add (i1.const_mul _)
    · exact i2.const_mul _
    · exact ((i0.const_mul _).add (i1.const_mul _)).add (i2.const_mul _)
    · exact i3.const_mul _
    · exact (((i0.const_mul _).add (i1.const_mul _)).add (i2.const_mul _)).add (i3.const_mul _)
    · exact i4.const_mul _
  have dfeq : ∀ v, interDf n u T Q R v
      = (Q / T * (v - u) ^ 2 - Q + R * (v - u)) / (T * Z) * M (v - u) := by
    intro v
    simp only [interDf, maxwellian_eq, hM]
    rw [← hZdef]
    field_simp
    ring
  refine ⟨?_, ?_, ?_⟩
  · have := sub (fun x => (-Q / (T * Z)) * M x + R / (T * Z) * (x * M x) + Q / T / (T * Z) * (x ^ 2 * M x)
      + 0 * (x ^ 3 * M x) + 0 * (x ^ 4 * M x))
    rw [poly] at this
    have e : (fun v => interDf n u T Q R v) = fun v => (-Q / (T * Z)) * M (v - u) + R / (T * Z) * ((v - u) * M (v - u))
        + Q / T / (T * Z) * ((v - u) ^ 2 * M (v - u))
      + 0 * ((v - u) ^ 3 * M (v - u)) + 0 * ((v - u) ^ 4 * M (v - u)) := by
      funext v; rw [dfeq]; field_simp; ring
    rw [e, this]; field_simp; ring
  · have := sub (fun x => (-Q * u / (T * Z)) * M x + (R * u - Q) / (T * Z) * (x * M x)
      + (Q / T * u + R) / (T * Z) * (x ^ 2 * M x) + Q / T / (T * Z) * (x ^ 3 * M x) + 0 * (x ^ 4 * M x))
    rw [poly] at this
    have e : (fun v => v * interDf n u T Q R v) = fun v => (-Q * u / (T * Z)) * M (v - u)
      + (R * u - Q) / (T * Z) * ((v - u) * M (v - u))
      + (Q / T * u + R) / (T * Z) * ((v - u) ^ 2 * M (v - u)) + Q / T / (T * Z) * ((v - u) ^ 3 * M (v - u))
      + 0 * ((v - u) ^ 4 * M (v - u)) := by
      funext v; rw [dfeq]; field_simp; ring
    rw [e, this]; field_simp; ring
  · have := sub (fun x => (-Q * u ^ 2 / 2 / (T * Z)) * M x + (R * u ^ 2 / 2 - Q * u) / (T * Z) * (x * M x)
      + (Q / T * u ^ 2 / 2 + R * u - Q / 2) / (T * Z) * (x ^ 2 * M x)
      + (Q / T * u + R / 2) / (T * Z) * (x ^ 3 * M x) + Q / T / 2 / (T * Z) * (x ^ 4 * M x))
    rw [poly] at this
    have e : (fun v => v ^ 2 / 2 * interDf n u T Q R v) = fun v => (-Q * u ^ 2 / 2 / (T * Z)) * M (v - u)
      + (R * u ^ 2 / 2 - Q * u) / (T * Z) * ((v - u) * M (v - u))
      + (Q / T * u ^ 2 / 2 + R * u - Q / 2) / (T * Z) * ((v - u) ^ 2 * M (v - u))
      + (Q / T * u + R / 2) / (T * Z) * ((v - u) ^ 3 * M (v - u))
      + Q / T / 2 / (T * Z) * ((v - u) ^ 4 * M (v - u)) := by
      funext v; rw [dfeq]; field_simp; ring
    rw [e, this]; field_simp; ring

/-- **C39** End to end: the derivatives computed for the two species, seen as functions of a continuous velocity, create no
particle, no total momentum and no total energy. -/
theorem c39_total_conservation (mass : Two → ℝ) (nu : ℝ) (dens vel temp : Two → ℝ) (hme : 0 < mass .elec)
    (hmi : 0 < mass .ion) (hn : ∀ s, dens s ≠ 0) (hT : ∀ s, 0 < temp s) :
    let x := exchange mass nu dens vel temp .elec .ion
    let dfe := interDf (dens .elec) (vel .elec) (temp .elec) x.enElec x.momElec
    let dfi := interDf (dens .ion) (vel .ion) (temp .ion) x.enIon x.momIon
    (∫ v, dfe v = 0) ∧ (∫ v, dfi v = 0) ∧
      (sqrt (mass .elec) * ∫ v, v * dfe v) + (sqrt (mass .ion) * ∫ v, v * dfi v) = 0 ∧
      (∫ v, v ^ 2 / 2 * dfe v) + (∫ v, v ^ 2 / 2 * dfi v) = 0 := by
  intro x dfe dfi
  obtain ⟨a0, a1, a2⟩ := c39_source_moments (dens .elec) (vel .elec) (temp .elec) x.enElec x.momElec (hn _) (hT _)
  obtain ⟨b0, b1, b2⟩ := c39_source_moments (dens .ion) (vel .ion) (temp .ion) x.enIon x.momIon (hn _) (hT _)
  refine ⟨a0, b0, ?_, ?_⟩
  · simp only [dfe, dfi]
    rw [a1, b1]
    exact c39_momentum_cancels mass dens vel temp nu .elec .ion hme hmi
  · simp only [dfe, dfi]
    rw [a2, b2]
    exact c39_energy_cancels mass dens vel temp nu .elec .ion

/-! ## The moments used are the discrete ones -/

theorem momentLoop_eq (n : ℕ) (w v f : ℕ → ℝ) :
    momentLoop n w v f = ⟨∑ k ∈ Finset.range n, w k * f k, ∑ k ∈ Finset.range n, w k * f k * v k,
      ∑ k ∈ Finset.range n, w k * f k * v k ^ 2⟩ := by
  unfold momentLoop
  induction n with
  | zero => simp
  | succ n ih =>
      rw [List.range_succ, List.foldl_append, ih]
      simp only [List.foldl_cons, List.foldl_nil, Finset.sum_range_succ]
      congr 1
      ring

/-- **C39** (link with the discrete distribution) Density, velocity and temperature used by the operator are the quadrature
moments of the distribution; the temperature is the centred second moment. -/
theorem c39_discrete_moments (n : ℕ) (w v f : ℕ → ℝ) (hd : density n w v f ≠ 0) :
    density n w v f = ∑ k ∈ Finset.range n, w k * f k ∧
      density n w v f * velocity n w v f = ∑ k ∈ Finset.range n, w k * (v k * f k) ∧
      density n w v f * temperature n w v f
        = ∑ k ∈ Finset.range n, w k * ((v k - velocity n w v f) ^ 2 * f k) := by
  have h0 : density n w v f = ∑ k ∈ Finset.range n, w k * f k := by rw [density, momentLoop_eq]
  have h1 : density n w v f * velocity n w v f = ∑ k ∈ Finset.range n, w k * (v k * f k) := by
    rw [velocity, ← density, mul_div_cancel₀ _ hd, momentLoop_eq]
    show ∑ k ∈ Finset.range n, w k * f k * v k = _
    exact Finset.sum_congr rfl fun k _ => by ring
  refine ⟨h0, h1, ?_⟩
  have : ∑ k ∈ Finset.range n, w k * ((v k - velocity n w v f) ^ 2 * f k)
      = ∑ k ∈ Finset.range n, w k * f k * v k ^ 2 - 2 * velocity n w v f * ∑ k ∈ Finset.range n, w k * (v k * f k)
        + velocity n w v f ^ 2 * ∑ k ∈ Finset.range n, w k * f k := by
    rw [Finset.mul_sum, Finset.mul_sum, ← Finset.sum_sub_distrib, ← Finset.sum_add_distrib]
    exact Finset.sum_congr rfl fun k _ => by ring
  rw [this, ← h0, ← h1]
  rw [temperature, ← density, mul_div_cancel₀ _ hd, momentLoop_eq]
  have h1' : ∑ k ∈ Finset.range n, w k * f k * v k = density n w v f * velocity n w v f := by
    rw [h1]; exact Finset.sum_congr rfl fun k _ => by ring
  rw [h1']
  ring

/-- **C39** A state in which both species have equal dimensional velocities and temperatures is a fixed point of the whole
RK2 step. -/
theorem c39_equilibrium_step (mass charge : Two → ℝ) (Lx nustar0 : ℝ) (n : ℕ) (w v : ℕ → ℝ) (f : Two → ℕ → ℝ)
    (dt : ℝ) (hme : 0 < mass .elec) (hmi : 0 < mass .ion)
    (hV : velocity n w v (f .elec) / sqrt (mass .elec) = velocity n w v (f .ion) / sqrt (mass .ion))
    (hT : temperature n w v (f .elec) = temperature n w v (f .ion)) :
    interStep mass charge Lx nustar0 n w v f dt = f := by
  have hz : interDerivative mass charge Lx nustar0 n w v f = 0 := by
    funext s k
    have := c39_equilibrium mass (fun s => density n w v (f s)) (fun s => velocity n w v (f s))
      (fun s => temperature n w v (f s))
      (collfreqAbElec mass charge (nustarProfile mass charge .elec Lx nustar0) (fun s => density n w v (f s))
        (fun s => temperature n w v (f s)) .elec .ion) .elec .ion hme hmi hV hT
    cases s <;> simp [interDerivative, this, interDf]
  simp [interStep, Timestepper.rk2, Timestepper.defaultUpdate, hz]

/-- A concrete two-species state (three velocity points) meets the hypotheses of the fixed-point theorem. -/
example : interStep (fun s => match s with | .elec => 1 | .ion => 400) (fun s => match s with | .elec => -1 | .ion => 1)
    10 0.5 3 (fun _ => 1) (fun k => (k : ℝ) - 1) (fun s k => match s with
      | .elec => if k = 1 then 2 else 1
      | .ion => if k = 1 then 4 else 2) 0.1
    = (fun s k => match s with
      | .elec => if k = 1 then 2 else 1
      | .ion => if k = 1 then 4 else 2) := by
  refine c39_equilibrium_step _ _ _ _ _ _ _ _ _ (by norm_num) (by norm_num) ?_ ?_
  · simp [velocity, momentLoop, List.range_succ]; norm_num
  · simp [temperature, velocity, momentLoop, List.range_succ]; norm_num

/-! ## Choice of the ion and validity checks -/

/-- **C39** `find_ion` fails exactly when no species has positive charge, and otherwise returns the last one. -/
theorem c39_find_ion (charge : List ℝ) :
    (findIon charge = none ↔ ∀ k < charge.length, charge.getD k 0 ≤ 0) ∧
      ∀ j, findIon charge = some j ↔
        j < charge.length ∧ 0 < charge.getD j 0 ∧ ∀ k < charge.length, j < k → charge.getD k 0 ≤ 0 := by
  have key : ∀ m, let o := (List.range m).foldl (fun o k => if 0 < charge.getD k 0 then some k else o) (none : Option ℕ)
      (o = none ↔ ∀ k < m, charge.getD k 0 ≤ 0) ∧
      ∀ j, o = some j ↔ j < m ∧ 0 < charge.getD j 0 ∧ ∀ k < m, j < k → charge.getD k 0 ≤ 0 := by
    intro m
    induction m with
    | zero => simp
    | succ m ih =>
        obtain ⟨ih1, ih2⟩ := ih
        simp only [List.range_succ, List.foldl_append, List.foldl_cons, List.foldl_nil]
        by_cases h : 0 < charge.getD m 0
        · simp only [if_pos h]
          refine ⟨⟨fun h' => by simp at h', fun h' => absurd (h' m (by omega)) (not_le.2 h)⟩, fun j => ?_⟩
          simp only [Option.some.injEq]
          constructor
          · rintro rfl; exact ⟨by omega, h, fun k hk hk' => by omega⟩
          · rintro ⟨h1, h2, h3⟩
            by_contra hne
            exact absurd (h3 m (by omega) (by omega)) (not_le.2 h)
        · simp only [if_neg h]
          have h' := not_lt.1 h
          refine ⟨ih1.trans ⟨fun g k hk => ?_, fun g k hk => g k (by omega)⟩, fun j => (ih2 j).trans ?_⟩
          · rcases Nat.lt_succ_iff_lt_or_eq.1 hk with hk | rfl
            · exact g k hk
            · exact h'
          · constructor
            · rintro ⟨h1, h2, h3⟩
              refine ⟨by omega, h2, fun k hk hjk => ?_⟩
              rcases Nat.lt_succ_iff_lt_or_eq.1 hk with hk | rfl
              · exact h3 k hk hjk
              · exact h'
            · rintro ⟨h1, h2, h3⟩
              refine ⟨?_, h2, fun k hk => h3 k (by omega)⟩
              rcases Nat.lt_succ_iff_lt_or_eq.1 h1 with hk | rfl
              · exact hk
              · exact absurd h2 h
  exact key charge.length

example : findIon [1, -1] = some 0 := by simp [findIon, List.range_succ]
example : findIon [-1] = none := by simp [findIon, List.range_succ]

/-- **C39** The constructor accepts exactly two species with a non-zero collisionality. -/
theorem c39_ctor (n : ℕ) (nu : ℝ) : ctorCheck n nu = .ok ↔ n = 2 ∧ nu ≠ 0 := by
  unfold ctorCheck; split_ifs with h1 h2 <;> simp_all

end Verif.Collisions
