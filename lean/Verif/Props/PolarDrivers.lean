import Verif.Model.PolarDrivers
import Verif.Props.PolarFem
import Mathlib.Analysis.SpecialFunctions.Trigonometric.Basic
import Mathlib.Tactic.Ring
import Mathlib.Tactic.Linarith
import Mathlib.Tactic.NormNum
import Mathlib.Tactic.Positivity

/-!
# C81: the initial data of the guiding-centre simulations
-/

namespace Verif.PolarDrivers
open Verif.Initial Real Finset

variable {I : Type*}

/-! ## Diocotron -/

/-- C81 (diocotron): the time loop starts from the perturbed annulus `(1 + eps cos (l θ)) exp (-((r - r̄)/d)^50)` on `[R1, R2]` (0 outside), at the coordinates of each point; the saved equilibrium is the same
density without perturbation, and the saved potential is the potential of the saved equilibrium. -/
theorem c81_diocotron (rMin rMax R1 R2 Q : ℝ) (l : ℕ) (eps : ℝ) (coord : I → ℝ × ℝ) (poisson : (I → ℝ) → I → ℝ) :
    let s := diocotronMain rMin rMax R1 R2 Q l eps coord poisson
    (∀ i, s.density i = if R1 ≤ (coord i).1 ∧ (coord i).1 ≤ R2 then
        (1 + eps * cos (l * (coord i).2)) * exp (-(((coord i).1 - (R1 + R2) / 2) / ((R2 - R1) / 2)) ^ 50) else 0)
      ∧ (∀ i, s.density i = (1 + eps * cos (l * (coord i).2)) * s.densityEq i)
      ∧ s.phiEq = poisson s.densityEq := by
  intro s
  refine ⟨fun i => rfl, fun i => ?_, rfl⟩
  simp only [s, diocotronMain, Diocotron.initialisation, Diocotron.equilibrium]
  split_ifs <;> ring

/-! ## Vortex merger -/

/-- Specification: the documented initial density: the equilibrium plus two Gaussians. -/
noncomputable def perturbed (rhoEq0 : I → ℝ) (p : Perturb) (phys : I → ℝ × ℝ) (i : I) : ℝ :=
  rhoEq0 i + p.eps * (exp (-(((phys i).1 - p.x1) ^ 2 + ((phys i).2 - p.y1) ^ 2) / (2 * p.sigma ^ 2))
    + exp (-(((phys i).1 - p.x2) ^ 2 + ((phys i).2 - p.y2) ^ 2) / (2 * p.sigma ^ 2)))

/-- FINDING (vortex merger): the perturbation is lost. The density given to the time loop is the equilibrium for all perturbation parameters, and differs from the documented
initial density at every point as soon as the amplitude is not zero. -/
theorem c81_vortex_perturbation_lost (rhoEq0 : I → ℝ) (p : Perturb) (phys : I → ℝ × ℝ) (poisson : (I → ℝ) → I → ℝ) (garbage : I → ℝ) :
    (vortexMain rhoEq0 p phys poisson garbage).density = rhoEq0
      ∧ (p.eps ≠ 0 → ∀ i, (vortexMain rhoEq0 p phys poisson garbage).density i ≠ perturbed rhoEq0 p phys i) := by
  refine ⟨rfl, fun he i h => ?_⟩
  have h' : rhoEq0 i = perturbed rhoEq0 p phys i := h
  unfold perturbed at h'
  have : p.eps * (exp (-(((phys i).1 - p.x1) ^ 2 + ((phys i).2 - p.y1) ^ 2) / (2 * p.sigma ^ 2))
    + exp (-(((phys i).1 - p.x2) ^ 2 + ((phys i).2 - p.y2) ^ 2) / (2 * p.sigma ^ 2))) = 0 := by linarith
  rcases mul_eq_zero.1 this with h0 | h0
  · exact he h0
  · have h1 := exp_pos (-(((phys i).1 - p.x1) ^ 2 + ((phys i).2 - p.y1) ^ 2) / (2 * p.sigma ^ 2))
    have h2 := exp_pos (-(((phys i).1 - p.x2) ^ 2 + ((phys i).2 - p.y2) ^ 2) / (2 * p.sigma ^ 2))
    linarith

/-- FINDING (vortex merger): the whole simulation (final state and every saved event), for any operators of the predictor-corrector and any number of steps, is the same for all perturbations. -/
theorem c81_vortex_independent {Φ X V : Type*} [AddCommGroup V] [Module ℝ V] (o : TimeLoops.Ops (I → ℝ) Φ I X V) (aliased : Bool) (grid : List I) (dt : ℝ) (n : ℕ)
    (rhoEq0 : I → ℝ) (p p' : Perturb) (phys : I → ℝ × ℝ) (poisson : (I → ℝ) → I → ℝ) (garbage garbage' : I → ℝ) :
    TimeLoops.implicitSolver aliased o grid (vortexMain rhoEq0 p phys poisson garbage).density dt n
      = TimeLoops.implicitSolver aliased o grid (vortexMain rhoEq0 p' phys poisson garbage').density dt n := rfl

/-- FINDING (vortex merger): the saved `electrical_potential_eq` is the potential of the content of uninitialised memory: it is unrelated to the saved equilibrium, and any potential the solver can
produce may be saved. -/
theorem c81_vortex_phi_eq (rhoEq0 : I → ℝ) (p : Perturb) (phys : I → ℝ × ℝ) (poisson : (I → ℝ) → I → ℝ) (rho : I → ℝ) :
    ∃ garbage, (vortexMain rhoEq0 p phys poisson garbage).phiEq = poisson rho ∧ (vortexMain rhoEq0 p phys poisson garbage).densityEq = rhoEq0 :=
  ⟨rho, rfl, rfl⟩

/-- The documented density is a real perturbation: an instance. -/
example : perturbed (I := Unit) (fun _ => 1) ⟨1, 1, 0, 0, 0, 0⟩ (fun _ => (0, 0)) () = 3 := by
  simp [perturbed]; norm_num

/-! ## The equation that is solved -/

/-- The weak form is linear in `alpha`: with `beta = 0`, the form for `alpha = -1` is the opposite of the form for `alpha = 1`. -/
theorem form_neg (z : PolarFem.Sz) (d : PolarFem.Dat) (hb : ∀ a b, d.beta a b = 0) (ha : ∀ a b, d.alpha a b = -1) (v u : ℕ → ℕ → ℕ → ℕ → ℝ) :
    PolarFem.form z { d with alpha := fun _ _ => 1 } v u = - PolarFem.form z d v u := by
  unfold PolarFem.form
  rw [← Finset.sum_neg_distrib]
  refine Finset.sum_congr rfl fun qr _ => ?_
  rw [← Finset.sum_neg_distrib]
  refine Finset.sum_congr rfl fun qt _ => ?_
  simp only [ha, hb]
  ring

/-- C81: with the coefficients chosen by both polar programs, a solution of the assembled system satisfies the weak form of `Δφ = ρ`: `∫ ∇φ · ∇v = - ∫ ρ v` for all test functions. This is the equation of the diocotron
documentation. FINDING: the vortex merger documentation (and that of the equilibrium) announce `-Δφ = ρ`, `∫ ∇φ · ∇v = ∫ ρ v`: this holds for a test function only when `∫ ρ v = 0`. -/
theorem c81_equation (z : PolarFem.Sz) (d : PolarFem.Dat) (g : PolarFem.Good z d) (wc : List (ℕ × ℕ)) (hc : wc.Perm (PolarFem.colWrites z)) (wv : List (ℕ × Option ℝ))
    (hv : wv.Perm (PolarFem.valWrites z d (PolarFem.store wc))) (f : ℕ → ℕ → ℝ) (x : ℕ → ℝ)
    (hx : ∀ i < z.matSize, PolarFem.csrRow (PolarFem.ptr z) (PolarFem.store wc) (PolarFem.store wv) x i = PolarFem.rhs z d f i)
    (ha : ∀ a b, d.alpha a b = poissonCoeffs.1) (hb : ∀ a b, d.beta a b = poissonCoeffs.2) (c : ℕ → ℝ) :
    let grad := PolarFem.form z { d with alpha := fun _ _ => 1 } (PolarFem.field z d z.matSize c) (PolarFem.field z d (PolarSplines.nbasis z.c1 z.nR z.nT) (PolarFem.fillSpline z x))
    let load := ∑ qr ∈ range z.qR, ∑ qt ∈ range z.qT, f qr qt * PolarFem.field z d z.matSize c 0 0 qr qt * d.vol qr qt
    grad = -load ∧ (grad = load ↔ load = 0) := by
  intro grad load
  have h1 : grad = -load := by
    have := (PolarFem.c74_solution z d g wc hc wv hv f x hx).2 c
    rw [show grad = _ from form_neg z d hb ha _ _, this]
  refine ⟨h1, fun h => by linarith, fun h => by rw [h1, h]; simp⟩

/-! ## Cartesian guiding centre -/

/-- C81 (Cartesian guiding centre): the density is `sin y + eps cos (2π x / L)`, the equilibrium `sin y`; the saved potential is the potential of the initial density. The perturbation has the period of the domain. -/
theorem c81_guiding_centre (eps length : ℝ) (coord : I → ℝ × ℝ) (poisson : (I → ℝ) → I → ℝ) (hl : length ≠ 0) :
    let s := guidingCentreMain eps length coord poisson
    (∀ i, s.density i = sin (coord i).2 + eps * cos (2 * π * (coord i).1 / length)) ∧ (∀ i, s.densityEq i = sin (coord i).2) ∧ s.phiEq = poisson s.density
      ∧ ∀ i j, (coord j).2 = (coord i).2 → (coord j).1 = (coord i).1 + length → s.density j = s.density i := by
  have key : ∀ i, (guidingCentreMain eps length coord poisson).density i = sin (coord i).2 + eps * cos (2 * π * (coord i).1 / length) := by
    intro i
    simp only [guidingCentreMain, kelvinHelmholtz]
    rw [show 2 * π / length * (coord i).1 = 2 * π * (coord i).1 / length by ring]
  refine ⟨key, fun i => rfl, rfl, fun i j h1 h2 => ?_⟩
  rw [key, key, h1, h2]
  rw [show 2 * π * ((coord i).1 + length) / length = 2 * π * (coord i).1 / length + 2 * π by field_simp]
  rw [cos_add_two_pi]

example : (guidingCentreMain (I := Unit) 1 4 (fun _ => (0, 0)) (fun f => f)).density () = 1 := by
  simp [guidingCentreMain, kelvinHelmholtz]

end Verif.PolarDrivers
