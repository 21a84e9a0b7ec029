import Verif.Model.QnSolver
import Verif.Props.Moments
import Verif.Props.Fft
import Verif.Props.Fem
import Mathlib.Tactic.Linarith
import Mathlib.Tactic.Ring
import Mathlib.Tactic.FieldSimp
import Mathlib.Tactic.IntervalCases
import Mathlib.Tactic.NormNum

/-!
# C87: quasi-neutrality solvers, from the distribution function to the potential and the electric field

The charge density of the specification is `totalCharge`: the charges of all species, kinetic or adiabatic.  The 1D1V calculator forgets the
adiabatic charge and the parallel 2D2V calculator counts it once per rank (property C44); C87 says for which Poisson solvers this is harmless.
-/
namespace Verif.QnSolver

open Verif.Moments Finset

variable {X : Type}

/-- Specification: the total charge density at a point: the charge of each kinetic species times its density, plus the charge of the adiabatic
species (unit density) if there is one. -/
noncomputable def totalCharge (nsp nkin : ℕ) (charge : ℕ → ℝ) (nv : ℕ) (w : ℕ → ℝ) (f : ℕ → X → ℕ → ℝ) (x : X) : ℝ :=
  (∑ s ∈ range nkin, charge s * ∑ k ∈ range nv, w k * f s x k) + if nkin < nsp then charge (nsp - 1) else 0

theorem rhoXVx_eq (nsp nkin : ℕ) (charge : ℕ → ℝ) (nv : ℕ) (w : ℕ → ℝ) (f : ℕ → X → ℕ → ℝ) :
    rhoXVx nkin charge nv w f = fun x => totalCharge nsp nkin charge nv w f x + -(if nkin < nsp then charge (nsp - 1) else 0) := by
  funext x
  rw [rhoXVx, c44_xvx_kinetic, totalCharge, kineticCharge]
  ring

theorem rhoXYVxVy_eq (nsp nkin : ℕ) (charge : ℕ → ℝ) (nv : ℕ) (w : ℕ → ℝ) (f : ℕ → X → ℕ → ℝ) (h1 : 1 ≤ nkin) (h2 : nkin ≤ nsp) :
    rhoXYVxVy nsp nkin charge nv w f = totalCharge nsp nkin charge nv w f := by
  funext x
  rw [rhoXYVxVy, c44_xyvxvy _ _ _ _ _ _ h1 h2]
  rfl

theorem rhoMpi_eq (P : ℕ) (off len : ℕ → ℕ) (h0 : off 0 = 0) (hs : ∀ r < P, off (r + 1) = off r + len r)
    (nsp nkin : ℕ) (charge : ℕ → ℝ) (w : ℕ → ℝ) (f : ℕ → X → ℕ → ℝ) (h1 : 1 ≤ nkin) (h2 : nkin ≤ nsp) :
    rhoMpi P off len nsp nkin charge w f = fun x => totalCharge nsp nkin charge (off P) w f x +
      ((P : ℝ) - 1) * (if nkin < nsp then charge (nsp - 1) else 0) := by
  funext x
  rw [rhoMpi, c44_mpi_value P off len h0 hs _ _ _ _ _ h1 h2, totalCharge, kineticCharge, adiabaticCharge]
  ring

/-! ## Periodic dimensions, FFT solver -/

section fft

variable {D : ℕ} (N : Fin (D + 1) → ℕ) [∀ i, NeZero (N i)] (h : Fin (D + 1) → ℝ)

theorem fft_shift (rho : Fft.Grid N → ℝ) (a : ℝ) (k : Fft.Grid N) (hk : k ≠ 0) : Fft.fft N (fun x => rho x + a) k = Fft.fft N rho k := by
  unfold Fft.fft
  have : ∀ x, ((rho x + a : ℝ) : ℂ) * Fft.mode N (-k) x = (rho x : ℂ) * Fft.mode N (-k) x + a * Fft.mode N (-k) x := by
    intro x; push_cast; ring
  simp only [this, sum_add_distrib, ← mul_sum, Fft.sum_mode, neg_eq_zero, hk, if_false, mul_zero, add_zero]

/-- **C87** A uniform background does not change what the FFT solver returns. -/
theorem c87_fft_background (rho : Fft.Grid N → ℝ) (a : ℝ) : fftSolver N h (fun x => rho x + a) = fftSolver N h rho := by
  have : Fft.solveFourier N h (fun x => rho x + a) = Fft.solveFourier N h rho := by
    funext k
    unfold Fft.solveFourier
    simp only
    split_ifs with hk
    · rw [fft_shift N rho a k hk]
    · rfl
  unfold fftSolver Fft.potential Fft.electricField
  rw [this]

/-- Specification: `phi` and `e` solve the Poisson problem of the density `rho` on the periodic grid with steps `h` and first point `a`:
there is a smooth periodic potential (a trigonometric polynomial) through the values of `phi`, with zero mean on the grid, whose Laplacian
at the points is minus the deviation of `rho` from its mean value, and `e` is minus its gradient (in every dimension with an odd number
of points; real part of it in the last dimension). -/
def SolvesPeriodicPoisson (a : Fin (D + 1) → ℝ) (rho phi : Fft.Grid N → ℝ) (e : Fin (D + 1) → Fft.Grid N → ℝ) : Prop :=
  ∑ x, phi x = 0 ∧
  ∃ P : (Fin (D + 1) → ℝ) → ℂ, ∃ Q R : Fin (D + 1) → (Fin (D + 1) → ℝ) → ℂ,
    (∀ y i, HasDerivAt (fun s : ℝ => P (Function.update y i s)) (Q i y) (y i)) ∧
    (∀ y i, HasDerivAt (fun s : ℝ => Q i (Function.update y i s)) (R i y) (y i)) ∧
    (∀ x, (phi x : ℂ) = P fun i => a i + (x i).val * h i) ∧
    (∀ x, -∑ i, R i (fun i => a i + (x i).val * h i) = ((rho x - (∑ z, rho z) / ∏ i, (N i : ℝ) : ℝ) : ℂ)) ∧
    (∀ i, i = Fin.last D ∨ Odd (N i) → ∀ x, e i x = (-Q i fun i => a i + (x i).val * h i).re) ∧
    (∀ i, Odd (N i) → ∀ x, (e i x : ℂ) = -Q i fun i => a i + (x i).val * h i)

theorem fft_solves (hh : ∀ i, 0 < h i) (a : Fin (D + 1) → ℝ) (rho : Fft.Grid N → ℝ) :
    SolvesPeriodicPoisson N h a rho (fftSolver N h rho).1 (fftSolver N h rho).2 :=
  ⟨Fft.c53_zero_mean N h rho, Fft.c53_poisson N h hh a rho⟩

/-- **C87** 1D1V quasi-neutrality solver with the FFT solver: the potential and the field are those of the total charge of all species, although
the calculator forgets the adiabatic species. -/
theorem c87_fft_xvx (hh : ∀ i, 0 < h i) (a : Fin (D + 1) → ℝ) (nsp nkin : ℕ) (charge : ℕ → ℝ) (nv : ℕ) (w : ℕ → ℝ)
    (f : ℕ → Fft.Grid N → ℕ → ℝ) {R : Type} [DecidableEq R] (r : R) :
    ∃ phi e, qn r r (rhoXVx nkin charge nv w) (fftSolver N h) f = some (phi, e) ∧
      SolvesPeriodicPoisson N h a (totalCharge nsp nkin charge nv w f) phi e := by
  refine ⟨(fftSolver N h (rhoXVx nkin charge nv w f)).1, (fftSolver N h (rhoXVx nkin charge nv w f)).2, if_pos rfl, ?_⟩
  rw [rhoXVx_eq nsp, c87_fft_background]
  exact fft_solves N h hh a _

/-- **C87** Serial 2D2V quasi-neutrality solver with the FFT solver. -/
theorem c87_fft_xyvxvy (hh : ∀ i, 0 < h i) (a : Fin (D + 1) → ℝ) (nsp nkin : ℕ) (h1 : 1 ≤ nkin) (h2 : nkin ≤ nsp) (charge : ℕ → ℝ)
    (nv : ℕ) (w : ℕ → ℝ) (f : ℕ → Fft.Grid N → ℕ → ℝ) {R : Type} [DecidableEq R] (r : R) :
    ∃ phi e, qn r r (rhoXYVxVy nsp nkin charge nv w) (fftSolver N h) f = some (phi, e) ∧
      SolvesPeriodicPoisson N h a (totalCharge nsp nkin charge nv w f) phi e := by
  refine ⟨_, _, if_pos rfl, ?_⟩
  rw [rhoXYVxVy_eq _ _ _ _ _ _ h1 h2]
  exact fft_solves N h hh a _

/-- **C87** Parallel 2D2V quasi-neutrality solver with the FFT solver: on any number of ranks and for any distribution of the velocity points the
result is that of the serial solver, although the calculator counts the adiabatic charge once per rank. -/
theorem c87_fft_mpi (P : ℕ) (off len : ℕ → ℕ) (h0 : off 0 = 0) (hs : ∀ r < P, off (r + 1) = off r + len r)
    (nsp nkin : ℕ) (h1 : 1 ≤ nkin) (h2 : nkin ≤ nsp) (charge : ℕ → ℝ) (w : ℕ → ℝ) (f : ℕ → Fft.Grid N → ℕ → ℝ)
    {R : Type} [DecidableEq R] (r r' : R) :
    qn r r' (rhoMpi P off len nsp nkin charge w) (fftSolver N h) f = qn r r' (rhoXYVxVy nsp nkin charge (off P) w) (fftSolver N h) f := by
  unfold qn
  rw [rhoMpi_eq P off len h0 hs _ _ _ _ _ h1 h2, c87_fft_background, rhoXYVxVy_eq _ _ _ _ _ _ h1 h2]

/-- **C87** A plasma which is uniform in space has no field. -/
theorem c87_fft_uniform (nkin : ℕ) (charge : ℕ → ℝ) (nv : ℕ) (w : ℕ → ℝ) (g : ℕ → ℕ → ℝ) {R : Type} [DecidableEq R] (r : R) :
    qn r r (rhoXVx nkin charge nv w) (fftSolver N h) (fun s (_ : Fft.Grid N) k => g s k) = some (fun _ => 0, fun _ _ => 0) := by
  have e : rhoXVx nkin charge nv w (fun s (_ : Fft.Grid N) k => g s k) =
      fun _ => (fun _ => (0 : ℝ)) (0 : Fft.Grid N) + chargeDensityXVx nkin charge nv w g := by
    funext x; rw [rhoXVx, zero_add]
  have hz : Fft.solveFourier N h (fun _ => 0) = fun _ => 0 := by
    funext k
    simp [Fft.solveFourier, Fft.fft]
  unfold qn
  rw [if_pos rfl, e, c87_fft_background N h (fun _ => 0)]
  unfold fftSolver Fft.potential Fft.electricField
  rw [hz]
  congr 2
  · funext x; simp [Fft.ifft]
  · funext i x; simp [Fft.ifft, Fft.negDiff]

end fft

/-! ## Finite elements in one dimension -/

/-- What is used of the spline of the density: adding a constant to the values adds the constant to the spline. -/
def PreservesConstants (splineAt : (X → ℝ) → Fem.Pt → ℝ) (points : List Fem.Pt) : Prop :=
  ∀ rho a, ∀ p ∈ points, splineAt (fun x => rho x + a) p = splineAt rho p + a

theorem rhs_congr (d n : ℕ) (hn : 0 < n) (points : List Fem.Pt) (g g' : Fem.Pt → ℝ) (H : ∀ p ∈ points, g p = g' p) :
    Fem.rhs d n points g = Fem.rhs d n points g' := by
  funext i
  rw [Fem.rhs_entry d n hn, Fem.rhs_entry d n hn]
  congr 1
  exact List.map_congr_left fun p hp => by rw [H p hp]

/-- **C87** With the periodic finite element solver a uniform background changes nothing either, for every correct linear solver. -/
theorem c87_fem_background {d n : ℕ} {points : List Fem.Pt} {m : ℕ → ℝ} (S : Fem.PeriodicSpace d n points m)
    (splineAt : (X → ℝ) → Fem.Pt → ℝ) (hsp : PreservesConstants splineAt points) (solve : ℕ → Fem.Mat → (ℕ → ℝ) → ℕ → ℝ)
    (hsolve : ∀ b, Fem.Solves (n + 1) (Fem.periodicMatrix d n points m) b (solve (n + 1) (Fem.periodicMatrix d n points m) b))
    (rho : X → ℝ) (a : ℝ) (p : Fem.Pt) (hp : p.jmin < n) :
    (femPeriodic solve splineAt d n points m (fun x => rho x + a)).1 p = (femPeriodic solve splineAt d n points m rho).1 p ∧
    (femPeriodic solve splineAt d n points m (fun x => rho x + a)).2 p = (femPeriodic solve splineAt d n points m rho).2 p := by
  have hW := Fem.weight_sum_pos S.weight S.nonempty
  set g : Fem.Pt → ℝ := splineAt rho with hg
  set g' : Fem.Pt → ℝ := splineAt (fun x => rho x + a) with hg'
  have hgg : ∀ p ∈ points, g' p = g p + a * 1 := fun p hp => by rw [hg', hsp rho a p hp, mul_one]
  have hI : Fem.integral points g' = Fem.integral points g + a * Fem.integral points fun _ => 1 := by
    rw [Fem.integral_congr _ _ _ hgg, Fem.integral_add, Fem.integral_smul]
  have hmean : Fem.integral points g' / (Fem.integral points fun _ => 1) = Fem.integral points g / (Fem.integral points fun _ => 1) + a := by
    rw [hI]; field_simp
  have hc := Fem.c52_periodic S g' solve (hsolve _)
  have hev : ∀ p ∈ points, Fem.evalSpline d p (Fem.solvePeriodic solve d n points m g') = Fem.value d n (Fem.solvePeriodic solve d n points m g') p ∧
      Fem.evalField d p (Fem.solvePeriodic solve d n points m g') = -Fem.slope d n (Fem.solvePeriodic solve d n points m g') p :=
    fun p hp => Fem.periodic_eval solve d n S.pos points m g' p (S.jmin_lt p hp)
  have key := Fem.c52_periodic_unique S g solve (hsolve _) (Fem.solvePeriodic solve d n points m g')
    (by rw [← hc.1]; exact Fem.integral_congr _ _ _ fun p hp => (hev p hp).1.symm)
    (by
      intro t
      have h2 := hc.2 t
      rw [hmean] at h2
      rw [← Fem.integral_congr points (fun p => -Fem.evalField d p (Fem.solvePeriodic solve d n points m g') * Fem.slope d n t p) _
        (fun p hp => by rw [(hev p hp).2, neg_neg]), h2]
      exact Fem.integral_congr _ _ _ fun p hp => by rw [hgg p hp]; ring)
  have e1 := Fem.periodic_eval solve d n S.pos points m g p hp
  have e2 := Fem.periodic_eval solve d n S.pos points m g' p hp
  simp only [femPeriodic]
  rw [← hg, ← hg', e1.1, e1.2, e2.1, e2.2]
  constructor
  · exact sum_congr rfl fun i _ => by rw [key _ (Nat.mod_lt _ S.pos)]
  · congr 1
    exact sum_congr rfl fun i _ => by rw [key _ (Nat.mod_lt _ S.pos)]

/-- **C87** 1D1V with periodic finite elements: the result is that of the total charge of all species. -/
theorem c87_fem_periodic_xvx {d n : ℕ} {points : List Fem.Pt} {m : ℕ → ℝ} (S : Fem.PeriodicSpace d n points m)
    (splineAt : (X → ℝ) → Fem.Pt → ℝ) (hsp : PreservesConstants splineAt points) (solve : ℕ → Fem.Mat → (ℕ → ℝ) → ℕ → ℝ)
    (hsolve : ∀ b, Fem.Solves (n + 1) (Fem.periodicMatrix d n points m) b (solve (n + 1) (Fem.periodicMatrix d n points m) b))
    (nsp nkin : ℕ) (charge : ℕ → ℝ) (nv : ℕ) (w : ℕ → ℝ) (f : ℕ → X → ℕ → ℝ) {R : Type} [DecidableEq R] (r : R) :
    ∃ phi e, qn r r (rhoXVx nkin charge nv w) (femPeriodic solve splineAt d n points m) f = some (phi, e) ∧
      ∀ p, p.jmin < n →
        phi p = (femPeriodic solve splineAt d n points m (totalCharge nsp nkin charge nv w f)).1 p ∧
        e p = (femPeriodic solve splineAt d n points m (totalCharge nsp nkin charge nv w f)).2 p := by
  refine ⟨_, _, if_pos rfl, fun p hp => ?_⟩
  rw [rhoXVx_eq nsp]
  exact c87_fem_background S splineAt hsp solve hsolve _ _ p hp

/-- **C87** (finding) 1D1V with non-periodic finite elements: the forgotten adiabatic charge does change the result. The field at the quadrature
points is that of the total charge exactly when the adiabatic species carries no charge (or does not exist). -/
theorem c87_fem_dirichlet_xvx_iff {d n : ℕ} {points : List Fem.Pt} (S : Fem.DirichletSpace d n points)
    (splineAt : (X → ℝ) → Fem.Pt → ℝ) (hsp : PreservesConstants splineAt points) (solve : ℕ → Fem.Mat → (ℕ → ℝ) → ℕ → ℝ)
    (hsolve : ∀ b, Fem.Solves (n - 2) (Fem.nonPeriodicMatrix d n points) b (solve (n - 2) (Fem.nonPeriodicMatrix d n points) b))
    (htest : ∃ t : ℕ → ℝ, t 0 = 0 ∧ t (n - 1) = 0 ∧ Fem.integral points (Fem.value d n t) ≠ 0)
    (nsp nkin : ℕ) (charge : ℕ → ℝ) (nv : ℕ) (w : ℕ → ℝ) (f : ℕ → X → ℕ → ℝ) :
    (∀ p ∈ points, (femNonPeriodic solve splineAt d n points (rhoXVx nkin charge nv w f)).2 p =
      (femNonPeriodic solve splineAt d n points (totalCharge nsp nkin charge nv w f)).2 p) ↔
    (nsp ≤ nkin ∨ charge (nsp - 1) = 0) := by
  constructor
  · intro H
    by_contra hcon
    push Not at hcon
    obtain ⟨t, t0, t1, ht⟩ := htest
    have h1 := (Fem.c52_dirichlet S (splineAt (rhoXVx nkin charge nv w f)) solve (hsolve _)).2.2 t t0 t1
    have h2 := (Fem.c52_dirichlet S (splineAt (totalCharge nsp nkin charge nv w f)) solve (hsolve _)).2.2 t t0 t1
    have h3 : Fem.integral points (fun p => -Fem.evalField d p (Fem.solveNonPeriodic solve d n points (splineAt (rhoXVx nkin charge nv w f))) *
        Fem.slope d n t p) = Fem.integral points (fun p => -Fem.evalField d p (Fem.solveNonPeriodic solve d n points
          (splineAt (totalCharge nsp nkin charge nv w f))) * Fem.slope d n t p) := by
      refine Fem.integral_congr _ _ _ fun p hp => ?_
      have := H p hp
      simp only [femNonPeriodic] at this
      rw [this]
    rw [h1, h2, rhoXVx_eq nsp, if_pos hcon.1] at h3
    rw [Fem.integral_congr points _ (fun p => splineAt (totalCharge nsp nkin charge nv w f) p * Fem.value d n t p +
      (-charge (nsp - 1)) * Fem.value d n t p) (fun p hp => by rw [hsp _ _ p hp]; ring), Fem.integral_add, Fem.integral_smul] at h3
    have h4 : charge (nsp - 1) * Fem.integral points (Fem.value d n t) = 0 := by linarith
    rcases mul_eq_zero.1 h4 with e | e
    · exact hcon.2 e
    · exact ht e
  · intro H p hp
    have : rhoXVx nkin charge nv w f = totalCharge nsp nkin charge nv w f := by
      rw [rhoXVx_eq nsp]
      funext x
      split_ifs with hlt
      · rcases H with e | e
        · omega
        · rw [e]; ring
      · ring
    rw [this]

/-! ## Null solver and assertion -/

/-- **C87** The null solver leaves the fields of the caller as they are, for every distribution function. -/
theorem c87_null {Phi E : Type} (phi : Phi) (e : E) (f : ℕ → X → ℕ → ℝ) : (nullQn phi e f).1 = phi ∧ (nullQn phi e f).2 = e := ⟨rfl, rfl⟩

/-- **C87** The assertion rejects a distribution function on another spatial index range. -/
theorem c87_assert {Phi E R : Type} [DecidableEq R] (r r' : R) (computeRho : (ℕ → X → ℕ → ℝ) → X → ℝ) (solvePoisson : (X → ℝ) → Phi × E)
    (f : ℕ → X → ℕ → ℝ) : (qn r r' computeRho solvePoisson f).isSome ↔ r = r' := by
  unfold qn
  split_ifs with h <;> simp [h]

/-! ## The hypotheses are met -/

/-- One kinetic ion species with adiabatic electrons on a periodic grid of five points: the field is that of the total charge. -/
example (f : ℕ → Fft.Grid (D := 0) (fun _ => 5) → ℕ → ℝ) :
    ∃ phi e, qn () () (rhoXVx 1 (fun s => if s = 0 then 1 else -1) 3 fun _ => 1) (fftSolver (fun _ => 5) fun _ => 1 / 5) f = some (phi, e) ∧
      SolvesPeriodicPoisson (D := 0) (fun _ => 5) (fun _ => 1 / 5) (fun _ => 0)
        (fun x => 1 * (1 * f 0 x 0 + 1 * f 0 x 1 + 1 * f 0 x 2) + -1) phi e := by
  obtain ⟨phi, e, h1, h2⟩ := c87_fft_xvx (D := 0) (fun _ => 5) (fun _ => 1 / 5) (fun _ => by norm_num) (fun _ => 0) 2 1
    (fun s => if s = 0 then 1 else -1) 3 (fun _ => 1) f ()
  refine ⟨phi, e, h1, ?_⟩
  have : totalCharge 2 1 (fun s => if s = 0 then 1 else -1) 3 (fun _ => 1) f = fun x => 1 * (1 * f 0 x 0 + 1 * f 0 x 1 + 1 * f 0 x 2) + -1 := by
    funext x
    simp [totalCharge, sum_range_succ]
  rwa [this] at h2

/-- The linear system of three non-periodic cells of hat functions. -/
noncomputable def hatSolve (_n : ℕ) (_M : Fem.Mat) (b : ℕ → ℝ) (i : ℕ) : ℝ := if i = 0 then (2 * b 0 + b 1) / 3 else (b 0 + 2 * b 1) / 3

theorem hatSolve_solves (b : ℕ → ℝ) : Fem.Solves (4 - 2) (Fem.nonPeriodicMatrix 1 4 [Fem.hat 0, Fem.hat 1, Fem.hat 2]) b
    (hatSolve (4 - 2) (Fem.nonPeriodicMatrix 1 4 [Fem.hat 0, Fem.hat 1, Fem.hat 2]) b) := by
  intro i hi
  have e : ∀ r c, r < 2 → c < 2 → Fem.nonPeriodicMatrix 1 4 [Fem.hat 0, Fem.hat 1, Fem.hat 2] r c = if r = c then 2 else -1 := by
    intro r c hr hc
    unfold Fem.nonPeriodicMatrix
    rw [Fem.foldl_entry _ _ _ r c (fun M p _ => Fem.nonPeriodicPoint_entry 1 4 M p r c hr hc)]
    interval_cases r <;> interval_cases c <;> simp [Fem.hat, sum_range_succ] <;> norm_num
  have hi2 : i < 2 := hi
  interval_cases i <;> simp [sum_range_succ, e, hatSolve] <;> ring

/-- Adiabatic electrons with non-periodic finite elements: the field is wrong at some point, for every distribution function. -/
example (f : ℕ → Unit → ℕ → ℝ) : ¬ ∀ p ∈ [Fem.hat 0, Fem.hat 1, Fem.hat 2],
    (femNonPeriodic hatSolve (fun rho _ => rho ()) 1 4 [Fem.hat 0, Fem.hat 1, Fem.hat 2]
      (rhoXVx 1 (fun s => if s = 0 then 1 else -1) 3 (fun _ => 1) f)).2 p =
    (femNonPeriodic hatSolve (fun rho _ => rho ()) 1 4 [Fem.hat 0, Fem.hat 1, Fem.hat 2]
      (totalCharge 2 1 (fun s => if s = 0 then 1 else -1) 3 (fun _ => 1) f)).2 p := by
  rw [c87_fem_dirichlet_xvx_iff Fem.hat_dirichlet (fun rho _ => rho ()) (fun _ _ _ _ => rfl) hatSolve hatSolve_solves
    ⟨fun i => if i = 1 then 1 else 0, rfl, rfl, by simp [Fem.integral, Fem.value, Fem.hat, sum_range_succ]⟩]
  norm_num

end Verif.QnSolver
