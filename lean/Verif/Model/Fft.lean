import Mathlib.Analysis.Fourier.ZMod
import Mathlib.Analysis.SpecialFunctions.Trigonometric.Basic

/-!
# Fourier Poisson solver (src/pde_solvers/fft_poisson_solver.hpp)

The periodic grid has `D + 1` dimensions with `N i` points and spacing `h i`. The transforms are DDC's (Kokkos-FFT): real to complex on the mesh halved in the last dimension,
and complex to real. `double` is `ℝ`.
-/

namespace Verif.Fft
open Complex

variable {D : ℕ}

/-- Multi-indices of the grid or of the Fourier mesh. Used in the model of `fft_poisson_solver.hpp:111-117`. -/
abbrev Grid (N : Fin (D + 1) → ℕ) := ∀ i, ZMod (N i)

/-- The Fourier mode `k` at the grid point `x`: `exp (2 pi i sum_d k_d x_d / N_d)`. Used in the model of `fft_poisson_solver.hpp:102`. -/
noncomputable def mode (N : Fin (D + 1) → ℕ) [∀ i, NeZero (N i)] (k x : Grid N) : ℂ := ∏ i, ZMod.stdAddChar (k i * x i)

/-- Signed number of a Fourier index, as in the coordinates of `ddc::PeriodicSampling`: `((k + N / 2) % N) - N / 2` with integer divisions. Used in the model of `fft_poisson_solver.hpp:186-191`. -/
def freq (N : ℕ) (k : ZMod N) : ℤ := (((k.val + N / 2) % N : ℕ) : ℤ) - (N / 2 : ℕ)

/-- `ddc::coordinate` of a Fourier index in dimension `i` (`ddc::init_fourier_space`, called in `fft_poisson_solver.hpp:186-191`): the signed number times `2 pi / (N h)`. -/
noncomputable def wave (N : Fin (D + 1) → ℕ) (h : Fin (D + 1) → ℝ) (i : Fin (D + 1)) (k : ZMod (N i)) : ℝ := freq (N i) k * (2 * Real.pi / (N i * h i))

/-- `get_laplace_operator`, `fft_poisson_solver.hpp:111-117`. -/
noncomputable def laplace (N : Fin (D + 1) → ℕ) (h : Fin (D + 1) → ℝ) (k : Grid N) : ℝ := ∑ i, wave N h i (k i) * wave N h i (k i)

/-- `ddc::fft` with `FFT_Normalization::BACKWARD` (`fft_poisson_solver.hpp:102, 207`): no factor. -/
noncomputable def fft (N : Fin (D + 1) → ℕ) [∀ i, NeZero (N i)] (rho : Grid N → ℝ) (k : Grid N) : ℂ := ∑ x, (rho x : ℂ) * mode N (-k) x

/-- `solve_poisson_equation`, `fft_poisson_solver.hpp:202-225`. -/
noncomputable def solveFourier (N : Fin (D + 1) → ℕ) [∀ i, NeZero (N i)] (h : Fin (D + 1) → ℝ) (rho : Grid N → ℝ) (k : Grid N) : ℂ :=
  let hat := fft N rho
  if k ≠ 0 then hat k / (laplace N h k : ℂ) else 0

/-- `negative_differentiate_equation<Dim>`, `fft_poisson_solver.hpp:236-250`. -/
noncomputable def negDiff (N : Fin (D + 1) → ℕ) (h : Fin (D + 1) → ℝ) (i : Fin (D + 1)) (values : Grid N → ℂ) (k : Grid N) : ℂ :=
  -I * (wave N h i (k i) : ℂ) * values k

/-- The Fourier mesh `ddc::fourier_mesh(idx_range, false)` (`fft_poisson_solver.hpp:282-283, 325-326`): `N / 2 + 1` indices in the last dimension, all in the others. -/
def inHalfMesh (N : Fin (D + 1) → ℕ) (k : Grid N) : Prop := (k (Fin.last D)).val ≤ N (Fin.last D) / 2

/-- Indices whose opposite in the last dimension is themselves: `0` and, for an even number of points, the Nyquist index. Used in the model of `fft_poisson_solver.hpp:137-141`. -/
def selfConj (N : Fin (D + 1) → ℕ) (k : Grid N) : Prop := (k (Fin.last D)).val = 0 ∨ 2 * (k (Fin.last D)).val = N (Fin.last D)

open scoped Classical in
/-- `ddc::ifft` from complex to real with `FFT_Normalization::BACKWARD` (`fft_poisson_solver.hpp:137-141, 294-298, 342-346`): the other half of the mesh is implied to be the complex conjugate; where the
index in the last dimension is its own opposite only the real part counts. -/
noncomputable def ifft (N : Fin (D + 1) → ℕ) [∀ i, NeZero (N i)] (F : Grid N → ℂ) (x : Grid N) : ℝ :=
  (∑ k, if inHalfMesh N k then (if selfConj N k then 1 else 2) * (F k * mode N k x).re else 0) / ∏ i, (N i : ℝ)

/-- The potential: `operator()(phi, rho)`, `fft_poisson_solver.hpp:274-303`, for one batch element. -/
noncomputable def potential (N : Fin (D + 1) → ℕ) [∀ i, NeZero (N i)] (h : Fin (D + 1) → ℝ) (rho : Grid N → ℝ) : Grid N → ℝ :=
  ifft N (solveFourier N h rho)

/-- Component `i` of the electric field: `operator()(phi, E, rho)`, `fft_poisson_solver.hpp:317-350` with `get_gradient` (`:151-184`), for one batch element. -/
noncomputable def electricField (N : Fin (D + 1) → ℕ) [∀ i, NeZero (N i)] (h : Fin (D + 1) → ℝ) (rho : Grid N → ℝ) (i : Fin (D + 1)) : Grid N → ℝ :=
  ifft N (negDiff N h i (solveFourier N h rho))

end Verif.Fft
