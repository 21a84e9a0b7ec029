import Mathlib.Analysis.SpecialFunctions.Sqrt
import Verif.Model.VectorMapper
import Verif.Model.Tensor

/-!
# Gradient, curl and Lie–Poisson bracket in curvilinear coordinates

`src/math_tools/gradient.hpp`, `curl.hpp`, `lie_poisson_bracket.hpp`, and `norm` of `math_tools.hpp`, at one point: `J` is the Jacobian matrix of the
mapping (rows: Cartesian directions, columns: logical directions), `invJ` its inverse as returned by `InverseJacobianMatrix`, `jac` the value of
`mapping.jacobian(coord)`. `tensor_mul` is written as the sum over the repeated indices (property C36). Real arithmetic.
-/

namespace Verif.DiffOps

open Verif.VectorMapper

/-- The tags of the three logical directions. `cart` says whether they are Cartesian tags, whose `IS_COVARIANT` and `IS_CONTRAVARIANT` are both true;
otherwise they are contravariant only (src/utils/geometry_descriptors.hpp, src/data_types/vector_index_tools.hpp:78-94). -/
def tags (cart : Bool) : Verif.Tensor.Variance (Fin 3) := ⟨id, fun _ => true, fun _ => cart⟩

/-- `LeviCivitaTensor<double, BasisSpatial> eps(J)` and its elements: src/data_types/static_tensors.hpp:227-250, as built in curl.hpp:60-61 and
lie_poisson_bracket.hpp:76-77. -/
noncomputable def eps (cart : Bool) (jac : ℝ) (i j k : Fin 3) : ℝ :=
  (Verif.Tensor.leviCivita (tags cart) [0, 1, 2] jac [i, j, k]).getD 0

/-- `norm(metric, vec)`, math_tools.hpp:58-64. -/
noncomputable def norm {n : Type*} [Fintype n] (g : n → n → ℝ) (v : n → ℝ) : ℝ := Real.sqrt (∑ i, ∑ j, v i * g i j * v j)

/-- Covariant gradient, gradient.hpp:61-64 (and 79-85 for a field: the copy, element by element). -/
def gradCov {n : Type*} (partials : n → ℝ) : n → ℝ := partials

/-- Contravariant gradient, gradient.hpp:99-105. -/
def gradContra {n : Type*} [Fintype n] (invJ : n → n → ℝ) (partials : n → ℝ) : n → ℝ := mulIJ (metricInv invJ) partials

/-- Contravariant gradient of a field, gradient.hpp:117-134: at each index, with the inverse Jacobian at the coordinate of that index. -/
def gradContraField {ι n : Type*} [Fintype n] (invJ : ι → n → n → ℝ) (partials : ι → n → ℝ) (idx : ι) : n → ℝ :=
  gradContra (invJ idx) (partials idx)

/-- `Curl::operator()`, curl.hpp:52-65. `dF m l` is the derivative of the covariant component `m` along the direction `l`. -/
noncomputable def curl (cart : Bool) (jac : ℝ) (dF : Fin 3 → Fin 3 → ℝ) (k : Fin 3) : ℝ := ∑ l, ∑ m, eps cart jac k l m * dF m l

/-- `LiePoissonBracket::operator()` for scalars, lie_poisson_bracket.hpp:101-117. -/
noncomputable def bracket (cart : Bool) (jac : ℝ) (J : Fin 3 → Fin 3 → ℝ) (df dg B : Fin 3 → ℝ) : ℝ :=
  ∑ i, ∑ j, ∑ k, ∑ l, eps cart jac i j k * metric J i l * (B l / norm (metric J) B) * df j * dg k

/-- `LiePoissonBracket::operator()` with a vector as second argument, lie_poisson_bracket.hpp:66-86. `dg m k`: derivative of the component `m` along `k`. -/
noncomputable def bracketVec {n : Type*} (cart : Bool) (jac : ℝ) (J : Fin 3 → Fin 3 → ℝ) (df : Fin 3 → ℝ) (dg : n → Fin 3 → ℝ) (B : Fin 3 → ℝ)
    (m : n) : ℝ :=
  ∑ i, ∑ j, ∑ k, ∑ l, eps cart jac i j k * metric J i l * (B l / norm (metric J) B) * df j * dg m k

/-- `LiePoissonBracket::operator()` on fields, lie_poisson_bracket.hpp:132-155. -/
noncomputable def bracketField {ι : Type*} (cart : Bool) (jac : ι → ℝ) (J : ι → Fin 3 → Fin 3 → ℝ) (df dg B : ι → Fin 3 → ℝ) (idx : ι) : ℝ :=
  bracket cart (jac idx) (J idx) (df idx) (dg idx) (B idx)

end Verif.DiffOps
