import Mathlib.Data.Matrix.Mul
import Mathlib.Data.Real.Basic
import Verif.Model.MathTools

/-!
# Metric tensors, inverse Jacobians and change of vector basis

`src/coord_transformations/inverse_jacobian_matrix.hpp`, `metric_tensor_evaluator.hpp`, `vector_mapper.hpp`. All at one point:
`J` is `mapping.jacobian_matrix(coord)` (rows: result dimensions, columns: argument dimensions) and `invJ` the result of
`InverseJacobianMatrix` there. `tensor_mul` with a repeated index is written as the sum over that index.
-/

namespace Verif.VectorMapper

variable {n : Type*} [Fintype n]

/-- `tensor_mul(index<'i','j'>(A), index<'j'>(v))` (used in vector_mapper.hpp:45, 48, 68-70, 87). -/
def mulIJ (A : n → n → ℝ) (v : n → ℝ) (i : n) : ℝ := ∑ j, A i j * v j

/-- `tensor_mul(index<'j','i'>(A), index<'j'>(v))` (used in vector_mapper.hpp:75, 92-94). -/
def mulJI (A : n → n → ℝ) (v : n → ℝ) (i : n) : ℝ := ∑ j, A j i * v j

/-- `MetricTensorEvaluator::operator()`, metric_tensor_evaluator.hpp:71-75. -/
def metric (J : n → n → ℝ) (i k : n) : ℝ := ∑ j, J j i * J j k

/-- `MetricTensorEvaluator::inverse`, metric_tensor_evaluator.hpp:85-90. -/
def metricInv (invJ : n → n → ℝ) (i k : n) : ℝ := ∑ j, invJ i j * invJ k j

/-- The vector spaces between which `to_vector_space` converts when the result basis of the mapping is Cartesian (its own dual):
contravariant and covariant components on the argument basis, and Cartesian components. Used in the model of `vector_mapper.hpp:32-98`. -/
inductive Space
  | argContra
  | argCov
  | cart
deriving DecidableEq, Repr

/-- `to_vector_space<Out>(mapping, coord, v)` with `v` in `In`: vector_mapper.hpp:32-98. The branch of lines 51-56 (different
variance) is never taken with a Cartesian result basis, since `has_same_variance_v` (vector_index_tools.hpp:189-194) holds
between a Cartesian set and any other; it calls the two conversions one after the other. The branch condition of lines 65
and 80 asks both sets to be contravariant (a Cartesian set is both). -/
def toVectorSpace (J invJ : n → n → ℝ) (out inn : Space) (v : n → ℝ) : n → ℝ :=
  match out, inn with
  | .argContra, .argContra => v
  | .argCov, .argCov => v
  | .cart, .cart => v
  | .argCov, .argContra => mulIJ (metric J) v
  | .argContra, .argCov => mulIJ (metricInv invJ) v
  | .cart, .argContra => mulIJ J v
  | .cart, .argCov => mulJI invJ v
  | .argContra, .cart => mulIJ invJ v
  | .argCov, .cart => mulJI J v

/-- `copy_to_vector_space`, vector_mapper.hpp:123-155: the conversion at every index of the range, with the Jacobian at the
coordinate of that index. (Each iteration writes its own element.) -/
def copyToVectorSpace {ι : Type*} (J invJ : ι → n → n → ℝ) (out inn : Space) (field : ι → n → ℝ) (idx : ι) : n → ℝ :=
  toVectorSpace (J idx) (invJ idx) out inn (field idx)

/-- `InverseJacobianMatrix::operator()`, inverse_jacobian_matrix.hpp:49-60, for two dimensions: the mapping's own inverse if it has one,
the inverse of its Jacobian matrix otherwise. -/
noncomputable def inverseJacobian2 (own : Option (Fin 2 → Fin 2 → ℝ)) (J : Fin 2 → Fin 2 → ℝ) : Fin 2 → Fin 2 → ℝ :=
  match own with
  | some m => m
  | none => Verif.MathTools.inv2 J

/-- `InverseJacobianMatrix::inv_jacobian_component`, inverse_jacobian_matrix.hpp:73-117, for a mapping without its own inverse: `jac` is
`mapping.jacobian(coord)`. -/
noncomputable def invJacobianComponent2 (jac : ℝ) (J : Fin 2 → Fin 2 → ℝ) (i j : Fin 2) : ℝ :=
  if i = 0 ∧ j = 0 then J 1 1 / jac
  else if i = 0 ∧ j = 1 then -J 0 1 / jac
  else if i = 1 ∧ j = 0 then -J 1 0 / jac
  else J 0 0 / jac

end Verif.VectorMapper
