import Mathlib.Data.Matrix.Mul
import Mathlib.Data.Real.Basic
import Verif.Model.MathTools
import Verif.Model.CircularMapping
import Verif.Model.VectorMapper

/-!
# `CombinedMapping` (src/coord_transformations/combined_mapping.hpp) and `InvJacobianOPoint` (inv_jacobian_o_point.hpp)

Two-dimensional coordinates are functions on `Fin 2`. `tensor_mul` over the repeated index `j` is the sum over `j`.
-/

namespace Verif.CombinedMapping

/-- A coordinate in two dimensions. Used in the model of `combined_mapping.hpp:97-138`. -/
abbrev Pt := Fin 2 → ℝ

/-- A rank two tensor. Used in the model of `combined_mapping.hpp:97-138`. -/
abbrev M2 := Fin 2 → Fin 2 → ℝ

/-- What `CombinedMapping` uses of a mapping: `operator()`, `jacobian_matrix` and, if it has one, `inv_jacobian_matrix`
(combined_mapping.hpp:97-138, 261-283; `has_inv_jacobian_v` in inverse_jacobian_matrix.hpp:51). -/
structure Mapping where
  op : Pt → Pt
  jac : Pt → M2
  own : Option (Pt → M2)

/-- `InverseJacobianMatrix(mapping)(coord)`, inverse_jacobian_matrix.hpp:49-60. -/
noncomputable def Mapping.invJac (m : Mapping) (c : Pt) : M2 :=
  Verif.VectorMapper.inverseJacobian2 (m.own.map fun f => f c) (m.jac c)

/-- `tensor_mul(index<'i','j'>(A), index<'j','k'>(B))`. Used in the model of `combined_mapping.hpp:132-137`. -/
def tmul (A B : M2) (i k : Fin 2) : ℝ := ∑ j, A i j * B j k

/-- `CombinedMapping::operator()`, combined_mapping.hpp:97-100. -/
def op (m1 m2 : Mapping) (c : Pt) : Pt := m1.op (m2.op c)

/-- `CombinedMapping::jacobian_matrix` when `CoordJacobian` is the argument of the second mapping, combined_mapping.hpp:132-137. -/
def jacArg (m1 m2 : Mapping) (c : Pt) : M2 := tmul (m1.jac (m2.op c)) (m2.jac c)

/-- `CombinedMapping::jacobian_matrix` when `CoordJacobian` is the intermediate coordinate, combined_mapping.hpp:121-131; `i2` is
`m_mapping_2.get_inverse_mapping()`. -/
noncomputable def jacMid (m1 i2 : Mapping) (c : Pt) : M2 := tmul (m1.jac c) (i2.invJac c)

/-- `CombinedMapping::jacobian`, combined_mapping.hpp:159-162. -/
noncomputable def det (J : M2) : ℝ := Verif.MathTools.det2 J

/-- `non_singular_inverse_jacobian_matrix`, intermediate coordinate, combined_mapping.hpp:267-274. -/
noncomputable def nonSingularMid (m1 i2 : Mapping) (c : Pt) : M2 := tmul (i2.jac c) (m1.invJac c)

/-- `non_singular_inverse_jacobian_matrix`, argument coordinate, combined_mapping.hpp:275-282. -/
noncomputable def nonSingularArg (m1 m2 : Mapping) (c : Pt) : M2 := tmul (m2.invJac c) (m1.invJac (m2.op c))

/-- `CombinedMapping::inv_jacobian_matrix` for a mapping with a singular O-point, combined_mapping.hpp:179-201; `nonSing` is
`non_singular_inverse_jacobian_matrix`, `J0` the result of `InvJacobianOPoint` and `eps` is `m_epsilon`. -/
noncomputable def invJacSingular (nonSing : Pt → M2) (J0 : M2) (eps : ℝ) (c : Pt) : M2 :=
  let r := c 0
  if r < eps then
    let coordEps : Pt := ![eps, c 1]
    let Jeps := nonSing coordEps
    fun i j => (1 - r / eps) * J0 i j + r / eps * Jeps i j
  else nonSing c

open Verif.Mappings

/-- `InvJacobianOPoint` for the combination of two circular mappings, inv_jacobian_o_point.hpp:90-99. -/
def oPointCircular : M2 := ![![1, 0], ![0, 1]]

/-- The circular mapping (circular_to_cartesian.hpp) as a `Mapping`. See circular_to_cartesian.hpp:143-261. -/
noncomputable def circularMapping (o : ℝ × ℝ) : Mapping where
  op c := ![(circToCart o (c 0, c 1)).1, (circToCart o (c 0, c 1)).2]
  jac c := circJacMat (c 0, c 1)
  own := some fun c => circInvJacMat (c 0, c 1)

/-- The inverse circular mapping (cartesian_to_circular.hpp) as a `Mapping`; it has no inverse Jacobian of its own. See cartesian_to_circular.hpp:127-177. -/
noncomputable def cartToCircMapping (o : ℝ × ℝ) : Mapping where
  op c := ![(cartToCirc o (c 0, c 1)).1, (cartToCirc o (c 0, c 1)).2]
  jac c := cartToCircJacMat o (c 0, c 1)
  own := none

/-- The Czarny mapping (czarny_to_cartesian.hpp) as a `Mapping`. See czarny_to_cartesian.hpp:179-350. -/
noncomputable def czarnyMapping (z : Czarny) : Mapping where
  op c := ![(z.toCart (c 0, c 1)).1, (z.toCart (c 0, c 1)).2]
  jac c := z.jacMat (c 0, c 1)
  own := some fun c => z.invJacMat (c 0, c 1)

end Verif.CombinedMapping
