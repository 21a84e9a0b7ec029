import Verif.Model.CombinedMapping
import Mathlib.Analysis.SpecialFunctions.Trigonometric.Basic

/-!
# Advection field of the guiding-centre equations, O-point of a discrete mapping

`src/geometryRTheta/advection_field/advection_field_rtheta.hpp`, `src/coord_transformations/inv_jacobian_o_point.hpp`, `discrete_poloidal_cs_spline_mapping.hpp`,
`discrete_poloidal_cs_spline_mapping_builder.hpp`.

Coordinates are functions on `Fin 2` (`r`, `theta` or `x`, `y`). `double` is `ℝ`. What a spline evaluator gives for the value or derivatives of a spline is a function of the coordinate.
-/

namespace Verif.GuidingCentre

open Verif.CombinedMapping Verif.VectorMapper

/-- The derivatives of the spline of the potential, as the evaluator gives them, at a coordinate: component 0 along `r`, 1 along `theta`. Used in the model of `advection_field_rtheta.hpp:269-297`. -/
abbrev DPhi := Pt → Fin 2 → ℝ

/-- The directions of the linearisation, advection_field_rtheta.hpp:265-266 and 516-517. -/
noncomputable def th1 : ℝ := Real.pi / 4
/-- The second direction, advection_field_rtheta.hpp:265-266 and 516-517. -/
noncomputable def th2 : ℝ := -Real.pi / 4 + 2 * Real.pi

/-- `deriv_phi_0`, advection_field_rtheta.hpp:269-297 and 520-547. -/
noncomputable def gradCentre (m : Mapping) (dphi : DPhi) : Fin 2 → ℝ :=
  let c1 : Pt := ![0, th1]
  let c2 : Pt := ![0, th2]
  let drx1 := m.jac c1 0 0
  let dry1 := m.jac c1 1 0
  let drx2 := m.jac c2 0 0
  let dry2 := m.jac c2 1 0
  let d1 := dphi c1 0
  let d2 := dphi c2 0
  let det := drx1 * dry2 - drx2 * dry1
  ![(dry2 * d1 - dry1 * d2) / det, (-drx2 * d1 + drx1 * d2) / det]

/-- The electric field, advection_field_rtheta.hpp:244-329. -/
noncomputable def electric (m : Mapping) (eps : ℝ) (dphi : DPhi) (c : Pt) : Fin 2 → ℝ :=
  let r := c 0
  let th := c 1
  if r > eps then fun i => -mulJI (m.invJac c) (dphi c) i
  else
    let E0 := fun i => -gradCentre m dphi i
    let ce : Pt := ![eps, th]
    let Ee := fun i => -mulJI (m.invJac ce) (dphi ce) i
    fun i => E0 i * (1 - r / eps) + Ee i * r / eps

/-- `compute_advection_field_XY` at a point of the grid, advection_field_rtheta.hpp:208-337. -/
noncomputable def advXY (m : Mapping) (eps : ℝ) (dphi : DPhi) (c : Pt) : Fin 2 → ℝ :=
  let E := electric m eps dphi c
  ![E 1, -E 0]

/-- `compute_advection_field_RTheta` at a point of the grid, advection_field_rtheta.hpp:481-512; `jacobian` of the mappings is the determinant of the Jacobian matrix. -/
noncomputable def advRTheta (m : Mapping) (dphi : DPhi) (c : Pt) : Fin 2 → ℝ :=
  let invG := metricInv (m.invJac c)
  let J := m.jac c
  let jacobian := det J
  let E : Fin 2 → ℝ := fun i => -mulIJ invG (dphi c) i
  ![(J 0 0 * J 0 1 + J 1 0 * J 1 1) * E 0 / jacobian + (J 1 1 * J 1 1 + J 0 1 * J 0 1) * E 1 / jacobian,
    -(J 0 0 * J 0 0 + J 1 0 * J 1 0) * E 0 / jacobian - (J 0 0 * J 0 1 + J 1 0 * J 1 1) * E 1 / jacobian]

/-- `advection_field_xy_centre`, advection_field_rtheta.hpp:516-549. -/
noncomputable def advCentre (m : Mapping) (dphi : DPhi) : Fin 2 → ℝ :=
  let g := gradCentre m dphi
  ![-(g 1), g 0]

/-! ### Discrete mapping -/

/-- What the evaluator gives for a spline: value, derivatives along `r` and `theta`, cross derivative. Used in the model of `discrete_poloidal_cs_spline_mapping.hpp:177-183`. -/
structure Spl where
  val : Pt → ℝ
  dr : Pt → ℝ
  dt : Pt → ℝ
  drt : Pt → ℝ

/-- `operator()`, `jacobian_matrix`, discrete_poloidal_cs_spline_mapping.hpp:177-183, 226-251; there is no `inv_jacobian_matrix`. -/
def discreteMapping (sx sy : Spl) : Mapping where
  op c := ![sx.val c, sy.val c]
  jac c := ![![sx.dr c, sx.dt c], ![sy.dr c, sy.dt c]]
  own := none

/-- `first_order_jacobian_matrix_r_rtheta`, discrete_poloidal_cs_spline_mapping.hpp:334-358. -/
def firstOrder (sx sy : Spl) (c : Pt) : M2 := ![![sx.dr c, sx.drt c], ![sy.dr c, sy.drt c]]

/-- `InvJacobianOPoint` for a discrete mapping, inv_jacobian_o_point.hpp:267-304; `points` are the coordinates of `idx_range_singular_point`: the points of the grid with the first radial coordinate (discrete_poloidal_cs_spline_mapping_builder.hpp:111-114). -/
noncomputable def oPointDiscrete (sx sy : Spl) (points : List Pt) : M2 :=
  let J := points.foldl (fun J c =>
    let th := c 1
    let circ : M2 := ![![Real.cos th, Real.sin th], ![-Real.sin th, Real.cos th]]
    let Jth := Verif.MathTools.inv2 (tmul (firstOrder sx sy c) circ)
    fun i j => J i j + Jth i j) fun _ _ => 0
  fun i j => J i j / points.length

/-- `idx_range_singular_point`, discrete_poloidal_cs_spline_mapping_builder.hpp:111-114: the grid is `r × theta`, its points with the first radial coordinate. -/
def singularPoints (rs ts : List ℝ) : List Pt := (rs.take 1).flatMap fun r => ts.map fun t => ![r, t]

end Verif.GuidingCentre
