import Mathlib.Algebra.Field.Defs
import Mathlib.Data.Fin.VecNotation
import Mathlib.Analysis.SpecialFunctions.Complex.Arg
import Verif.Model.CircularMapping

/-!
# Barycentric, linear, toroidal and cylindrical coordinate transforms (src/coord_transformations)

Exact arithmetic. Points are tuples in the order of the tags of the `Coord` type; matrices are functions of the row and
column numbers (order of the index sets of the tensor type).
-/

namespace Verif.CoordTransforms

/-! ### barycentric_to_cartesian.hpp, cartesian_to_barycentric.hpp -/

/-- The three corners `m_corner1..3` (barycentric_to_cartesian.hpp:45-60, cartesian_to_barycentric.hpp:40-60). -/
structure Triangle (K : Type*) where
  x1 : K
  y1 : K
  x2 : K
  y2 : K
  x3 : K
  y3 : K

variable {K : Type*} [Field K]

/-- `BarycentricToCartesian::operator()`, barycentric_to_cartesian.hpp:97-114. -/
def baryToCart (t : Triangle K) (l : K × K × K) : K × K :=
  (t.x1 * l.1 + t.x2 * l.2.1 + t.x3 * l.2.2, t.y1 * l.1 + t.y2 * l.2.1 + t.y3 * l.2.2)

/-- `div` of cartesian_to_barycentric.hpp:109. -/
def Triangle.div (t : Triangle K) : K := (t.y2 - t.y3) * (t.x1 - t.x3) + (t.x3 - t.x2) * (t.y1 - t.y3)

/-- `CartesianToBarycentric::operator()`, cartesian_to_barycentric.hpp:98-114. -/
def cartToBary (t : Triangle K) (p : K × K) : K × K × K :=
  let lam1 := ((t.y2 - t.y3) * (p.1 - t.x3) + (t.x3 - t.x2) * (p.2 - t.y3)) / t.div
  let lam2 := ((p.2 - t.y3) * (t.x1 - t.x3) + (t.x3 - p.1) * (t.y1 - t.y3)) / t.div
  let lam3 := 1 - lam1 - lam2
  (lam1, lam2, lam3)

/-! ### linear_coord_transform.hpp -/

/-- Members, linear_coord_transform.hpp:28-62. -/
structure Linear (K : Type*) where
  refIn : K
  refOut : K
  scale : K

/-- `operator()`, linear_coord_transform.hpp:79-84. -/
def Linear.apply (m : Linear K) (c : K) : K :=
  let argDist := c - m.refIn
  let resDist := argDist * m.scale
  m.refOut + resDist

/-- `jacobian`, `jacobian_matrix`, `jacobian_component`: linear_coord_transform.hpp:94-132. -/
def Linear.jacobian (m : Linear K) (_c : K) : K := m.scale

/-- `inv_jacobian_matrix`, `inv_jacobian_component`: linear_coord_transform.hpp:146-169. -/
def Linear.invJacobian (m : Linear K) (_c : K) : K := 1 / m.scale

/-- `get_inverse_mapping`, linear_coord_transform.hpp:176-182. -/
def Linear.inverse (m : Linear K) : Linear K := ⟨m.refOut, m.refIn, 1 / m.scale⟩

/-! ### toroidal_to_cylindrical.hpp -/

/-- The operations of the 2-D mapping used by `ToroidalToCylindrical`: the map `(rho, theta) ↦ (R, Z)`, `jacobian`,
`jacobian_matrix` and the result of `InverseJacobianMatrix` (toroidal_to_cylindrical.hpp:63, 86-189). -/
structure Map2D where
  op : ℝ × ℝ → ℝ × ℝ
  jac : ℝ × ℝ → ℝ
  mat : ℝ × ℝ → Fin 2 → Fin 2 → ℝ
  inv : ℝ × ℝ → Fin 2 → Fin 2 → ℝ

/-- A point with three coordinates. Used in the model of `toroidal_to_cylindrical.hpp:88`. -/
abbrev P3 := ℝ × ℝ × ℝ

/-- `CoordArg2D(coord)`: the first two coordinates (toroidal_to_cylindrical.hpp:88). -/
def first2 (p : P3) : ℝ × ℝ := (p.1, p.2.1)

/-- `ToroidalToCylindrical::operator()`, toroidal_to_cylindrical.hpp:86-89: `(rho, theta, phi) ↦ (R, Z, zeta)`. -/
def torToCyl (m : Map2D) (p : P3) : P3 := ((m.op (first2 p)).1, (m.op (first2 p)).2, -p.2.2)

/-- `ToroidalToCylindrical::jacobian`, toroidal_to_cylindrical.hpp:99-102. -/
def torJac (m : Map2D) (p : P3) : ℝ := -m.jac (first2 p)

/-- `ToroidalToCylindrical::jacobian_matrix`, toroidal_to_cylindrical.hpp:115-131; rows `R, Z, Zeta`, columns
`Rho, Theta, Phi`. -/
def torJacMat (m : Map2D) (p : P3) : Fin 3 → Fin 3 → ℝ :=
  let J := m.mat (first2 p)
  ![![J 0 0, J 0 1, 0], ![J 1 0, J 1 1, 0], ![0, 0, -1]]

/-- `ToroidalToCylindrical::jacobian_component`, toroidal_to_cylindrical.hpp:144-159. -/
def torJacComp (m : Map2D) (i j : Fin 3) (p : P3) : ℝ :=
  if i = 2 ∧ j = 2 then -1 else if i = 2 ∨ j = 2 then 0
  else m.mat (first2 p) (if i = 0 then 0 else 1) (if j = 0 then 0 else 1)

/-- `ToroidalToCylindrical::inv_jacobian_matrix`, toroidal_to_cylindrical.hpp:172-189; rows `Rho, Theta, Phi`. -/
def torInvJacMat (m : Map2D) (p : P3) : Fin 3 → Fin 3 → ℝ :=
  let J := m.inv (first2 p)
  ![![J 0 0, J 0 1, 0], ![J 1 0, J 1 1, 0], ![0, 0, -1]]

/-! ### cylindrical_to_cartesian.hpp -/

open Real Verif.Mappings

/-- `CylindricalToCartesian::operator()`, cylindrical_to_cartesian.hpp:150-157: `(R, Z, zeta) ↦ (X, Y, Z)`. -/
noncomputable def cylToCart (p : P3) : P3 := (p.1 * cos p.2.2, p.1 * sin p.2.2, p.2.1)

/-- `CylindricalToCartesian::jacobian`, cylindrical_to_cartesian.hpp:167-171. -/
def cylJac (p : P3) : ℝ := -p.1

/-- `CylindricalToCartesian::jacobian_matrix`, cylindrical_to_cartesian.hpp:184-200; rows `X, Y, Z`, columns `R, Z, Zeta`. -/
noncomputable def cylJacMat (p : P3) : Fin 3 → Fin 3 → ℝ :=
  ![![cos p.2.2, 0, -p.1 * sin p.2.2], ![sin p.2.2, 0, p.1 * cos p.2.2], ![0, 1, 0]]

/-- `CylindricalToCartesian::jacobian_component`, cylindrical_to_cartesian.hpp:210-237. -/
noncomputable def cylJacComp (i j : Fin 3) (p : P3) : ℝ :=
  if i = 0 ∧ j = 0 then cos p.2.2 else if i = 0 ∧ j = 2 then -p.1 * sin p.2.2
  else if i = 1 ∧ j = 0 then sin p.2.2 else if i = 1 ∧ j = 2 then p.1 * cos p.2.2
  else if i = 2 ∧ j = 1 then 1 else 0

/-- `CylindricalToCartesian::inv_jacobian_matrix`, cylindrical_to_cartesian.hpp:251-265; rows `R, Z, Zeta`, columns
`X, Y, Z`; the tensor is initialised to zero. -/
noncomputable def cylInvJacMat (p : P3) : Fin 3 → Fin 3 → ℝ :=
  ![![cos p.2.2, sin p.2.2, 0], ![0, 0, 1], ![-1 / p.1 * sin p.2.2, 1 / p.1 * cos p.2.2, 0]]

/-- `CylindricalToCartesian::inv_jacobian_component`, cylindrical_to_cartesian.hpp:278-307. -/
noncomputable def cylInvJacComp (i j : Fin 3) (p : P3) : ℝ :=
  if i = 0 ∧ j = 0 then cos p.2.2 else if i = 0 ∧ j = 1 then sin p.2.2
  else if i = 1 ∧ j = 2 then 1 else if i = 1 ∨ j = 2 then 0
  else if j = 0 then -1 / p.1 * sin p.2.2 else 1 / p.1 * cos p.2.2

/-! ### cartesian_to_cylindrical.hpp -/

/-- `CartesianToCylindrical::operator()`, cartesian_to_cylindrical.hpp:137-146: `(X, Y, Z) ↦ (R, Z, zeta)`. -/
noncomputable def cartToCyl (p : P3) : P3 :=
  let t := atan2 p.2.1 p.1
  (sqrt (p.1 * p.1 + p.2.1 * p.2.1), p.2.2, t + 2 * π * (if t < 0 then 1 else 0))

/-- `CartesianToCylindrical::jacobian`, cartesian_to_cylindrical.hpp:156-161. -/
noncomputable def cartToCylJac (p : P3) : ℝ := -1 / sqrt (p.1 * p.1 + p.2.1 * p.2.1)

/-- `CartesianToCylindrical::jacobian_matrix`, cartesian_to_cylindrical.hpp:174-192; rows `R, Z, Zeta`, columns `X, Y, Z`. -/
noncomputable def cartToCylJacMat (p : P3) : Fin 3 → Fin 3 → ℝ :=
  let x := p.1
  let y := p.2.1
  let r2 := x * x + y * y
  ![![x / sqrt r2, y / sqrt r2, 0], ![0, 0, 1], ![-y / r2, x / r2, 0]]

/-- The `static_assert`s of `CartesianToCylindrical::jacobian_component`, cartesian_to_cylindrical.hpp:208-211, as conditions on
the tags: lines 208-209 want the row tag in `X, Y` and the column tag in `R_cov, Zeta_cov`; lines 210-211 want the row
tag in `R, Z, Zeta` and the column tag in `X_cov, Y_cov, Z_cov`. Tags are numbered `X = 0, Y = 1, Z = 2, R = 3,
Zeta = 4` and a covariant tag has the number of its dual. `true` means that the call compiles. -/
def cartToCylJacCompCompiles (t1 t2 : ℕ) : Bool :=
  decide (t1 ∈ [0, 1]) && decide (t2 ∈ [3, 4]) && decide (t1 ∈ [3, 2, 4]) && decide (t2 ∈ [0, 1, 2])

end Verif.CoordTransforms
