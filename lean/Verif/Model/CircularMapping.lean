import Mathlib.Analysis.SpecialFunctions.Complex.Arg
import Mathlib.Data.Fin.VecNotation

/-!
# Circular and Czarny mappings (src/coord_transformations)

circular_to_cartesian.hpp, cartesian_to_circular.hpp, czarny_to_cartesian.hpp, cartesian_to_czarny.hpp. Real arithmetic;
`atan2(y, x)` is `Complex.arg (x + i y)` (values in `(-π, π]`; signed zeros are not modelled).
Matrices are `Fin 2 → Fin 2 → ℝ`, rows = first index set of the C++ tensor.
-/

namespace Verif.Mappings

open Real

/-- `Kokkos::atan2`. Used in the model of `cartesian_to_circular.hpp:127-136`. -/
noncomputable def atan2 (y x : ℝ) : ℝ := Complex.arg ⟨x, y⟩

/-- `CircularToCartesian::operator()`, circular_to_cartesian.hpp:143-150; `o` is `m_o_point`. -/
noncomputable def circToCart (o : ℝ × ℝ) (p : ℝ × ℝ) : ℝ × ℝ :=
  (p.1 * cos p.2 + o.1, p.1 * sin p.2 + o.2)

/-- `CircularToCartesian::jacobian`, circular_to_cartesian.hpp:160-164 (and 175-178 from `r` alone). -/
def circJac (p : ℝ × ℝ) : ℝ := p.1

/-- `CircularToCartesian::jacobian_matrix`, circular_to_cartesian.hpp:191-202. -/
noncomputable def circJacMat (p : ℝ × ℝ) : Fin 2 → Fin 2 → ℝ :=
  ![![cos p.2, -p.1 * sin p.2], ![sin p.2, p.1 * cos p.2]]

/-- `CircularToCartesian::jacobian_component`, circular_to_cartesian.hpp:212-235; the tags are numbered `0, 1` in the
order of the index sets. -/
noncomputable def circJacComp (i j : Fin 2) (p : ℝ × ℝ) : ℝ :=
  if i = 0 ∧ j = 0 then cos p.2 else if i = 0 ∧ j = 1 then -p.1 * sin p.2
  else if i = 1 ∧ j = 0 then sin p.2 else p.1 * cos p.2

/-- `CircularToCartesian::inv_jacobian_matrix`, circular_to_cartesian.hpp:249-262. -/
noncomputable def circInvJacMat (p : ℝ × ℝ) : Fin 2 → Fin 2 → ℝ :=
  ![![cos p.2, sin p.2], ![-1 / p.1 * sin p.2, 1 / p.1 * cos p.2]]

/-- `CircularToCartesian::inv_jacobian_component`, circular_to_cartesian.hpp:275-300. -/
noncomputable def circInvJacComp (i j : Fin 2) (p : ℝ × ℝ) : ℝ :=
  if i = 0 ∧ j = 0 then cos p.2 else if i = 0 ∧ j = 1 then sin p.2
  else if j = 0 then -1 / p.1 * sin p.2 else 1 / p.1 * cos p.2

/-- `CartesianToCircular::operator()`, cartesian_to_circular.hpp:127-136. -/
noncomputable def cartToCirc (o : ℝ × ℝ) (p : ℝ × ℝ) : ℝ × ℝ :=
  let x := p.1 - o.1
  let y := p.2 - o.2
  let r := sqrt (x * x + y * y)
  let t := atan2 y x
  (r, t * (if t ≥ 0 then 1 else 0) + (t + 2 * π) * (if t < 0 then 1 else 0))

/-- `CartesianToCircular::jacobian`, cartesian_to_circular.hpp:146-151. -/
noncomputable def cartToCircJac (o p : ℝ × ℝ) : ℝ :=
  let x := p.1 - o.1
  let y := p.2 - o.2
  1 / sqrt (x * x + y * y)

/-- `CartesianToCircular::jacobian_matrix`, cartesian_to_circular.hpp:164-178. -/
noncomputable def cartToCircJacMat (o p : ℝ × ℝ) : Fin 2 → Fin 2 → ℝ :=
  let x := p.1 - o.1
  let y := p.2 - o.2
  let r2 := x * x + y * y
  let r := sqrt r2
  ![![x / r, y / r], ![-y / r2, x / r2]]

/-- Parameters of the Czarny mapping, czarny_to_cartesian.hpp:82-105: inverse aspect ratio, ellipticity and origin. -/
structure Czarny where
  eps : ℝ
  e : ℝ
  o : ℝ × ℝ

namespace Czarny

variable (c : Czarny)

/-- `tmp1`/`sqrt_eps`: the square root occurring in czarny_to_cartesian.hpp:199-200, 223-225, 250, 337-339. -/
noncomputable def root (p : ℝ × ℝ) : ℝ := sqrt (c.eps * (c.eps + 2 * p.1 * cos p.2) + 1)

/-- `xi`, czarny_to_cartesian.hpp:222, 248-249, 336. -/
noncomputable def xi : ℝ := sqrt (1 / (1 - c.eps * c.eps * 0.25))

/-- `CzarnyToCartesian::o_point`, czarny_to_cartesian.hpp:179-186. -/
noncomputable def oPoint : ℝ × ℝ := ((1 - sqrt (c.eps * c.eps + 1)) / c.eps + c.o.1, c.o.2)

/-- `CzarnyToCartesian::operator()`, czarny_to_cartesian.hpp:195-208. -/
noncomputable def toCart (p : ℝ × ℝ) : ℝ × ℝ :=
  ((1 - c.root p) / c.eps + c.o.1,
   c.e * p.1 * sin p.2 / (sqrt (1 - 0.25 * c.eps * c.eps) * (2 - c.root p)) + c.o.2)

/-- `CzarnyToCartesian::jacobian`, czarny_to_cartesian.hpp:218-226. -/
noncomputable def jac (p : ℝ × ℝ) : ℝ :=
  -p.1 / sqrt (1 + c.eps * (c.eps + 2 * p.1 * cos p.2)) * c.e * c.xi
    / (2 - sqrt (1 + c.eps * (c.eps + 2 * p.1 * cos p.2)))

/-- `CzarnyToCartesian::jacobian_matrix`, czarny_to_cartesian.hpp:240-265 (`jacobian_component`, 277-312, has the same
expressions). -/
noncomputable def jacMat (p : ℝ × ℝ) : Fin 2 → Fin 2 → ℝ :=
  let r := p.1
  let s := sin p.2
  let k := cos p.2
  let se := c.root p
  let se2 := 2 - se
  ![![-k / se, r * s / se],
    ![c.e * c.eps * r * s * k * c.xi / (se2 * se2 * se) + c.e * s * c.xi / se2,
      r * (-c.e * c.eps * r * s * s * c.xi / (se2 * se2 * se) + c.e * k * c.xi / se2)]]

/-- `CzarnyToCartesian::inv_jacobian_matrix`, czarny_to_cartesian.hpp:326-351 (`inv_jacobian_component`, 363-409, has the same
expressions). -/
noncomputable def invJacMat (p : ℝ × ℝ) : Fin 2 → Fin 2 → ℝ :=
  let r := p.1
  let s := sin p.2
  let k := cos p.2
  let divisor := 2 - sqrt (1 + c.eps * (c.eps + 2 * r * k))
  let fact1 := 1 / sqrt (1 + c.eps * (c.eps + 2 * r * k))
  let fact2 := c.e * c.eps * c.xi * r * s * fact1 / divisor / divisor
  let fact3 := c.e * c.xi / divisor
  ![![-1 / fact1 * (-s * fact2 + k * fact3) / fact3, s / fact3],
    ![1 / r / fact1 * (k * fact2 + s * fact3) / fact3, 1 / r * k / fact3]]

/-- `CartesianToCzarny::operator()`, cartesian_to_czarny.hpp:142-156. -/
noncomputable def ofCart (p : ℝ × ℝ) : ℝ × ℝ :=
  let x := p.1 - c.o.1
  let y := p.2 - c.o.2
  let ex := 1 + c.eps * x
  let ex2 := c.eps * x * x - 2 * x - c.eps
  let xi2 := 1 / (1 - c.eps * c.eps * 0.25)
  let xi := sqrt xi2
  let r := sqrt (y * y * ex * ex / (c.e * c.e * xi2) + ex2 * ex2 * 0.25)
  let t := atan2 (2 * y * ex) (c.e * xi * ex2)
  (r, if t < 0 then 2 * π + t else t)

/-- `InvJacobianOPoint` for the Czarny mapping combined with a circular pseudo-Cartesian one,
inv_jacobian_o_point.hpp:155-169. -/
noncomputable def invJacOPoint : Fin 2 → Fin 2 → ℝ :=
  let s := sqrt (1 + c.eps * c.eps)
  ![![-s, 0], ![0, (2 - s) / c.e / c.xi]]

end Czarny

end Verif.Mappings
