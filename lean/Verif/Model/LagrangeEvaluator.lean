import Verif.Model.Lagrange

/-!
# Lagrange evaluator and identity interpolation builder

`src/interpolation/lagrange_evaluator.hpp`, `src/interpolation/identity_interpolation_builder.hpp`,
knots of `src/interpolation/lagrange_basis_{non_,}uniform.hpp`.

Break points are numbered `0 .. Nl` (`first_knot = 0`, `last_knot = Nl`); in the periodic case the knot domain has
`D` more knots. `knot k` is `ddc::coordinate` of knot `k`. `double` is `ℝ`. Not modelled: batching (the
evaluation is done independently for each batch index), GPU execution.
-/

namespace Verif.LagrangeEvaluator

open Verif.Lagrange

/-- Knots of the non-uniform basis, `lagrange_basis_non_uniform.hpp:127-158`: `coord i`, `i < npoints`, are the
coordinates of the grid; the periodic basis gets `D` more knots (lines 136-140). -/
def knotsNU (npoints : ℕ) (coord : ℕ → ℝ) (k : ℕ) : ℝ :=
  if k < npoints then coord k
  else coord (npoints - 1) + (coord (k - npoints + 1) - coord 0)

/-- `getclosest`, uniform branch, `lagrange_evaluator.hpp:589-598`: for an even degree `Kokkos::round` (of a
non-negative number: floor of `v + 1/2`), for an odd degree the conversion to `int`. -/
noncomputable def getclosestU (D : ℕ) (x0 dx x : ℝ) : ℕ :=
  if D % 2 = 0 then ⌊(x - x0) / dx + 1 / 2⌋₊ else ⌊(x - x0) / dx⌋₊

/-- The `while` loop of `getclosest`, `lagrange_evaluator.hpp:603-613`. With `last ≤ first + 1` an iteration changes
neither the cell nor the condition: the C++ loop does not end, the model returns `none`. -/
noncomputable def searchCell (knot : ℕ → ℝ) (x : ℝ) (first last : ℕ) : Option ℕ :=
  let e := first + (last - first) / 2
  if x < knot e ∨ x > knot (e + 1) then
    if h : last ≤ first + 1 then none
    else if x < knot e then searchCell knot x first e
    else searchCell knot x e last
  else some e
termination_by last - first
decreasing_by all_goals omega

/-- `getclosest`, non-uniform branch, `lagrange_evaluator.hpp:600-619`. -/
noncomputable def getclosestNU (D Nl : ℕ) (knot : ℕ → ℝ) (x : ℝ) : Option ℕ :=
  (searchCell knot x 0 Nl).map fun e =>
    let cellLen := knot (e + 1) - knot e
    e + ((D + 1) % 2) * (if x - knot e > cellLen / 2 then 1 else 0)

/-- `find_stencil`, `lagrange_evaluator.hpp:488-523`; `c` is the result of `getclosest`. Returns the first knot of
the stencil and the (possibly shifted) coordinate. -/
noncomputable def findStencil (periodic : Bool) (D Nl : ℕ) (len : ℝ) (knot : ℕ → ℝ) (c : ℕ) (x : ℝ) : ℤ × ℝ :=
  let step : ℤ := -((D / 2 : ℕ) : ℤ) - ((D % 2 : ℕ) : ℤ) * (if knot c > x then 1 else 0)
  if periodic then
    let s : ℤ := c + (Nl : ℤ) * (if (0 - (c : ℤ)) > step then 1 else 0) + step
    (s, if s > c then x + len else x)
  else if (0 - (c : ℤ)) > step then (0, x)
  else
    let s : ℤ := c + step
    (if s > (Nl : ℤ) - D then (Nl : ℤ) - D else s, x)

/-- `eval_no_bc` without derivatives, `lagrange_evaluator.hpp:544-577`; `basis s x' i` is entry `i` of
`eval_basis(vals, x', s)`, `coef` the coefficients on the knots, `closest` the result of `getclosest`. -/
noncomputable def evalNoBc (periodic : Bool) (D Nl : ℕ) (len : ℝ) (knot : ℕ → ℝ) (closest : ℝ → Option ℕ)
    (basis : ℤ → ℝ → ℕ → ℝ) (coef : ℕ → ℝ) (x : ℝ) : Option ℝ :=
  (closest x).map fun c =>
    let sx := findStencil periodic D Nl len knot c x
    (List.range (D + 1)).foldl (fun y (i : ℕ) => y + coef (sx.1 + (i : ℤ)).toNat * basis sx.1 sx.2 i) 0

/-- `eval`, `lagrange_evaluator.hpp:452-477`. The extrapolation rules are functions of the coordinate. -/
noncomputable def eval (periodic : Bool) (D Nl : ℕ) (knot : ℕ → ℝ) (closest : ℝ → Option ℕ)
    (basis : ℤ → ℝ → ℕ → ℝ) (lower upper : ℝ → ℝ) (coef : ℕ → ℝ) (x : ℝ) : Option ℝ :=
  let rmin := knot 0
  let rmax := knot Nl
  let len := rmax - rmin
  if periodic then
    let x := if x < rmin ∨ x > rmax then x - (⌊(x - rmin) / len⌋ : ℝ) * len else x
    evalNoBc periodic D Nl len knot closest basis coef x
  else if x < rmin then some (lower x)
  else if x > rmax then some (upper x)
  else evalNoBc periodic D Nl len knot closest basis coef x

/-- Evaluator on a uniform Lagrange basis: `lagrange_evaluator.hpp:452-621` with `lagrange_basis_uniform.hpp:223-246`. -/
noncomputable def evalU (periodic : Bool) (eps : ℝ) (D Nl : ℕ) (x0 dx : ℝ) (lower upper : ℝ → ℝ) (coef : ℕ → ℝ)
    (x : ℝ) : Option ℝ :=
  eval periodic D Nl (uniformNodes x0 dx) (fun y => some (getclosestU D x0 dx y))
    (fun s y j => evalBasisUniform periodic (Nl * dx) eps D (uniformNodes x0 dx s.toNat) dx y j)
    lower upper coef x

/-- Evaluator on a non-uniform Lagrange basis: `lagrange_evaluator.hpp:452-621` with
`lagrange_basis_non_uniform.hpp:229-247`. -/
noncomputable def evalNU (periodic : Bool) (eps : ℝ) (D Nl : ℕ) (knot : ℕ → ℝ) (lower upper : ℝ → ℝ) (coef : ℕ → ℝ)
    (x : ℝ) : Option ℝ :=
  eval periodic D Nl knot (getclosestNU D Nl knot)
    (fun s y j => evalBasisNU eps D (fun i => knot (s.toNat + i)) y j)
    lower upper coef x

/-- `IdentityInterpolationBuilder::operator()`, `identity_interpolation_builder.hpp:88-121`: the coefficient of knot
`k` for values `vals` on the interpolation points. Periodic: the first `Nl` knots get the `Nl` values, the `D + 1` last
knots get the first `D + 1` values; `none` is an access outside the index range of `vals` (or of the coefficients). -/
def buildCoeffs {V : Type*} (periodic : Bool) (D Nl : ℕ) (vals : ℕ → V) (k : ℕ) : Option V :=
  if periodic then
    if k < Nl then some (vals k)
    else if k < Nl + (D + 1) then (if k - Nl < Nl then some (vals (k - Nl)) else none)
    else none
  else if k < Nl + 1 then some (vals k) else none

end Verif.LagrangeEvaluator
