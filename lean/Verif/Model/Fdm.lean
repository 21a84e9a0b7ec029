import Mathlib.Algebra.Field.Defs

/-!
# Finite-difference partial derivatives
(src/math_tools/central_fdm_partial_derivatives.hpp, central_fdm_partial_derivatives_with_boundary_values.hpp)

One line of the batch: the grid has `n` points `x 0 … x (n-1)` and the field values `f`. Batched evaluation is pointwise.
-/

namespace Verif.Fdm

variable {α : Type*} [Field α]

/-- `fdm_centred`, central_fdm_partial_derivatives.hpp:178-191. -/
def centred (f1 f2 f3 h1 h2 : α) : α :=
  let c3 := h1 / (h2 * (h1 + h2))
  let c2 := 1 / h1 - 1 / h2
  let c1 := -c3 - c2
  c1 * f1 + c2 * f2 + c3 * f3

/-- Front derivative, central_fdm_partial_derivatives.hpp:82-100. -/
def front (x f : ℕ → α) : α :=
  let h1 := x 1 - x 0
  let h2 := x 2 - x 1
  let c3 := -h1 / (h2 * (h1 + h2))
  let c2 := 1 / h1 + 1 / h2
  let c1 := -c3 - c2
  c1 * f 0 + c2 * f 1 + c3 * f 2

/-- Back derivative, central_fdm_partial_derivatives.hpp:103-121. -/
def back (n : ℕ) (x f : ℕ → α) : α :=
  let h1 := x (n - 1) - x (n - 2)
  let h2 := x (n - 2) - x (n - 3)
  let c3 := h1 / (h2 * (h1 + h2))
  let c2 := -(h1 + h2) / (h1 * h2)
  let c1 := -c3 - c2
  c1 * f (n - 1) + c2 * f (n - 2) + c3 * f (n - 3)

/-- Interior derivative, central_fdm_partial_derivatives.hpp:166-173. -/
def interior (x f : ℕ → α) (i : ℕ) : α :=
  centred (f (i - 1)) (f i) (f (i + 1)) (x i - x (i - 1)) (x (i + 1) - x i)

/-- `CentralFDMPartialDerivative::operator()` for a non-periodic dimension, central_fdm_partial_derivatives.hpp:70-175
(`remove(step, step)` keeps the points `1 … n-2`). -/
def deriv (n : ℕ) (x f : ℕ → α) (i : ℕ) : α :=
  if i = 0 then front x f else if i = n - 1 then back n x f else interior x f i

/-- `CentralFDMPartialDerivative::operator()` for a periodic dimension of length `len`,
central_fdm_partial_derivatives.hpp:122-174. The back value is written before the front one (relevant for `n = 1` only). -/
def derivPeriodic (n : ℕ) (len : α) (x f : ℕ → α) (i : ℕ) : α :=
  let h1 := x (n - 1) - x (n - 2)
  let h2 := x 0 - x (n - 1) + len
  let h3 := x 1 - x 0
  if i = 0 then centred (f (n - 1)) (f 0) (f 1) h2 h3
  else if i = n - 1 then centred (f (n - 2)) (f (n - 1)) (f 0) h1 h2
  else interior x f i

/-- `CentralFDMPartialDerivativeWithBValue::operator()`,
central_fdm_partial_derivatives_with_boundary_values.hpp:77-160, with boundary values `bl`, `br`. -/
def derivB (n : ℕ) (x f : ℕ → α) (bl br : α) (i : ℕ) : α :=
  if i = 0 then
    let h1 := x 1 - x 0
    let h2 := x 2 - x 1
    let c3 := -h1 / (h2 * (h1 + h2))
    let c2 := 1 / h1 + 1 / h2
    ((-c2 * bl - c3 * bl) + (c2 * f 1 + c3 * f 2)) / 2
  else if i = n - 1 then
    let h1 := x (n - 1) - x (n - 2)
    let h2 := x (n - 2) - x (n - 3)
    let c3 := h1 / (h2 * (h1 + h2))
    let c2 := -(h1 + h2) / (h1 * h2)
    ((c2 * f (n - 2) + c3 * f (n - 3)) + (-c2 * br - c3 * br)) / 2
  else interior x f i

end Verif.Fdm
