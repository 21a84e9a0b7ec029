import Mathlib.Algebra.Order.Archimedean.Real.Basic
import Mathlib.Algebra.BigOperators.Group.Finset.Basic

/-! Model of `src/quadrature/{trapezoid_quadrature,simpson_quadrature}.hpp` and of the sum computed by
`src/quadrature/quadrature.hpp`.

`x i` is the coordinate of the point of index `front + i`. `distance_at_right(i) = x (i+1) - x i` and
`distance_at_left(i) = x i - x (i-1)` (DDC). For a periodic grid with `n` points the discrete space has one more point
`x n = x 0 + period`. Coefficient arrays are functions of the index; the memory is uninitialised before being filled. -/

namespace Verif.Quadrature

/-- One write `a(i) = v`. Used in the model of `trapezoid_quadrature.hpp:24-66`. -/
def write (a : ℕ → ℝ) (i : ℕ) (v : ℝ) : ℕ → ℝ := fun j => if j = i then v else a j

/-- `distance_at_right` (DDC). Used in the model of `trapezoid_quadrature.hpp:32-44`. -/
def dR (x : ℕ → ℝ) (i : ℕ) : ℝ := x (i + 1) - x i

/-- `distance_at_left` (DDC). Used in the model of `trapezoid_quadrature.hpp:32-44`. -/
def dL (x : ℕ → ℝ) (i : ℕ) : ℝ := x i - x (i - 1)

/-- First loop of `trapezoid_quadrature_coefficients_1d` (trapezoid_quadrature.hpp:32-44): indices `1 ≤ i < hi`. The
iterations write different locations, so the parallel loop is a map. -/
noncomputable def trapMiddle (x : ℕ → ℝ) (hi : ℕ) (mem : ℕ → ℝ) : ℕ → ℝ := fun i =>
  if 1 ≤ i ∧ i < hi then 0.5 * (dL x i + dR x i) else mem i

/-- `trapezoid_quadrature_coefficients_1d` (trapezoid_quadrature.hpp:24-66) on `n` points; `mem` is the initial content of the
allocation. -/
noncomputable def trapezoid (periodic : Bool) (x : ℕ → ℝ) (n : ℕ) (mem : ℕ → ℝ) : ℕ → ℝ :=
  if periodic then
    write (trapMiddle x n mem) 0 (0.5 * (dR x (n - 1) + dR x 0))
  else
    write (write (trapMiddle x (n - 1) mem) 0 (0.5 * dR x 0)) (n - 1) (0.5 * dL x (n - 1))

/-- simpson_quadrature.hpp:46-49: weight of the left point of the pair of cells centred on `c`. -/
noncomputable def simpL (x : ℕ → ℝ) (c : ℕ) : ℝ := (dL x c + dR x c) * (2 * dL x c - dR x c) / (6 * dL x c)

/-- simpson_quadrature.hpp:50. -/
noncomputable def simpC (x : ℕ → ℝ) (c : ℕ) : ℝ :=
  (dL x c + dR x c) * (dL x c + dR x c) * (dL x c + dR x c) / (6 * dL x c * dR x c)

/-- simpson_quadrature.hpp:64, 76. -/
noncomputable def simpR (x : ℕ → ℝ) (c : ℕ) : ℝ := (dL x c + dR x c) * (2 * dR x c - dL x c) / (6 * dR x c)

/-- Loop "centre_left" (simpson_quadrature.hpp:39-51) with `m` iterations. -/
noncomputable def centreLeft (x : ℕ → ℝ) : ℕ → (ℕ → ℝ) → (ℕ → ℝ)
  | 0, a => a
  | m + 1, a =>
    let a := centreLeft x m a
    write (write a (2 * m) (simpL x (2 * m + 1))) (2 * m + 1) (simpC x (2 * m + 1))

/-- Loop "overlap_increment" (simpson_quadrature.hpp:54-65) with `m` iterations. -/
noncomputable def overlap (x : ℕ → ℝ) : ℕ → (ℕ → ℝ) → (ℕ → ℝ)
  | 0, a => a
  | m + 1, a =>
    let a := overlap x m a
    write a (2 * m + 2) (a (2 * m + 2) + simpR x (2 * m + 1))

/-- Result of a function that may throw or have undefined behaviour. Used in the model of `simpson_quadrature.hpp:22-93`. -/
inductive Outcome (α : Type) where
  | ok (a : α)
  | throws
  | undefinedBehaviour

/-- `fill_simpson_quadrature_coefficients_1d` (simpson_quadrature.hpp:22-93) on `n` points. The number of iterations of the
second loop, `size()/2 - periodic - 1`, is unsigned: below zero it wraps around and the loop writes out of bounds, which is
`undefinedBehaviour` here. -/
noncomputable def fillSimpson (periodic : Bool) (x : ℕ → ℝ) (n : ℕ) (mem : ℕ → ℝ) : Outcome (ℕ → ℝ) :=
  if periodic then
    if n % 2 ≠ 0 then .throws
    else if n / 2 < 2 then .undefinedBehaviour
    else
      let a := centreLeft x (n / 2 - 1) mem
      let a := overlap x (n / 2 - 2) a
      let c := n - 1 - 2
      let a := write a (c + 1) (simpR x c)
      let c := n - 1
      let a := write a (c - 1) (a (c - 1) + simpL x c)
      let a := write a c (simpC x c)
      .ok (write a 0 (a 0 + simpR x c))
  else
    if n % 2 = 0 then .throws
    else if n / 2 < 1 then .undefinedBehaviour
    else
      let a := centreLeft x (n / 2) mem
      let a := overlap x (n / 2 - 1) a
      let c := n - 1 - 1
      .ok (write a (c + 1) (simpR x c))

/-- `Extremity` argument. Used in the model of `simpson_quadrature.hpp:132-177`. -/
inductive Extremity | front | back

/-- `simpson_trapezoid_quadrature_coefficients_1d` (simpson_quadrature.hpp:132-177), non-periodic. `mem` is the content of
the allocations. The slice without its first point is indexed from one. -/
noncomputable def simpsonTrapezoid (x : ℕ → ℝ) (n : ℕ) (ext : Extremity) (mem : ℕ → ℝ) : Outcome (ℕ → ℝ) :=
  match fillSimpson false x n mem with
  | .ok a => .ok a
  | .undefinedBehaviour => .undefinedBehaviour
  | .throws =>
    match ext with
    | .front =>
      match fillSimpson false (fun i => x (i + 1)) (n - 1) (fun i => mem (i + 1)) with
      | .ok b =>
        let a : ℕ → ℝ := fun i => if i = 0 then mem 0 else b (i - 1)
        let d := 0.5 * dR x 0
        let a := write a 0 d
        .ok (write a 1 (a 1 + d))
      | .throws => .throws
      | .undefinedBehaviour => .undefinedBehaviour
    | .back =>
      match fillSimpson false x (n - 1) mem with
      | .ok a =>
        let d := 0.5 * dL x (n - 1)
        let a := write a (n - 1) d
        .ok (write a (n - 2) (a (n - 2) + d))
      | .throws => .throws
      | .undefinedBehaviour => .undefinedBehaviour

/-- `Quadrature::operator()` (quadrature.hpp:60-103): the reduction over the `n` points. The order of a parallel
reduction is irrelevant in exact arithmetic. -/
noncomputable def apply (coef : ℕ → ℝ) (n : ℕ) (f : ℕ → ℝ) : ℝ := ∑ i ∈ Finset.range n, coef i * f i

end Verif.Quadrature
