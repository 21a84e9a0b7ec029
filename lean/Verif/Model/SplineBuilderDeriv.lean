import Verif.Model.DerivField
import Mathlib.Data.Real.Basic

/-!
# `SplineBuilderDerivField2D` (src/utils/spline_builder_deriv_field_2d.hpp)

The DDC spline builder it calls is not modelled: the model gives what is passed to it.
-/

namespace Verif.SplineBuilderDeriv
open Verif.DerivField

/-- Numbers of boundary conditions on derivatives of the builder: `s_nbv_xmin`, `s_nbv_xmax` in both dimensions. Used in the model of `spline_builder_deriv_field_2d.hpp:93-203`. -/
structure Nbv where
  min1 : ℕ
  max1 : ℕ
  min2 : ℕ
  max2 : ℕ

/-- `DerivFieldType`, spline_builder_deriv_field_2d.hpp:56: the dimensions are `Deriv1, Grid1, Deriv2, Grid2`, the grids have `n1` and `n2` points. -/
def desc (n1 n2 : ℕ) (front : ℕ → ℤ) (sFront : ℕ → ℤ) (sStride sCount : ℕ → ℕ) (nDerivs : ℕ) : Desc :=
  ⟨[.der 0, .grid 0, .der 1, .grid 1], front, fun k => if k = 0 then n1 else n2, sFront, sStride, sCount, nDerivs⟩

/-- `function_and_derivs(...)`: the element with positions `x`, `y` and orders `o1`, `o2` (zero if not given). Used in the model of `spline_builder_deriv_field_2d.hpp:231-244`. -/
def read (d : Desc) (mem : ℕ × ℕ → ℝ) (x y : ℤ) (o1 o2 : ℕ) : Option ℝ :=
  (cell d ⟨fun k => if k = 0 then x else y, fun k => if k = 0 then o1 else o2⟩).map mem

/-- The arguments for the builder, spline_builder_deriv_field_2d.hpp:192-202: values as functions of the index on the grids and of the order of the derivative, on the ranges of the fields; outside of them there is no element. -/
structure Args where
  func : ℤ → ℤ → Option ℝ
  deriv1Min : ℕ → ℤ → Option ℝ
  deriv1Max : ℕ → ℤ → Option ℝ
  deriv2Min : ℤ → ℕ → Option ℝ
  deriv2Max : ℤ → ℕ → Option ℝ
  minMin : ℕ → ℕ → Option ℝ
  maxMin : ℕ → ℕ → Option ℝ
  minMax : ℕ → ℕ → Option ℝ
  maxMax : ℕ → ℕ → Option ℝ

/-- `fill_in_deriv1`, spline_builder_deriv_field_2d.hpp:231-244, with the field allocated for `n` orders. -/
def fillDeriv1 (d : Desc) (mem : ℕ × ℕ → ℝ) (n : ℕ) (slice : ℤ) : ℕ → ℤ → Option ℝ := fun o y => if 1 ≤ o ∧ o < 1 + n then read d mem slice y o 0 else none
/-- `fill_in_deriv2`, spline_builder_deriv_field_2d.hpp:253-266. -/
def fillDeriv2 (d : Desc) (mem : ℕ × ℕ → ℝ) (n : ℕ) (slice : ℤ) : ℤ → ℕ → Option ℝ := fun x o => if 1 ≤ o ∧ o < 1 + n then read d mem x slice 0 o else none
/-- `fill_in_cross_deriv`, spline_builder_deriv_field_2d.hpp:278-292. -/
def fillCross (d : Desc) (mem : ℕ × ℕ → ℝ) (m n : ℕ) (slice1 slice2 : ℤ) : ℕ → ℕ → Option ℝ := fun o1 o2 =>
  if (1 ≤ o1 ∧ o1 < 1 + m) ∧ 1 ≤ o2 ∧ o2 < 1 + n then read d mem slice1 slice2 o1 o2 else none

/-- `operator()`, spline_builder_deriv_field_2d.hpp:93-203. -/
def operatorCall (d : Desc) (mem : ℕ × ℕ → ℝ) (b : Nbv) : Args :=
  let s1min := d.front 0
  let s1max := d.front 0 + d.size 0 - 1
  let s2min := d.front 1
  let s2max := d.front 1 + d.size 1 - 1
  { func := fun x y => read d mem x y 0 0
    deriv1Min := fillDeriv1 d mem b.min1 s1min
    deriv1Max := fillDeriv1 d mem b.max1 s1max
    deriv2Min := fillDeriv2 d mem b.min2 s2min
    deriv2Max := fillDeriv2 d mem b.max2 s2max
    minMin := fillCross d mem b.min1 b.min2 s1min s2min
    maxMin := fillCross d mem b.max1 b.min2 s1max s2min
    minMax := fillCross d mem b.min1 b.max2 s1min s2max
    maxMax := fillCross d mem b.max1 b.max2 s1max s2max }

end Verif.SplineBuilderDeriv
