import Mathlib.Algebra.Field.Defs
import Mathlib.Algebra.Order.Archimedean.Real.Basic
import Mathlib.Algebra.Order.Floor.Defs
import Mathlib.Data.Fin.VecNotation
import Mathlib.Data.Real.Basic

/-!
# Scalar and small-matrix helpers (src/math_tools/math_tools.hpp)
-/

namespace Verif.MathTools

/-- `sum(const T*, int size)`, math_tools.hpp:17-25 (and the mdspan overload 27-39). -/
def sumArr {α : Type*} [Zero α] [Add α] (a : ℕ → α) (size : ℕ) : α :=
  (List.range size).foldl (fun val i => val + a i) 0

/-- `sum(mdspan, start, end)`, math_tools.hpp:41-56: nothing is added when `end ≤ start`. -/
def sumRange {α : Type*} [Zero α] [Add α] (a : ℕ → α) (start stop : ℕ) : α :=
  (List.range' start (stop - start)).foldl (fun val i => val + a i) 0

/-- `modulo`, math_tools.hpp:102-106, for an integer type. `rnd` is the rounding of the quotient to double. The
product and difference are exact in double for the magnitudes considered in the theorems. -/
noncomputable def modulo (rnd : ℝ → ℝ) (x y : ℤ) : ℤ := x - y * ⌊rnd ((x : ℝ) / y)⌋

/-- `ipow(double, std::size_t)`, math_tools.hpp:108-115. -/
def ipowNat {α : Type*} [One α] [Mul α] (a : α) (i : ℕ) : α :=
  (List.range i).foldl (fun r _ => r * a) 1

/-- `ipow(double, int)`, math_tools.hpp:117-131. -/
def ipowInt {α : Type*} [Field α] (a : α) (i : ℤ) : α :=
  if 0 < i then (List.range i.toNat).foldl (fun r _ => r * a) 1
  else if i < 0 then 1 / ((List.range (-i).toNat).foldl (fun r _ => r * a) 1)
  else 1

/-- Number of values of `std::size_t` (64 bits). Used in the model of `math_tools.hpp:133-140`. -/
def word : ℕ := 2 ^ 64

/-- `factorial`, math_tools.hpp:133-140, with 64-bit unsigned wrap-around, also in the loop bound `f + 1`. -/
def factorial (f : ℕ) : ℕ :=
  (List.range' 2 ((f + 1) % word - 2)).foldl (fun r i => r * i % word) 1

/-- `neg_1_pow`, math_tools.hpp:283-286; C++ `%` truncates towards zero. -/
def neg1pow (p : ℤ) : ℤ := 1 - 2 * (p.tmod 2)

variable {α : Type*} [Field α]

/-- 2x2 `determinant`, math_tools.hpp:142-148; `arr i j` is the component with row dimension `i + 1` and column
dimension `j + 1`. -/
def det2 (a : Fin 2 → Fin 2 → α) : α := a 0 0 * a 1 1 - a 1 0 * a 0 1

/-- 3x3 `determinant`, math_tools.hpp:150-167. -/
def det3 (a : Fin 3 → Fin 3 → α) : α :=
  a 0 0 * a 1 1 * a 2 2 + a 0 1 * a 1 2 * a 2 0 + a 0 2 * a 1 0 * a 2 1
    - a 2 0 * a 1 1 * a 0 2 - a 2 1 * a 1 2 * a 0 0 - a 2 2 * a 1 0 * a 0 1

/-- 2x2 `inverse`, math_tools.hpp:169-186. The output rows are the (dual) columns of the input: entry
`(OutRow_i, OutCol_j)` is `inv i j`. -/
def inv2 (a : Fin 2 → Fin 2 → α) : Fin 2 → Fin 2 → α :=
  let det := det2 a
  ![![a 1 1 / det, -a 0 1 / det],
    ![-a 1 0 / det, a 0 0 / det]]

/-- 3x3 `inverse`, math_tools.hpp:188-243. -/
def inv3 (a : Fin 3 → Fin 3 → α) : Fin 3 → Fin 3 → α :=
  let det := det3 a
  ![![(a 1 1 * a 2 2 - a 1 2 * a 2 1) / det, (a 0 2 * a 2 1 - a 0 1 * a 2 2) / det,
      (a 0 1 * a 1 2 - a 0 2 * a 1 1) / det],
    ![(a 1 2 * a 2 0 - a 1 0 * a 2 2) / det, (a 0 0 * a 2 2 - a 0 2 * a 2 0) / det,
      (a 0 2 * a 1 0 - a 0 0 * a 1 2) / det],
    ![(a 1 0 * a 2 1 - a 1 1 * a 2 0) / det, (a 0 1 * a 2 0 - a 0 0 * a 2 1) / det,
      (a 0 0 * a 1 1 - a 0 1 * a 1 0) / det]]

end Verif.MathTools
