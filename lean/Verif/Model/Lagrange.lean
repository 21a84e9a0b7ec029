import Mathlib.Data.Real.Basic
import Mathlib.Algebra.Order.Archimedean.Real.Basic
import Mathlib.Algebra.Order.Floor.Ring
import Mathlib.Data.Nat.Factorial.Basic

/-!
# Lagrange bases on uniform and non-uniform grids

`src/interpolation/lagrange_basis_non_uniform.hpp`, `src/interpolation/lagrange_basis_uniform.hpp`.
`double` is `ℝ`; the machine epsilon of `check_if_node` is a parameter `eps ≥ 0`.
The coordinates `ddc::coordinate(poly_start + i)` of the stencil are given by a function `xs i` (`i ≤ D`).
-/

namespace Verif.Lagrange

open Function

/-! ## Values -/

/-- `get_weights`, `lagrange_basis_non_uniform.hpp:382-398`. -/
noncomputable def getWeights (D : ℕ) (xs : ℕ → ℝ) (i : ℕ) : ℝ :=
  1 / (List.range (D + 1)).foldl (fun num j => if i = j then num else num * (xs i - xs j)) 1

/-- `calculate_values_between_nodes`, `lagrange_basis_non_uniform.hpp:409-423`; `den k` stands for
`x - ddc::coordinate(poly_start + k)`. The uniform version `lagrange_basis_uniform.hpp:400-415` is the same with
`den k = offset - k`. -/
noncomputable def valuesBetweenNodes (D : ℕ) (w den : ℕ → ℝ) (i : ℕ) : ℝ :=
  (w i / den i) / (List.range (D + 1)).foldl (fun acc j => acc + w j / den j) 0

/-- `check_if_node`, `lagrange_basis_non_uniform.hpp:368-379`: the first stencil node closer than `eps`;
`none` is the value `-1`. -/
noncomputable def checkIfNodeNU (eps : ℝ) (D : ℕ) (xs : ℕ → ℝ) (x : ℝ) : Option ℕ :=
  (List.range (D + 1)).find? fun i => |x - xs i| < eps

/-- `eval_basis`, `lagrange_basis_non_uniform.hpp:229-247`. -/
noncomputable def evalBasisNU (eps : ℝ) (D : ℕ) (xs : ℕ → ℝ) (x : ℝ) (j : ℕ) : ℝ :=
  match checkIfNodeNU eps D xs x with
  | none => valuesBetweenNodes D (getWeights D xs) (fun k => x - xs k) j
  | some node => if j = node then 1 else 0

/-! ## Derivatives between nodes: the loop over combinations -/

/-- `combinations[i] += static_cast<int>(combinations[i] == j)`, `lagrange_basis_non_uniform.hpp:303,306`
(identical to `lagrange_basis_uniform.hpp:303,306`). -/
def skip (j : ℕ) (c : ℤ) : ℤ := c + if c = j then 1 else 0

/-- Lines 302-307 of `lagrange_basis_non_uniform.hpp` (identical lines in `lagrange_basis_uniform.hpp`):
increment position `i` and refill the following positions. Used in the model of `lagrange_basis_non_uniform.hpp:301-321`. -/
def bumpFill (j n i : ℕ) (comb : ℕ → ℤ) : ℕ → ℤ :=
  (List.range' (i + 1) (n - 1 - i)).foldl (fun c k => update c k (skip j (c (k - 1) + 1)))
    (update comb i (skip j (comb i + 1)))

/-- `max_val_along_dim`, `lagrange_basis_non_uniform.hpp:314-315,318-319` (identical in the uniform file). -/
def maxVal (D n j i : ℕ) : ℤ :=
  ((i : ℤ) + (D + 1) - n) - if ((i : ℤ) + (D + 1) - n) ≤ j then 1 else 0

/-- `while (i > -1 and combinations[i] == max_val_along_dim)`, `lagrange_basis_non_uniform.hpp:316-320`
(identical in the uniform file); argument and result are `i + 1`, so that 0 is the C++ value `-1`. -/
def back (D n j : ℕ) (comb : ℕ → ℤ) : ℕ → ℕ
  | 0 => 0
  | i + 1 => if comb i = maxVal D n j i then back D n j comb i else i + 1

/-- The loop `while (i > -1)`, `lagrange_basis_non_uniform.hpp:301-321` and
`lagrange_basis_uniform.hpp:301-321`. `term c` is the factor of the divisor for node `c`
(line 311). The C++ loop has no bound: here `fuel` bounds the number of iterations and the result is `none`
when it is exhausted. -/
noncomputable def factorLoop (D n j : ℕ) (term : ℤ → ℝ) : ℕ → (ℕ → ℤ) → ℕ → ℝ → Option ℝ
  | 0, _, _, _ => none
  | fuel + 1, comb, i, factor =>
    let comb := bumpFill j n i comb
    let divisor := (List.range n).foldl (fun d k => d * term (comb k)) 1
    let factor := factor + 1 / divisor
    match back D n j comb n with
    | 0 => some factor
    | i' + 1 => factorLoop D n j term fuel comb i' factor

/-- Initial content of `combinations`, `lagrange_basis_non_uniform.hpp:296-299`. -/
def initComb : ℕ → ℤ := fun k => if k = 0 then -1 else 0

/-- `derivs(j, n)` when `x` is not at a node, `lagrange_basis_non_uniform.hpp:284-324`,
`lagrange_basis_uniform.hpp:284-324`: `values` come from `calculate_values_between_nodes`. -/
noncomputable def derivBetweenNodes (fuel D : ℕ) (values : ℕ → ℝ) (term : ℤ → ℝ) (j n : ℕ) : Option ℝ :=
  if n = 0 then some (values j)
  else (factorLoop D n j term fuel initComb 0 0).map fun factor => values j * factor * n.factorial

/-! ## Derivatives at a node -/

/-- `neg_1_pow` for a natural argument, `src/math_tools/math_tools.hpp:283-286`. -/
def neg1Pow (n : ℕ) : ℤ := 1 - 2 * ((n % 2 : ℕ) : ℤ)

/-- `derivs(j, n)` for `j ≠ node`, lines 336-346 of `lagrange_basis_non_uniform.hpp` and
`lagrange_basis_uniform.hpp`: `d k` is the already stored `derivs(j, k)`. -/
noncomputable def derivNodeStep (D : ℕ) (w xs : ℕ → ℝ) (node j n : ℕ) (d : ℕ → ℝ) : ℝ :=
  let first := (neg1Pow (n + 1) : ℝ) * w j / (xs node - xs j) ^ n
  let acc := (List.range (D + 1)).foldl (fun acc p =>
    if p = node then acc
    else (List.range' 1 (n - 1)).foldl (fun acc k =>
      acc - (neg1Pow (n + 1 - k) : ℝ) * w p * d k / (k.factorial : ℝ) / (xs node - xs p) ^ (n - k)) acc) first
  acc * ((n.factorial : ℝ) / w node)

/-- Row `derivs(j, ·)`, `j ≠ node`: lines 327-348 of `lagrange_basis_non_uniform.hpp` and
`lagrange_basis_uniform.hpp`. -/
noncomputable def derivNodeRow (D : ℕ) (w xs : ℕ → ℝ) (node j nDerivs : ℕ) : ℕ → ℝ :=
  (List.range' 1 nDerivs).foldl (fun d n => update d n (derivNodeStep D w xs node j n d)) (fun _ => 0)

/-- `derivs(j, n)` for all `j`, lines 326-356 of `lagrange_basis_non_uniform.hpp` and
`lagrange_basis_uniform.hpp`. -/
noncomputable def derivAtNode (D : ℕ) (w xs : ℕ → ℝ) (node nDerivs j n : ℕ) : ℝ :=
  if n = 0 then (if j = node then 1 else 0)
  else if j = node then
    (List.range (D + 1)).foldl
      (fun acc j => if j = node then acc else acc - derivNodeRow D w xs node j nDerivs n) 0
  else derivNodeRow D w xs node j nDerivs n

/-- `eval_basis_and_n_derivs`, `lagrange_basis_non_uniform.hpp:267-358`. -/
noncomputable def evalBasisAndNDerivsNU (fuel : ℕ) (eps : ℝ) (D : ℕ) (xs : ℕ → ℝ) (x : ℝ)
    (nDerivs j n : ℕ) : Option ℝ :=
  match checkIfNodeNU eps D xs x with
  | none => derivBetweenNodes fuel D (valuesBetweenNodes D (getWeights D xs) (fun k => x - xs k))
      (fun c => x - xs c.toNat) j n
  | some node => some (derivAtNode D (getWeights D xs) xs node nDerivs j n)

/-! ## Uniform grids -/

/-- The weights computed by the constructor, `lagrange_basis_uniform.hpp:142-151`. -/
noncomputable def weightsU (D i : ℕ) : ℝ :=
  1 / (List.range (D + 1)).foldl (fun num j => if i = j then num else num * ((i : ℝ) - j)) 1

/-- Coordinates of a uniform knot grid, `ddc::coordinate(poly_start + i)` (DDC `UniformPointSampling`). Used in the model of `lagrange_basis_uniform.hpp:266-358`. -/
def uniformNodes (x0 dx : ℝ) (i : ℕ) : ℝ := x0 + i * dx

/-- `offset` of `check_if_node`, `lagrange_basis_uniform.hpp:374-376`. -/
noncomputable def offsetU (x0 dx x : ℝ) : ℝ := (x - x0) * (1 / dx)

/-- `check_if_node`, `lagrange_basis_uniform.hpp:369-389`; the conversion to `int` of a non-negative
offset is its integer part; `none` is the value `-1`. `eps` is `epsilon * (degree + 1)`. -/
noncomputable def checkIfNodeU (eps x0 dx x : ℝ) : Option ℕ :=
  let offset := offsetU x0 dx x
  let icell := ⌊offset⌋₊
  let loc := offset - icell
  if loc ≤ eps then some icell
  else if loc - 1 ≥ -eps then some (icell + 1)
  else none

/-- `eval_basis` after the periodic shift, `lagrange_basis_uniform.hpp:237-245`. -/
noncomputable def evalBasisU (eps : ℝ) (D : ℕ) (x0 dx x : ℝ) (j : ℕ) : ℝ :=
  match checkIfNodeU eps x0 dx x with
  | none => valuesBetweenNodes D (weightsU D) (fun k => offsetU x0 dx x - k) j
  | some node => if j = node then 1 else 0

/-- `eval_basis`, `lagrange_basis_uniform.hpp:223-246`. -/
noncomputable def evalBasisUniform (periodic : Bool) (length eps : ℝ) (D : ℕ) (x0 dx x : ℝ) (j : ℕ) : ℝ :=
  evalBasisU eps D x0 dx (if periodic ∧ x < x0 then x + length else x) j

/-- `eval_basis_and_n_derivs`, `lagrange_basis_uniform.hpp:266-358`. -/
noncomputable def evalBasisAndNDerivsU (fuel : ℕ) (eps : ℝ) (D : ℕ) (x0 dx x : ℝ)
    (nDerivs j n : ℕ) : Option ℝ :=
  match checkIfNodeU eps x0 dx x with
  | none => derivBetweenNodes fuel D (valuesBetweenNodes D (weightsU D) (fun k => offsetU x0 dx x - k))
      (fun c => dx * (offsetU x0 dx x - c)) j n
  | some node => some (derivAtNode D (weightsU D) (uniformNodes x0 dx) node nDerivs j n)

end Verif.Lagrange
