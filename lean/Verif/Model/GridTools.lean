import Mathlib.Analysis.SpecialFunctions.Trigonometric.Inverse
import Mathlib.Algebra.Order.Floor.Ring

/-!
# Grid helpers (src/utils/ddc_helper.hpp, src/utils/mesh_builder.hpp, src/utils/non_uniform_interpolation_points.hpp)

`double` is `ℝ`: rounding is not modelled.
-/

namespace Verif.GridTools
open Real

/-! ## Lengths -/

/-- `total_interval_length` of a non-periodic dimension, `src/utils/ddc_helper.hpp:23-28`: `coord i` is the coordinate of the `i`-th point of the range of `n` points. -/
def totalLengthNonPeriodic (coord : ℕ → ℝ) (n : ℕ) : ℝ := |coord (n - 1) - coord 0|

/-- `total_interval_length` of a periodic uniform dimension of step `h`, `src/utils/ddc_helper.hpp:39-46`. -/
def totalLengthPeriodicUniform (coord : ℕ → ℝ) (h : ℝ) (n : ℕ) : ℝ := |coord (n - 1) - coord 0 + h|

/-- `total_interval_length` of a periodic non-uniform dimension, `src/utils/ddc_helper.hpp:57-65`: the range is extended by one point. -/
def totalLengthPeriodicNonUniform (coord : ℕ → ℝ) (n : ℕ) : ℝ := |coord n - coord 0|

/-! ## Periodic restriction -/

/-- `std::copysign(a, b)` on numbers without signed zero; used in `src/utils/ddc_helper.hpp:102`. -/
noncomputable def copysign (a b : ℝ) : ℝ := if b < 0 then -|a| else |a|

/-- `while (coord < x_min) coord += length;`, `src/utils/ddc_helper.hpp:107-108`. The test `0 < len` (the `assert` of line 97) only makes the Lean function total. -/
noncomputable def raise (xmin len coord : ℝ) : ℝ :=
  open scoped Classical in
  if _h : 0 < len ∧ coord < xmin then raise xmin len (coord + len) else coord
termination_by ⌈(xmin - coord) / len⌉.toNat
decreasing_by
  obtain ⟨hl, hc⟩ := _h
  have h1 : (xmin - (coord + len)) / len = (xmin - coord) / len - 1 := by field_simp; ring
  rw [h1]
  have h2 : 0 < (xmin - coord) / len := div_pos (by linarith) hl
  have h3 : 0 < ⌈(xmin - coord) / len⌉ := Int.ceil_pos.2 h2
  have h4 : ⌈(xmin - coord) / len - 1⌉ = ⌈(xmin - coord) / len⌉ - 1 := by
    exact_mod_cast Int.ceil_sub_intCast ((xmin - coord) / len) 1
  rw [h4]; omega

/-- `while (coord >= x_max) coord -= length;`, `src/utils/ddc_helper.hpp:109-110`. -/
noncomputable def lower (xmax len coord : ℝ) : ℝ :=
  open scoped Classical in
  if _h : 0 < len ∧ coord ≥ xmax then lower xmax len (coord - len) else coord
termination_by (⌊(coord - xmax) / len⌋ + 1).toNat
decreasing_by
  obtain ⟨hl, hc⟩ := _h
  have h1 : (coord - len - xmax) / len = (coord - xmax) / len - 1 := by field_simp; ring
  rw [h1]
  have h2 : 0 ≤ (coord - xmax) / len := div_nonneg (by linarith) hl.le
  have h3 : 0 ≤ ⌊(coord - xmax) / len⌋ := Int.floor_nonneg.2 h2
  have h4 : ⌊(coord - xmax) / len - 1⌋ = ⌊(coord - xmax) / len⌋ - 1 := by
    exact_mod_cast Int.floor_sub_intCast ((coord - xmax) / len) 1
  rw [h4]; omega

/-- `restrict_to_idx_range`, `src/utils/ddc_helper.hpp:84-112`. -/
noncomputable def restrictToIdxRange (xmin len coord : ℝ) : ℝ :=
  let xmax := xmin + len
  let coord := coord - xmin
  let coord :=
    if |coord| > 10 * len then
      let factor := 2 * π / len
      let c := coord * factor
      let c := copysign (arccos (cos c)) (sin c)
      if c < 0 then (c + 2 * π) / factor else c / factor
    else coord
  let coord := coord + xmin
  let coord := raise xmin len coord
  lower xmax len coord

/-- `restrict_to_bspline_domain`, `src/utils/ddc_helper.hpp:127-140` (`length() = rmax - rmin`). -/
noncomputable def restrictToBsplineDomain (periodic : Bool) (rmin rmax coord : ℝ) : ℝ :=
  if periodic then
    if coord < rmin ∨ coord > rmax then
      coord - (⌊(coord - rmin) / (rmax - rmin)⌋ : ℝ) * (rmax - rmin)
    else coord
  else coord

/-- `maximum_distance_between_adjacent_points`, `src/utils/ddc_helper.hpp:191-212`, for a range of `n` points: a reduction by `max` with neutral element `0.`
over the points `1, ..., n-1`. -/
noncomputable def maxDistance (coord : ℕ → ℝ) (n : ℕ) : ℝ :=
  ((List.range (n - 1)).map (· + 1)).foldl (fun m i => max m (coord i - coord (i - 1))) 0

/-! ## Break points -/

/-- `build_uniform_break_points`, `src/utils/mesh_builder.hpp:9-25`: first point, loop over `1 ≤ i < n_cells`, last point. -/
noncomputable def uniformBreakPoints (min max : ℝ) (n : ℕ) : List ℝ :=
  let delta := (max - min) / n
  (List.range (n + 1)).map fun i : ℕ => if i = n then max else if i = 0 then min else min + i * delta

/-- `build_random_non_uniform_break_points`, `src/utils/mesh_builder.hpp:27-48`; `draw i` is `double(rand()) / RAND_MAX` at iteration `i`. -/
noncomputable def randomBreakPoints (min max : ℝ) (n : ℕ) (nonUniformity : ℝ) (draw : ℕ → ℝ) : List ℝ :=
  let delta := (max - min) / n
  (List.range (n + 1)).map fun i : ℕ =>
    if i = n then max else if i = 0 then min else min + (i + (draw i - 0.5) * nonUniformity) * delta

/-! ## User supplied interpolation points -/

/-- Exceptions of `get_sampling`: `src/utils/non_uniform_interpolation_points.hpp:64,85,133`. -/
inductive SamplingErr
  | wrongNumber
  | overconstrained
  | notUniform
deriving DecidableEq, Repr

/-- `check_n_points_in_cell`, `src/utils/non_uniform_interpolation_points.hpp:59-69`: `true` if it throws. -/
def checkThrows (degree nPoints : ℕ) : Bool := decide (nPoints > degree + 1)

/-- The loop of `src/utils/non_uniform_interpolation_points.hpp:100-113`. `b` gives the break points (knots beyond the domain for a periodic basis);
`cellEnd` is the number of the break point `current_cell_end_idx`, `count` is `n_points_in_cell`. The result is `true` if an exception is thrown. -/
noncomputable def cellLoop (degree : ℕ) (b : ℕ → ℝ) : List ℝ → ℕ → ℕ → Bool
  | [], count, _ => checkThrows degree count
  | p :: ps, count, cellEnd =>
    open scoped Classical in
    if p = b cellEnd then
      if checkThrows degree (count + 1) then true else cellLoop degree b ps 1 (cellEnd + 1)
    else if p > b cellEnd then
      if checkThrows degree count then true else cellLoop degree b ps 1 (cellEnd + 1)
    else cellLoop degree b ps (count + 1) cellEnd

/-- `get_sampling` for a non-uniform sampling: `src/utils/non_uniform_interpolation_points.hpp:80-117`. `expected` is `nbasis - N_BE_MIN - N_BE_MAX` (line 83); the
result is the list of points of the sampling. -/
noncomputable def getSampling (degree expected : ℕ) (periodic : Bool) (b : ℕ → ℝ) (domainLen : ℝ) (points : List ℝ) :
    Except SamplingErr (List ℝ) :=
  if points.length ≠ expected then .error .wrongNumber
  else
    let points := if periodic then points ++ [points.headD 0 + domainLen] else points
    if cellLoop degree b points 0 1 then .error .overconstrained else .ok points

/-- `get_sampling` for a uniform sampling: the additional test of `src/utils/non_uniform_interpolation_points.hpp:118-136`; the result is (origin, step). -/
noncomputable def getSamplingUniform (degree expected : ℕ) (periodic : Bool) (b : ℕ → ℝ) (domainLen tol : ℝ) (points : List ℝ) :
    Except SamplingErr (ℝ × ℝ) :=
  match getSampling degree expected periodic b domainLen points with
  | .error e => .error e
  | .ok pts =>
    let origin := pts.headD 0
    let step := domainLen / ((pts.length : ℝ) - 1)
    open scoped Classical in
    if ∀ i < expected, |origin + i * step - pts.getD i 0| < tol then .ok (origin, step) else .error .notUniform

end Verif.GridTools
