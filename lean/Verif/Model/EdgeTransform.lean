import Mathlib.Algebra.Order.Archimedean.Real.Basic
import Mathlib.Algebra.Order.Floor.Ring

/-! Model of `src/multipatch/connectivity/edge_transformation.hpp` (class `EdgeTransformation`).

`double` is modelled by `ℝ` here, except in `f64TruncDiv`, which models the binary64 divisions of line 324-325.
An edge grid with `n` cells has the indices `0..n`; for a periodic dimension the code works on the extended index range
of lines 273-278, so the last index `n` is the periodic image of the index `0`. -/

namespace Verif.EdgeTransform

/-- An edge of a patch: minimum coordinate, `ddcHelper::total_interval_length` and `PERIODIC` flag of its dimension
(edge_transformation.hpp:135-144, ddc_helper.hpp:23-65). -/
structure Edge where
  min : ℝ
  len : ℝ
  periodic : Bool

/-- C conversion of a floating point number to an integer (truncation toward zero). Used in the model of `edge_transformation.hpp:153`. -/
noncomputable def trunc (x : ℝ) : ℤ := if 0 ≤ x then ⌊x⌋ else ⌈x⌉

/-- `std::fmod(a, b)` (used in edge_transformation.hpp:153). -/
noncomputable def fmod (a b : ℝ) : ℝ := a - b * (trunc (a / b) : ℝ)

/-- `EdgeTransformation::transform_edge_coord` (edge_transformation.hpp:117-156). -/
noncomputable def transformEdge (agree : Bool) (cur tgt : Edge) (x : ℝ) : ℝ :=
  let r := (x - cur.min) / cur.len * tgt.len
  let r := if agree then r else tgt.len - r
  let r := if tgt.periodic then fmod r tgt.len else r
  tgt.min + r

/-- The two wrapping loops of edge_transformation.hpp:291-303; `fuel` is `10 - counter`, `front = 0`, `back = n`. -/
def wrapUp (n : ℕ) : ℕ → ℤ → ℤ
  | 0, i => i
  | k + 1, i => if i < 0 then wrapUp n k (i + n) else i

/-- Second loop (edge_transformation.hpp:298-302). -/
def wrapDown (n : ℕ) : ℕ → ℤ → ℤ
  | 0, i => i
  | k + 1, i => if i ≥ n then wrapDown n k (i - n) else i

/-- edge_transformation.hpp:291-303. -/
def wrap (n : ℕ) (i : ℤ) : ℤ := wrapDown n 10 (wrapUp n 10 i)

/-- Uniform branch of `search_for_match` (edge_transformation.hpp:307-343), on the already wrapped index
`v = current_idx - front`. `truncDiv v nc nt` is the value of `int(v / (double(nc) / double(nt)))` (lines 324-325).
`none` is `out_of_bounds_idx` (line 355). -/
def searchUniform (truncDiv : ℕ → ℕ → ℕ → ℕ) (agree tPeriodic : Bool) (nc nt v : ℕ) : Option ℕ :=
  let g := Nat.gcd nc nt
  if v % (nc / g) = 0 then
    let t := truncDiv v nc nt
    let t := if agree then t else nt - t
    some (if tPeriodic && decide (t = nt) then 0 else t)
  else none

/-- Lines 324-325 in exact arithmetic. (edge_transformation.hpp:324-325.) -/
noncomputable def exactTruncDiv (v nc nt : ℕ) : ℕ := (trunc ((v : ℝ) / ((nc : ℝ) / (nt : ℝ)))).toNat

/-- Correctly rounded (round half to even) binary64 quotient of two positive naturals, `num / den`, for quotients
whose exponent is in the normal range: returns `(m, s)` with value `m / 2^s`. Used for edge_transformation.hpp:324-325. -/
def f64Div (num den : ℕ) : ℕ × ℕ :=
  let s := 56 + den.log2 - num.log2
  let q := num * 2 ^ s / den
  let sticky := if num * 2 ^ s % den = 0 then 0 else 1
  let x := q.log2 + 1 - 53
  let m := q / 2 ^ x
  let rem := 2 * (q % 2 ^ x) + sticky
  let half := 2 ^ x
  let up := decide (rem > half) || (decide (rem = half) && decide (m % 2 = 1))
  (if up then m + 1 else m, s - x)

/-- Lines 324-325 in binary64 arithmetic: two correctly rounded divisions, then truncation. The first quotient is
`m / 2^s`, the second divides `v` by it, that is `v * 2^s` by `m`. The conversions of the three integers to `double`
are exact below `2^53`. (edge_transformation.hpp:324-325.) -/
def f64TruncDiv (v nc nt : ℕ) : ℕ :=
  let f := f64Div nc nt
  let q := f64Div (v * 2 ^ f.2) f.1
  q.1 / 2 ^ q.2

/-- Dichotomy loop of `get_target_idx` (edge_transformation.hpp:385-407). `e i` is the coordinate of the target grid
point `i` transformed to the current edge (line 394-395). The result is the final `(target_idx_min, target_idx_max)`;
`none` means that the loop does not terminate: once `max ≤ min` neither branch changes the difference
from zero. -/
noncomputable def dichotomy (e : ℕ → ℝ) (agree : Bool) (c : ℝ) (lo hi : ℕ) : Option (ℕ × ℕ) :=
  if hi = lo + 1 then some (lo, hi)
  else if h : lo + 1 < hi then
    let mid := lo + (hi - lo) / 2
    open Classical in
    if (c > e mid ∧ agree = true) ∨ (c ≤ e mid ∧ agree = false) then
      dichotomy e agree c mid hi
    else
      dichotomy e agree c lo mid
  else none
termination_by hi - lo
decreasing_by all_goals omega

/-- `get_target_idx` (edge_transformation.hpp:370-432): target grid points `x 0 .. x n`. -/
noncomputable def getTargetIdx (agree : Bool) (cur tgt : Edge) (x : ℕ → ℝ) (n : ℕ) (c : ℝ) : Option ℕ :=
  let e := fun i => transformEdge agree tgt cur (x i)
  match dichotomy e agree c 0 n with
  | none => none
  | some (lo, hi) =>
    let hi := if tgt.periodic && decide (hi = n) then 0 else hi
    open Classical in
    some (if |c - e lo| < |c - e hi| then lo else hi)

/-- Non-uniform branch of `search_for_match` (edge_transformation.hpp:344-355). -/
noncomputable def searchNonUniform (agree : Bool) (cur tgt : Edge) (x : ℕ → ℝ) (n : ℕ) (c : ℝ) : Option ℕ :=
  match getTargetIdx agree cur tgt x n c with
  | none => none
  | some i =>
    open Classical in
    if |c - transformEdge agree tgt cur (x i)| < 1 / 10 ^ 14 then some i else none

end Verif.EdgeTransform
