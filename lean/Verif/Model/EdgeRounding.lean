import Verif.Model.EdgeTransform
import Verif.Model.FloatWrap

/-! Floating-point version of the index computation of `src/multipatch/connectivity/edge_transformation.hpp`. -/

namespace Verif.EdgeTransform

/-- `int(current_idx_value / rescaling_factor)` with `rescaling_factor = double(n_cells_current) / double(n_cells_target)`
(edge_transformation.hpp:324-325) in arithmetic rounded to nearest, ties to even. The three integers are exact `double`s
(they are `int`s). Simplification: unbounded exponents, as in `FloatWrap.rn`. -/
noncomputable def ieeeTruncDiv (v nc nt : ℕ) : ℕ := (trunc (FloatWrap.rn ((v : ℝ) / FloatWrap.rn ((nc : ℝ) / (nt : ℝ))))).toNat

end Verif.EdgeTransform
