import Mathlib.Data.Real.Basic
import Mathlib.Tactic.Linarith

/-! # `OnionPatchLocator` (src/multipatch/connectivity/onion_patch_locator.hpp) -/

namespace Verif.Onion

/-- The `while` loop of `operator()`, `src/multipatch/connectivity/onion_patch_locator.hpp:174-186`, started with
`patch_index_min = lo`, `patch_index_max = hi`: `some i` if it returns `i`, `none` if it falls through.
Indices are integers as in C++ (`patch_index_max` can become `-1`). -/
noncomputable def search (radii : ℕ → ℝ) (r : ℝ) (lo hi : ℤ) : Option ℤ :=
  if h : hi ≥ lo then
    let mid := (lo + hi) / 2
    let rMin := radii mid.toNat
    let rMax := radii (mid + 1).toNat
    if rMin ≤ r ∧ r < rMax then some mid
    else if r < rMin then search radii r lo (mid - 1)
    else search radii r (mid + 1) hi
  else none
termination_by (hi + 1 - lo).toNat
decreasing_by
  all_goals omega

/-- `OnionPatchLocator::operator()`, `src/multipatch/connectivity/onion_patch_locator.hpp:157-192`, as a function of the
radius `r` computed at line 164. `none` models `Kokkos::abort` (line 189). The codes are
`outside_rmax_domain = -1` and `outside_rmin_domain = -2` (lines 92-96). The third branch of the loop
(`else if (r_max <= r)`, line 183) is always taken when the first two are not, `r` not being NaN. -/
noncomputable def locate (radii : ℕ → ℝ) (nPatches : ℕ) (r : ℝ) : Option ℤ :=
  let lo : ℤ := 0
  let hi : ℤ := (nPatches : ℤ) - 1
  let rMin := radii lo.toNat
  let rMax := radii (hi + 1).toNat
  if r > rMax then some (-1)
  else if r < rMin then some (-2)
  else match search radii r lo hi with
    | some i => some i
    | none => if r ≠ radii nPatches then none else some ((nPatches : ℤ) - 1)

/-- `set_and_check_radii`, `src/multipatch/connectivity/onion_patch_locator.hpp:234-253`: `none` if it throws
(lines 245-247), otherwise the table of radii. `rMin i`, `rMax i` are the end radii of patch `i`. -/
noncomputable def setAndCheckRadii (nPatches : ℕ) (rMin rMax : ℕ → ℝ) : Option (ℕ → ℝ) :=
  open Classical in
  if ∃ i, i + 1 < nPatches ∧ |rMin (i + 1) - rMax i| > 1e-14 then none
  else some fun i => if i = 0 then rMin 0 else rMax (i - 1)

end Verif.Onion
