import Verif.Model.Onion
import Verif.Model.GridTools
import Verif.Model.Norms

/-!
# Splines on an onion of patches

`src/multipatch/spline/multipatch_spline_evaluator_2d.hpp`, `src/multipatch/spline/constant_extrapolation_rules_onion.hpp`, `src/multipatch/spline/null_extrapolation_rules.hpp`,
`src/multipatch/utils/multipatch_math_tools.hpp`, with the locator of `Verif.Model.Onion`.

`double` is `ℝ`. The one-dimensional B-splines come from DDC: they are records of the functions the code calls. `get_equivalent_coord` (multipatch_spline_evaluator_2d.hpp:666-698) is the identity: the onion locator
has only one pair of logical dimensions (`onion_patch_locator.hpp:214-220`) and the other branch does not compile with it.
-/

namespace Verif.MultipatchSpline

/-- What the code uses of a DDC one-dimensional B-spline basis: periodicity, ends of the domain, degree, and `eval_basis`/`eval_deriv` (first index and values) and `ddc::integrals`. Used in the model of `multipatch_spline_evaluator_2d.hpp:751-761`. -/
structure Bsp where
  periodic : Bool
  rmin : ℝ
  rmax : ℝ
  degree : ℕ
  evalBasis : ℝ → ℕ × (ℕ → ℝ)
  evalDeriv : ℝ → ℕ × (ℕ → ℝ)
  integrals : ℕ → ℝ

/-- A patch: its two bases, and the number of coefficients in each direction (`spline_idx_range_type`). Used in the model of `multipatch_spline_evaluator_2d.hpp:724-770`. -/
structure Patch where
  b1 : Bsp
  b2 : Bsp
  n1 : ℕ
  n2 : ℕ

/-- `eval_type` or `eval_deriv_type`, multipatch_spline_evaluator_2d.hpp:67-81. -/
inductive EvalType
  | value
  | deriv
deriving DecidableEq

/-- Outcome of an evaluation on the device: a value, `Kokkos::abort`, or an access outside the arrays or the domain of the basis. Used in the model of `multipatch_spline_evaluator_2d.hpp:724-770`. -/
inductive Res
  | val (x : ℝ)
  | abort
  | undef

/-- multipatch_spline_evaluator_2d.hpp:751-761 for one direction. DDC asserts that the point is in the domain. -/
noncomputable def evalDir (b : Bsp) (t : EvalType) (x : ℝ) : Option (ℕ × (ℕ → ℝ)) :=
  if b.rmin ≤ x ∧ x ≤ b.rmax then
    match t with
    | .value => some (b.evalBasis x)
    | .deriv => some (b.evalDeriv x)
  else none

/-- `eval_no_bc`, multipatch_spline_evaluator_2d.hpp:724-770. The coefficients are read at `(jmin1 + i, jmin2 + j)`. -/
noncomputable def evalNoBc (t1 t2 : EvalType) (p : Patch) (x : ℝ × ℝ) (coef : ℕ → ℕ → ℝ) : Res :=
  match evalDir p.b1 t1 x.1, evalDir p.b2 t2 x.2 with
  | some (j1, v1), some (j2, v2) =>
    if j1 + p.b1.degree < p.n1 ∧ j2 + p.b2.degree < p.n2 then
      .val ((List.range (p.b1.degree + 1)).foldl (fun y i =>
        (List.range (p.b2.degree + 1)).foldl (fun y j => y + coef (j1 + i) (j2 + j) * v1 i * v2 j) y) 0)
    else .undef
  | _, _ => .undef

/-- `replace_periodic_coord_inside`, multipatch_spline_evaluator_2d.hpp:701-717. -/
noncomputable def replaceInside (p : Patch) (x : ℝ × ℝ) : ℝ × ℝ :=
  (GridTools.restrictToBsplineDomain p.b1.periodic p.b1.rmin p.b1.rmax x.1, GridTools.restrictToBsplineDomain p.b2.periodic p.b2.rmin p.b2.rmax x.2)

/-- An extrapolation rule: it gets the coordinate, the coefficients on each patch and the code of the locator. Used in the model of `multipatch_spline_evaluator_2d.hpp:598-648`. -/
abbrev Rule := ℝ × ℝ → (ℕ → ℕ → ℕ → ℝ) → ℤ → Res

/-- `recursive_dispatch_patch_function`, multipatch_spline_evaluator_2d.hpp:598-648, when `TestPatchIdx = k` and `ps` are the patches from `k` on; `first` is `AnyPatch` (multipatch_spline_evaluator_2d.hpp:618). -/
noncomputable def dispatch (rule : Rule) (first : Patch) (t1 t2 : EvalType) (x : ℝ × ℝ) (coefs : ℕ → ℕ → ℕ → ℝ) (idx : ℤ) : ℕ → List Patch → Res
  | _, [] =>
    if 0 ≤ idx then .abort
    else if t1 = .value ∧ t2 = .value then rule (replaceInside first x) coefs idx
    else .abort
  | k, p :: ps =>
    if idx = k then evalNoBc t1 t2 p (replaceInside p x) (coefs k)
    else dispatch rule first t1 t2 x coefs idx (k + 1) ps

/-- The evaluator's members: the patches (at least one), the radii of the locator and the two mappings, multipatch_spline_evaluator_2d.hpp:216-240 and `onion_patch_locator.hpp:98-103`. -/
structure Evaluator where
  first : Patch
  rest : List Patch
  radii : ℕ → ℝ
  toPhysical : ℝ × ℝ → ℝ × ℝ
  toLogical : ℝ × ℝ → ℝ × ℝ
  rule : Rule

/-- The patches, `PatchOrdering`. Used in the model of `multipatch_spline_evaluator_2d.hpp:655-661`. -/
def Evaluator.patches (e : Evaluator) : List Patch := e.first :: e.rest

/-- `get_patch_idx`, multipatch_spline_evaluator_2d.hpp:655-661, with the locator of `onion_patch_locator.hpp:157-192`; `none` if the locator aborts. -/
noncomputable def getPatchIdx (e : Evaluator) (x : ℝ × ℝ) : Option ℤ := Onion.locate e.radii e.patches.length (e.toLogical (e.toPhysical x)).1

/-- `operator()` for a coordinate, multipatch_spline_evaluator_2d.hpp:252-261. -/
noncomputable def eval (e : Evaluator) (x : ℝ × ℝ) (coefs : ℕ → ℕ → ℕ → ℝ) : Res :=
  match getPatchIdx e x with
  | none => .abort
  | some idx => dispatch e.rule e.first .value .value x coefs idx 0 e.patches

/-- The body shared by `deriv_dim_1` (multipatch_spline_evaluator_2d.hpp:303-316), `deriv_dim_2` (multipatch_spline_evaluator_2d.hpp:333-346) and `deriv_1_and_2` (multipatch_spline_evaluator_2d.hpp:362-376). -/
noncomputable def derivWith (t1 t2 : EvalType) (e : Evaluator) (x : ℝ × ℝ) (coefs : ℕ → ℕ → ℕ → ℝ) : Res :=
  match getPatchIdx e x with
  | none => .abort
  | some idx => if idx < 0 then .abort else dispatch e.rule e.first t1 t2 x coefs idx 0 e.patches

/-- `deriv_dim_1`, multipatch_spline_evaluator_2d.hpp:303-316. -/
noncomputable def derivDim1 := derivWith .deriv .value
/-- `deriv_dim_2`, multipatch_spline_evaluator_2d.hpp:333-346. -/
noncomputable def derivDim2 := derivWith .value .deriv
/-- `deriv_1_and_2`, multipatch_spline_evaluator_2d.hpp:362-376. -/
noncomputable def deriv12 := derivWith .deriv .deriv

/-- `apply_evaluator`, multipatch_spline_evaluator_2d.hpp:517-547: each value of the stored field. -/
noncomputable def applyEvaluator (t1 t2 : EvalType) (e : Evaluator) {ι : Type} (coords : ι → ℝ × ℝ) (coefs : ℕ → ℕ → ℕ → ℝ) (i : ι) : Res :=
  match getPatchIdx e (coords i) with
  | none => .abort
  | some idx => if idx < 0 ∧ ¬(t1 = .value ∧ t2 = .value) then .abort else dispatch e.rule e.first t1 t2 (coords i) coefs idx 0 e.patches

/-- `apply_integrate`, multipatch_spline_evaluator_2d.hpp:555-590. -/
noncomputable def applyIntegrate (p : Patch) (coef : ℕ → ℕ → ℝ) : ℝ :=
  (List.range p.n1).foldl (fun s i => (List.range p.n2).foldl (fun s j => s + coef i j * p.b1.integrals i * p.b2.integrals j) s) 0

/-- `NullExtrapolationRule::operator()`, null_extrapolation_rules.hpp:26-34; `undef` when the assertion fails. -/
noncomputable def nullRule : Rule := fun _ _ idx => if idx < 0 then .val 0 else .undef

/-- `ddc::ConstantExtrapolationRule<R, Theta>` with a periodic `Theta`: the spline at the given radius and the poloidal angle of the coordinate (DDC; constructor of
constant_extrapolation_rules_onion.hpp:52-56). -/
noncomputable def ddcConstant (rPos : ℝ) (p : Patch) (x : ℝ × ℝ) (coef : ℕ → ℕ → ℝ) : Res := evalNoBc .value .value p (rPos, x.2) coef

/-- `ConstantExtrapolationRuleOnion::operator()`, constant_extrapolation_rules_onion.hpp:69-87. `ps` are the patches; `outside_rmin_domain = -2`, `outside_rmax_domain = -1`. -/
noncomputable def constantRule (rMin rMax : ℝ) (first : Patch) (rest : List Patch) : Rule := fun x coefs idx =>
  if ¬(idx = -2 ∨ idx = -1) then .undef
  else if idx = -2 then ddcConstant rMin first x (coefs 0)
  else ddcConstant rMax ((first :: rest).getLast (by simp)) x (coefs rest.length)

/-- `norm_inf` on several patches, multipatch_math_tools.hpp:12-26; a field on a patch is given with the schedule of the reduction on that patch. -/
noncomputable def normInf {ι : Type*} (fs : List (Norms.Tree ι × (ι → ℝ))) : ℝ :=
  (fs.map fun f => Norms.normInf f.1 f.2).foldl (fun result n => max result n) 0

/-- `error_norm_inf` on several patches, multipatch_math_tools.hpp:35-54. -/
noncomputable def errorNormInf {ι : Type*} (fs : List (Norms.Tree ι × (ι → ℝ) × (ι → ℝ))) : ℝ :=
  (fs.map fun f => Norms.errorNormInf f.1 f.2.1 f.2.2).foldl (fun result n => max result n) 0

end Verif.MultipatchSpline
