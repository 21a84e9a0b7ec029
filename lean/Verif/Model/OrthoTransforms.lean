import Verif.Model.Tensor
import Mathlib.Data.Real.Basic

/-!
# `OrthogonalCoordTransforms` and `IdentityCoordinateChange` (src/coord_transformations)

Dimension tags are elements of `T`; a coordinate is a function of its tags. `cov d` is the covariant tag of `d` (`cov d = d` for
a Cartesian dimension). A C++ instantiation that does not compile is `none`.
-/

namespace Verif.OrthoTransforms

universe u
variable {T : Type u} [DecidableEq T]

/-- What `OrthogonalCoordTransforms` uses of a transform: the tags of `CoordArg` and `CoordResult`, `operator()`, `jacobian`,
`jacobian_matrix` (a `DTensor<result tags, covariant argument tags>`) and `jacobian_component`. `CoordJacobian` has the tags of
`CoordArg`; a transform reads its own tags of the coordinate it is given (orthogonal_coord_transforms.hpp:61-78, 98-102). -/
structure Transform (T : Type u) where
  args : List T
  res : List T
  op : (T → ℝ) → T → ℝ
  jac : (T → ℝ) → ℝ
  mat : (T → ℝ) → Tensor.Storage ℝ
  comp : (T → ℝ) → T → T → ℝ

/-- Index sets of `CoordTransform::jacobian_matrix`, orthogonal_coord_transforms.hpp:132-147. -/
def Transform.sets (cov : T → T) (t : Transform T) : List (List T) := [t.res, t.args.map cov]

/-- `operator()(CoordArg)`, orthogonal_coord_transforms.hpp:98-102: the `CoordResult` built from the results of the transforms;
the value at a tag is that of the (first) result having the tag. `none`: no result has the tag (does not compile). -/
def apply (ts : List (Transform T)) (c : T → ℝ) (tag : T) : Option ℝ :=
  (ts.find? fun t => decide (tag ∈ t.res)).map fun t => t.op c tag

/-- `detail::FindTransform<CoordType, tuple>` for a coordinate type, orthogonal_coord_transforms.hpp:17-38; not found is the
type `void` (the assertion of line 36 always holds), on which `std::get` does not compile. -/
def findByArgs (ts : List (Transform T)) (tags : List T) : Option (Transform T) :=
  ts.find? fun t => decide (t.args = tags)

/-- `operator()(CoordType)` on the coordinate of one transform, orthogonal_coord_transforms.hpp:113-119. -/
def applyPart (ts : List (Transform T)) (tags : List T) (c : T → ℝ) : Option (T → ℝ) :=
  (findByArgs ts tags).map fun t => t.op c

/-- `jacobian_matrix`, orthogonal_coord_transforms.hpp:132-147. -/
def jacobianMatrix (cov : T → T) (args res : List T) (ts : List (Transform T)) (c : T → ℝ) : Option (Tensor.Storage ℝ) :=
  ts.foldlM (fun m t => Tensor.assignElements [res, args.map cov] (t.sets cov) m (t.mat c)) (fun _ => 0)

/-- `jacobian_component<IndexTag1, IndexTag2>`, orthogonal_coord_transforms.hpp:157-174. `FindTransform` looks for the
covariant tag `t2` among the tags of `CoordArg` of the transforms. -/
def jacobianComponent (cov : T → T) (args res : List T) (ts : List (Transform T)) (c : T → ℝ) (t1 t2 : T) : Option ℝ :=
  if t1 ∈ res ∧ t2 ∈ args.map cov then
    match ts.find? fun t => decide (t2 ∈ t.args) with
    | none => none
    | some t => if t1 ∈ t.res then some (t.comp c t1 t2) else some 0
  else none

/-- `jacobian`, orthogonal_coord_transforms.hpp:184-194. -/
def jacobian (res : List T) (ts : List (Transform T)) (c : T → ℝ) : Option ℝ :=
  (TypeSeq.cat (ts.map (·.res))).bind fun all =>
    (TypeSeq.parity res all).map fun p : ℤ => (ts.map fun t => t.jac c).prod * (p : ℝ)

/-- `get_inverse_mapping`, orthogonal_coord_transforms.hpp:201-210: the inverse of every transform, in the same order. -/
def inverse (inv : Transform T → Transform T) (ts : List (Transform T)) : List (Transform T) := ts.map inv

/-! ### identity_coordinate_change.hpp -/

/-- `IdentityCoordinateChange::operator()`, identity_coordinate_change.hpp:40-45: the value at the `i`-th result tag is the
value at the `i`-th argument tag. -/
def identityOp (args res : List T) (c : T → ℝ) (tag : T) : Option ℝ := (args[res.idxOf tag]?).map c

/-- `fill_diagonal_elements` on a zero tensor, identity_coordinate_change.hpp:67-72, 158-163 (also `inv_jacobian_matrix`, 116-122). -/
def identityMat (cov : T → T) (args res : List T) : Tensor.Storage ℝ :=
  (List.zip res (args.map cov)).foldl (fun m p => Tensor.set [res, args.map cov] m [p.1, p.2] 1) (fun _ => 0)

/-- `jacobian_component`, identity_coordinate_change.hpp:82-94 (also `inv_jacobian_component`, 132-144). -/
def identityComp (cov : T → T) (args res : List T) (t1 t2 : T) : ℝ :=
  if res.idxOf t1 = (args.map cov).idxOf t2 then 1 else 0

/-- `IdentityCoordinateChange` as a transform; `jacobian` is 1 (identity_coordinate_change.hpp:55-58). -/
def identity (cov : T → T) (args res : List T) : Transform T where
  args := args
  res := res
  op c tag := (identityOp args res c tag).getD 0
  jac _ := 1
  mat _ := identityMat cov args res
  comp _ t1 t2 := identityComp cov args res t1 t2

/-- `LinearCoordTransform` (linear_coord_transform.hpp:79-132) from the dimension `a` to the dimension `r`, with slope `s`, as a
transform. -/
def linear (a r : T) (refIn refOut s : ℝ) : Transform T where
  args := [a]
  res := [r]
  op c _ := refOut + (c a - refIn) * s
  jac _ := s
  mat _ := fun _ => s
  comp _ _ _ := s

end Verif.OrthoTransforms
