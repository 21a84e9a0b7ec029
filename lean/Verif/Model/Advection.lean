import Verif.Model.Timestepper
import Verif.Model.GridTools
import Mathlib.Analysis.SpecialFunctions.Sqrt

/-!
# Backward semi-Lagrangian advections (src/advection)

An interpolator is a pair (builder, evaluator): `build` turns the values on one line of the grid into coefficients, `eval` evaluates them. A batched operator works line by line;
fields are functions of (batch index, index on the line). `double` is `ℝ`.
-/

namespace Verif.Advection
open Verif.Timestepper

/-- Time steppers that can be given as `TimeStepperBuilder` (`src/advection/bsl_advection_1d.hpp:61,124-125`; the classes of `src/timestepper`). -/
inductive Stepper
  | euler
  | rk2
  | rk3
  | rk4
  | crankNicolson (maxCounter : ℕ) (eps : ℝ)

/-- `time_stepper.update(y, dt, dy, y_update)`; the norms are those of the Crank-Nicolson stopping test. `src/advection/bsl_advection_1d.hpp:331-341`,
`src/advection/spline_polar_foot_finder.hpp:370`. -/
noncomputable def Stepper.update {Y K : Type*} [AddCommGroup K] [Module ℝ K] (s : Stepper) (errNorm : Y → Y → ℝ) (norm : Y → ℝ)
    (upd : Y → K → ℝ → Y) (f : Y → K) (y : Y) (dt : ℝ) : Y :=
  match s with
  | .euler => Timestepper.euler upd f y dt
  | .rk2 => Timestepper.rk2 upd f y dt
  | .rk3 => Timestepper.rk3 upd f y dt
  | .rk4 => Timestepper.rk4 upd f y dt
  | .crankNicolson m eps => (Timestepper.crankNicolson upd f errNorm norm m eps y dt).y

/-- A 1D interpolator on a line with index type `I`: builder and evaluator (`src/advection/bsl_advection_1d.hpp:70-76`). -/
structure Interp (I C : Type*) where
  build : (I → ℝ) → C
  eval : ℝ → C → ℝ

/-- `BslAdvection1D::operator()`, `src/advection/bsl_advection_1d.hpp:253-349`. `B` indexes the lines of the function, `A` those of the advection field, `proj` is `IdxBatchAdvecField(idx)` (line 339).
The derivatives at the boundaries (optional arguments) belong to the builders. -/
noncomputable def bsl1D {I A B C C' : Type*} (fi : Interp I C) (ai : Interp I C') (coord : I → ℝ) (proj : B → A) (st : Stepper)
    (f : B → I → ℝ) (a : A → I → ℝ) (dt : ℝ) : B → I → ℝ :=
  let aCoefs := fun l => ai.build (a l)
  let fCoefs := fun l => fi.build (f l)
  fun b i =>
    let foot := st.update (fun x y : ℝ => |x - y|) (fun x : ℝ => |x|) defaultUpdate (fun x => ai.eval x (aCoefs (proj b))) (coord i) (-dt)
    fi.eval foot (fCoefs b)

/-- `BslAdvectionSpatial::operator()`, `src/advection/bsl_advection_x.hpp:81-132`, for one species; the lines are indexed by `B`, `vel b` is the coordinate of the velocity index of the line. -/
noncomputable def bslX {I B C : Type*} (fi : Interp I C) (coord : I → ℝ) (vel : B → ℝ) (massElec mass : ℝ) (f : B → I → ℝ) (dt : ℝ) : B → I → ℝ :=
  let sqrtMe := Real.sqrt (massElec / mass)
  let feet := fun (b : B) (i : I) =>
    let dx := sqrtMe * dt * vel b
    coord i - dx
  let coefs := fun b => fi.build (f b)
  fun b i => fi.eval (feet b i) (coefs b)

/-- `BslAdvectionVelocity::operator()`, `src/advection/bsl_advection_vx.hpp:82-138`, for one species; `efield b` is the electric field at the position of the line. -/
noncomputable def bslV {I B C : Type*} (fi : Interp I C) (coord : I → ℝ) (efield : B → ℝ) (charge massElec mass : ℝ) (f : B → I → ℝ) (dt : ℝ) : B → I → ℝ :=
  let sqrtMe := Real.sqrt (massElec / mass)
  let feet := fun (b : B) (i : I) =>
    let dv := charge * sqrtMe * dt * efield b
    coord i - dv
  let coefs := fun b => fi.build (f b)
  fun b i => fi.eval (feet b i) (coefs b)

/-- `NullAdvectionVelocity::operator()`, `src/advection/nulladvectionvx.hpp:29-35`. -/
def nullAdvection {B I E : Type*} (f : B → I → ℝ) (_efield : E) (_dt : ℝ) : B → I → ℝ := f

/-! ## Polar advection -/

/-- Pairs of reals: logical coordinates `(r, theta)`, pseudo-physical and physical coordinates or vectors. Used in the model of `src/advection/spline_polar_foot_finder.hpp:358`. -/
abbrev P2 := ℝ × ℝ

/-- `norm_inf` of a 2D coordinate, used in `src/advection/spline_polar_foot_finder.hpp:358`. -/
noncomputable def normInf (p : P2) : ℝ := max |p.1| |p.2|

/-- What `SplinePolarFootFinder` is built from (`src/advection/spline_polar_foot_finder.hpp:172-179, 240-258`): the mapping to the pseudo-physical domain and its inverse,
`toPseudo c v`: the components in the pseudo-physical basis of the physical vector `v` at the logical coordinate `c` (`to_vector_space`, property C35), builder and
evaluator of one component of the advection field, the end of the radial domain, start and length of the theta range. -/
structure FootFinder (I C : Type*) where
  toXY : P2 → P2
  toLogical : P2 → P2
  toPseudo : P2 → P2 → P2
  build : (I → ℝ) → C
  eval : P2 → C → ℝ
  rmax : ℝ
  thetaMin : ℝ
  thetaLen : ℝ

/-- The lambda `dy`, `src/advection/spline_polar_foot_finder.hpp:325-349`; `c1`, `c2` are the coefficients of the two components. -/
noncomputable def FootFinder.dy {I C : Type*} (o : FootFinder I C) (c1 c2 : C) (foot : P2) : P2 :=
  let v : P2 := (o.eval foot c1, o.eval foot c2)
  let location : P2 := (min foot.1 o.rmax, foot.2)
  o.toPseudo location v

/-- The lambda `update_function`, `src/advection/spline_polar_foot_finder.hpp:352-366`. -/
noncomputable def FootFinder.upd {I C : Type*} (o : FootFinder I C) (foot a : P2) (dt : ℝ) : P2 :=
  let centre := o.toXY (0, 0)
  let xy := o.toXY foot
  let footXY : P2 := xy - dt • a
  if normInf (footXY - centre) < 1e-15 then (0, 0)
  else
    let c := o.toLogical footXY
    (c.1, GridTools.restrictToIdxRange o.thetaMin o.thetaLen c.2)

/-- `unify_value_at_centre_pt`, `src/advection/spline_polar_foot_finder.hpp:437-457`: `IR`, `IT` are the radial and poloidal indices, `r0`, `t0` the first ones. -/
noncomputable def unify {B IR IT V : Type*} [DecidableEq IR] (rCoord : IR → ℝ) (r0 : IR) (t0 : IT) (values : B → IR → IT → V) : B → IR → IT → V :=
  if |rCoord r0| < 1e-15 then fun b i j => if i = r0 then values b r0 t0 else values b i j
  else values

/-- `SplinePolarFootFinder::operator()`, `src/advection/spline_polar_foot_finder.hpp:276-377`. The content of `feet` on entry is overwritten by the grid coordinates (line 368).
`is_unified` (376) only prints and asserts. -/
noncomputable def FootFinder.find {IR IT B C : Type*} [DecidableEq IR] (o : FootFinder (IR × IT) C) (st : Stepper) (errNorm : P2 → P2 → ℝ) (nrm : P2 → ℝ)
    (rCoord : IR → ℝ) (tCoord : IT → ℝ) (r0 : IR) (t0 : IT) (a : B → IR → IT → P2) (dt : ℝ) : B → IR → IT → P2 :=
  let c1 := fun b => o.build fun p => (a b p.1 p.2).1
  let c2 := fun b => o.build fun p => (a b p.1 p.2).2
  let feet := fun b i j => st.update errNorm nrm o.upd (o.dy (c1 b) (c2 b)) (rCoord i, tCoord j) dt
  unify rCoord r0 t0 feet

/-- `BslAdvectionPolar::operator()(allfdistribu, advection_field_xy, dt)`, `src/advection/bsl_advection_polar.hpp:165-204`; `find` is the foot finder, `build`/`eval` the 2D interpolation of the function. -/
def bslPolar {IR IT B C : Type*} (build : (IR × IT → ℝ) → C) (eval : P2 → C → ℝ)
    (find : (B → IR → IT → P2) → ℝ → B → IR → IT → P2) (f : B → IR → IT → ℝ) (a : B → IR → IT → P2) (dt : ℝ) : B → IR → IT → ℝ :=
  let feet := find a dt
  let coefs := fun b => build fun p => f b p.1 p.2
  fun b i j => eval (feet b i j) (coefs b)

/-- The advection field on `(x, y)` built by `operator()(allfdistribu, advection_field_rtheta, advection_field_xy_centre, dt)`,
`src/advection/bsl_advection_polar.hpp:228-279`: `toPhysical c v` is the product of the Jacobian matrix at `c` and `v` (`copy_to_vector_space`). -/
def fieldWithCentre {IR IT B : Type*} [DecidableEq IR] (toPhysical : P2 → P2 → P2) (rCoord : IR → ℝ) (tCoord : IT → ℝ) (r0 : IR)
    (a : B → IR → IT → P2) (centre : P2) : B → IR → IT → P2 :=
  fun b i j => if i = r0 then centre else toPhysical (rCoord i, tCoord j) (a b i j)

/-- The advection field on `(x, y)` built by `operator()(allfdistribu, advection_field_rtheta, dt)`, `src/advection/bsl_advection_polar.hpp:307-398`:
if the first radial point is the O-point, its value is the mean over the first ring `r1` (`thetas` is the list of poloidal indices). -/
noncomputable def fieldWithAverage {IR IT B : Type*} [DecidableEq IR] (toPhysical : P2 → P2 → P2) (rCoord : IR → ℝ) (tCoord : IT → ℝ) (thetas : List IT) (r0 r1 : IR)
    (a : B → IR → IT → P2) : B → IR → IT → P2 :=
  let firstRowIsOPoint := rCoord r0 < 1e-13
  let conv := fun b i j => toPhysical (rCoord i, tCoord j) (a b i j)
  open scoped Classical in
  if firstRowIsOPoint then
    fun b i j =>
      if i = r0 then
        let sum : P2 := thetas.foldl (fun acc j => (acc.1 + (conv b r1 j).1, acc.2 + (conv b r1 j).2)) (0, 0)
        (sum.1 / thetas.length, sum.2 / thetas.length)
      else conv b i j
  else conv

end Verif.Advection
