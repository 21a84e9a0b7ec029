import Verif.Model.GridTools
import Mathlib.Data.Real.Basic

/-!
# Discrete mappings and their builders

`src/coord_transformations/discrete_poloidal_cs_spline_mapping.hpp` and `discrete_poloidal_cs_spline_mapping_builder.hpp`. The B-splines, the builder and the evaluator are DDC's: they are parameters. The refined builder
initialises discrete spaces, which are global to the program; the mappings hold views of the coefficients owned by the builder.
-/

namespace Verif.DiscreteMapping

/-- A point: `(r, theta)` or `(x, y)`. Used in the model of `discrete_poloidal_cs_spline_mapping.hpp:177-183`. -/
abbrev Pt := ℝ × ℝ

/-- DDC's splines: `build gr gt vals` are the coefficients of the spline with the values `vals i j` at the points `(gr i, gt j)`; value and derivatives of a spline. Used in the model of
`discrete_poloidal_cs_spline_mapping.hpp:177-251`. -/
structure Splines (C : Type*) where
  build : List ℝ → List ℝ → (ℕ → ℕ → ℝ) → C
  eval : C → Pt → ℝ
  dr : C → Pt → ℝ
  dtheta : C → Pt → ℝ
  coef : C → ℕ → ℕ → ℝ

/-- A pair of splines with the grid they come from: the members of the builders, `discrete_poloidal_cs_spline_mapping_builder.hpp:61-64,321-324` (the first points of the grid in `r` are the singular points, lines 111-114, 393-396). -/
structure Data (C : Type*) where
  x : C
  y : C
  gr : List ℝ
  gt : List ℝ

/-- `set_curvilinear_to_cartesian_values` and the two calls of the builder, `discrete_poloidal_cs_spline_mapping_builder.hpp:102-109,144-166` and `420-427,457-480`. -/
noncomputable def fill {C : Type*} (S : Splines C) (gr gt : List ℝ) (A : Pt → Pt) : Data C where
  x := S.build gr gt fun i j => (A (gr.getD i 0, gt.getD j 0)).1
  y := S.build gr gt fun i j => (A (gr.getD i 0, gt.getD j 0)).2
  gr := gr
  gt := gt

/-- `operator()(coord)`, `discrete_poloidal_cs_spline_mapping.hpp:177-183`. -/
def Data.map {C : Type*} (S : Splines C) (d : Data C) (p : Pt) : Pt := (S.eval d.x p, S.eval d.y p)

/-- The indices of the Jacobian matrix, `discrete_poloidal_cs_spline_mapping.hpp:64-70`. -/
inductive Cart | X | Y
deriving DecidableEq

/-- The covariant indices, `discrete_poloidal_cs_spline_mapping.hpp:64-70`. -/
inductive Curv | R | Theta
deriving DecidableEq

/-- `jacobian_matrix`, `discrete_poloidal_cs_spline_mapping.hpp:226-251`. -/
def Data.jacobianMatrix {C : Type*} (S : Splines C) (d : Data C) (p : Pt) : Cart → Curv → ℝ
  | .X, .R => S.dr d.x p
  | .X, .Theta => S.dtheta d.x p
  | .Y, .R => S.dr d.y p
  | .Y, .Theta => S.dtheta d.y p

/-- `jacobian_component`, `discrete_poloidal_cs_spline_mapping.hpp:271-302`. -/
def Data.jacobianComponent {C : Type*} (S : Splines C) (d : Data C) (i : Cart) (j : Curv) (p : Pt) : ℝ :=
  if i = .X ∧ j = .R then S.dr d.x p
  else if i = .X ∧ j = .Theta then S.dtheta d.x p
  else if i = .Y ∧ j = .R then S.dr d.y p
  else S.dtheta d.y p

/-- `jacobian`, `discrete_poloidal_cs_spline_mapping.hpp:312-318`. -/
def Data.jacobian {C : Type*} (S : Splines C) (d : Data C) (p : Pt) : ℝ :=
  let J := d.jacobianMatrix S p
  J .X .R * J .Y .Theta - J .Y .R * J .X .Theta

/-- `control_point`, `discrete_poloidal_cs_spline_mapping.hpp:398-402`. -/
def Data.controlPoint {C : Type*} (S : Splines C) (d : Data C) (i j : ℕ) : Pt := (S.coef d.x i j, S.coef d.y i j)

/-- The member `m_o_point`, `discrete_poloidal_cs_spline_mapping.hpp:132-148`: on the host the value at the coordinates `(0, 0)`, on a device the value at the first singular point. -/
def Data.oPoint {C : Type*} (S : Splines C) (host : Bool) (d : Data C) : Pt :=
  if host then d.map S (0, 0) else d.map S (d.gr.getD 0 0, d.gt.getD 0 0)

/-- `idx_range_singular_point`, `discrete_poloidal_cs_spline_mapping_builder.hpp:111-114,393-396`: one point in `r`, all points in `theta`. -/
def Data.singularPoints {C : Type*} (d : Data C) : List Pt := (d.gr.take 1).flatMap fun r => d.gt.map fun t => (r, t)

/-! ### The refined builder -/

/-- The template parameters and the bounds of the original B-splines, `discrete_poloidal_cs_spline_mapping_builder.hpp:183-189,211-226,350-354`. -/
structure Refinement where
  ncellsR : ℕ
  ncellsTheta : ℕ
  uniformR : Bool
  uniformTheta : Bool
  rMin : ℝ
  rMax : ℝ
  thetaMin : ℝ
  thetaMax : ℝ
  /-- the Greville points of a list of break points, lines 381-389 (DDC) -/
  grevilleR : List ℝ → List ℝ
  grevilleTheta : List ℝ → List ℝ

/-- The program compiles: the branch of `discrete_poloidal_cs_spline_mapping_builder.hpp:359` depends on the uniformity in `r` only, uniform B-splines are initialised with bounds and a number of cells, non-uniform ones with a list
of break points. -/
def Refinement.compiles (R : Refinement) : Bool := R.uniformTheta == R.uniformR

/-- The break points of lines 364-375 of `discrete_poloidal_cs_spline_mapping_builder.hpp`. -/
noncomputable def loopBreaks (min max : ℝ) (n : ℕ) : List ℝ :=
  let d := (max - min) / n
  (List.range (n + 1)).map fun i : ℕ => min + i * d

/-- The break points of a refined B-spline space, `discrete_poloidal_cs_spline_mapping_builder.hpp:359-379`; those of the uniform space are DDC's (`GridTools.uniformBreakPoints`). -/
noncomputable def refinedBreaks (uniform : Bool) (min max : ℝ) (n : ℕ) : List ℝ :=
  if uniform then GridTools.uniformBreakPoints min max n else loopBreaks min max n

/-- What stops the program, or makes it meaningless. Used in the model of `discrete_poloidal_cs_spline_mapping_builder.hpp:336-442`. -/
inductive Fail
  /-- the class cannot be instantiated -/
  | compile
  /-- DDC: a discrete space is initialised twice, lines 360-383 -/
  | twice

/-- The state of the program: whether the refined spaces (one set for each instantiation of the class template) are initialised, and the builders that are alive. Used in the model of
`discrete_poloidal_cs_spline_mapping_builder.hpp:320-324,359-389`. -/
structure World (C : Type*) where
  refined : Bool
  builders : ℕ → Option (Data C)

/-- What a program can do with builders: construct one on the original grid (lines 76-115), construct a refined one (lines 336-428), destroy one. `discrete_poloidal_cs_spline_mapping_builder.hpp:76-115,336-428`. -/
inductive Op
  | make (b : ℕ) (A : Pt → Pt)
  | makeRefined (b : ℕ) (A : Pt → Pt)
  | destroy (b : ℕ)

/-- One operation, `discrete_poloidal_cs_spline_mapping_builder.hpp:76-115` (with the grid `gr`, `gt` of the original builder) and `336-428`. -/
noncomputable def step {C : Type*} (S : Splines C) (R : Refinement) (gr gt : List ℝ) (w : World C) : Op → Except Fail (World C)
  | .make b A => .ok { w with builders := fun k => if k = b then some (fill S gr gt A) else w.builders k }
  | .makeRefined b A =>
    if R.compiles = false then .error .compile
    else if w.refined then .error .twice
    else
      let d := fill S (R.grevilleR (refinedBreaks R.uniformR R.rMin R.rMax R.ncellsR)) (R.grevilleTheta (refinedBreaks R.uniformTheta R.thetaMin R.thetaMax R.ncellsTheta)) A
      .ok { refined := true, builders := fun k => if k = b then some d else w.builders k }
  | .destroy b => .ok { w with builders := fun k => if k = b then none else w.builders k }

/-- A sequence of operations. Used in the model of programs with several builders, `discrete_poloidal_cs_spline_mapping_builder.hpp:76-442`. -/
noncomputable def run {C : Type*} (S : Splines C) (R : Refinement) (gr gt : List ℝ) (w : World C) : List Op → Except Fail (World C)
  | [] => .ok w
  | o :: l =>
    match step S R gr gt w o with
    | .ok w' => run S R gr gt w' l
    | .error e => .error e

/-- Use of a mapping given by the builder `b` (lines 122-129, 435-442: it holds views of the coefficients of the builder); `none` is a read of memory that is no more allocated. `discrete_poloidal_cs_spline_mapping_builder.hpp:122-129,435-442`. -/
def useMap {C : Type*} (S : Splines C) (w : World C) (b : ℕ) (p : Pt) : Option Pt := (w.builders b).map fun d => d.map S p

end Verif.DiscreteMapping
