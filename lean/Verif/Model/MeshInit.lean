import Verif.Model.Pdi
import Verif.Model.GridTools

/-!
# Initialisation of splines and grids from the configuration

Model of `init_spline_dependent_idx_range` and `init_pseudo_uniform_spline_dependent_idx_range` (`src/io/input.hpp`) with the readers of
`src/paraconfpp/paraconfpp.hpp`.  The configuration is a partial function from paths to numbers (`paraconf` is external: a status different from
`PC_OK` is `none`).  The initialisation of discrete spaces is DDC's: a space can be initialised once; a uniform B-spline space has the break points
`min + i (max - min) / ncells`.  The interpolation points are computed by functions of the break points (`sample`, e.g. Greville points, which are
DDC's) or checked by `NonUniformInterpolationPoints::get_sampling` (`sampleUser`, property C51).
-/
namespace Verif.MeshInit

open Pdi (St Dataset)

/-- Ways in which the program stops. Used in the model of `src/paraconfpp/paraconfpp.hpp:12-21`. -/
inductive Fail
  /-- `throw std::runtime_error(PC_errmsg())`, src/paraconfpp/paraconfpp.hpp 18, 29 -/
  | config
  /-- an error reported by PDI -/
  | pdi
  /-- DDC: initialisation of a space which is already initialised -/
  | twice
  /-- use of the B-splines before their initialisation -/
  | uninitialised
  /-- the points are refused by `get_sampling` -/
  | points
  /-- undefined behaviour -/
  | ub

/-- The parsed configuration: what `PC_double` and `PC_int` give for a path. Used in the model of `src/paraconfpp/paraconfpp.hpp:12-21`. -/
structure Conf where
  double : String → Option ℝ
  int : String → Option ℤ

/-- The discrete spaces: break points of the B-splines, points of the grid. Used in the model of `src/io/input.hpp:77`. -/
structure Spaces where
  bsplines : Option (List ℝ)
  grid : Option (List ℝ)

/-- `PCpp_double` (src/paraconfpp/paraconfpp.hpp 12-21). -/
def getDouble (c : Conf) (path : String) : Except Fail ℝ :=
  match c.double path with
  | some v => .ok v
  | none => .error .config

/-- `PCpp_int` (src/paraconfpp/paraconfpp.hpp 23-32). -/
def getInt (c : Conf) (path : String) : Except Fail ℤ :=
  match c.int path with
  | some v => .ok v
  | none => .error .config

/-- `ddc::init_discrete_space<BSplines>(...)` (src/io/input.hpp 77, 80, 102, 145). -/
def initB (w : Spaces) (b : List ℝ) : Except Fail Spaces :=
  match w.bsplines with
  | none => .ok { w with bsplines := some b }
  | some _ => .error .twice

/-- `ddc::init_discrete_space<Grid1D>(...)` (src/io/input.hpp 104-108, 146). -/
def initG (w : Spaces) (g : List ℝ) : Except Fail Spaces :=
  match w.grid with
  | none => .ok { w with grid := some g }
  | some _ => .error .twice

/-- The break points given to a function which uses the initialised B-splines (`ddc::discrete_space<BSplines>()` in `get_sampling`). Used in the model of `src/io/input.hpp:83-108`. -/
def useB (w : Spaces) : Except Fail (List ℝ) :=
  match w.bsplines with
  | some b => .ok b
  | none => .error .uninitialised

/-- `PDI_get_arrays` (src/io/input.hpp 79, 92, 95-100) with the outcome of `Pdi.getArray`; the vectors are local: number 0 `breakpoints` (69), number 1
`mesh` (88), both empty. -/
def readArrays (reads : String → List String) (file : String → Option (Dataset ℝ)) (e : String) (ps : List (String × ℕ)) (s : St ℝ) :
    Except Fail (ℕ → List ℝ) :=
  match Pdi.getArray 0 reads file e ps { s with vecs := fun _ => [] } with
  | .ok s' => .ok s'.vecs
  | .error => .error .pdi
  | .ub => .error .ub

/-- What the surroundings provide: configuration of PDI, file, store of PDI, and the functions computing interpolation points. Used in the model of `src/io/input.hpp:71-81`. -/
structure Env where
  conf : Conf
  reads : String → List String
  file : String → Option (Dataset ℝ)
  pdi : St ℝ
  /-- `InterpPointInitMethod::get_sampling<Grid1D>()` (src/io/input.hpp 107) -/
  sample : List ℝ → List ℝ
  /-- `InterpPointInitMethod::get_sampling<Grid1D>(mesh)` (src/io/input.hpp 104-105) -/
  sampleUser : List ℝ → List ℝ → Option (List ℝ)

/-- Break points of uniform B-splines with `n` cells: DDC refuses nothing; a number of cells that is not positive has no meaning and is reported as
undefined behaviour. Used in the model of `src/io/input.hpp:71-81`. -/
noncomputable def uniformBreaks (min max : ℝ) (n : ℤ) : Except Fail (List ℝ) :=
  if 0 < n then .ok (GridTools.uniformBreakPoints min max n.toNat) else .error .ub

/-- First block of `init_spline_dependent_idx_range` (src/io/input.hpp 71-81): for uniform B-splines the configuration is read; for non-uniform ones
with computed interpolation points the break points are read from the file; otherwise nothing yet. -/
noncomputable def initFirst (uniform user : Bool) (E : Env) (id : String) (w : Spaces) : Except Fail Spaces :=
  if uniform then do
    let min ← getDouble E.conf (".SplineMesh." ++ id ++ "_min")
    let max ← getDouble E.conf (".SplineMesh." ++ id ++ "_max")
    let ncells ← getInt E.conf (".SplineMesh." ++ id ++ "_ncells")
    let b ← uniformBreaks min max ncells
    initB w b
  else if !user then do
    let v ← readArrays E.reads E.file ("read_" ++ id) [("breakpoints_" ++ id, 0)] E.pdi
    initB w (v 0)
  else .ok w

/-- Second block of `init_spline_dependent_idx_range` (src/io/input.hpp 83-108). -/
noncomputable def initSecond (uniform user : Bool) (E : Env) (id : String) (w : Spaces) : Except Fail Spaces :=
  if user then do
    let (w, mesh) ←
      if uniform then do
        let v ← readArrays E.reads E.file ("read_" ++ id) [("grid_" ++ id, 1)] E.pdi
        pure (w, v 1)
      else do
        let v ← readArrays E.reads E.file ("read_" ++ id) [("breakpoints_" ++ id, 0), (id, 1)] E.pdi
        let w ← initB w (v 0)
        pure (w, v 1)
    let b ← useB w
    match E.sampleUser b mesh with
    | some g => initG w g
    | none => .error .points
  else do
    let b ← useB w
    initG w (E.sample b)

/-- `init_spline_dependent_idx_range` (src/io/input.hpp 60-112). `uniform` is `BSplines::is_uniform()`, `user` is
`is_non_uniform_interpolation_points_v<InterpPointInitMethod>`, `id` the identifier of the mesh. -/
noncomputable def initSpline (uniform user : Bool) (E : Env) (id : String) (w : Spaces) : Except Fail Spaces := do
  let w ← initFirst uniform user E id w
  initSecond uniform user E id w

/-- `init_pseudo_uniform_spline_dependent_idx_range` (src/io/input.hpp 128-149): `build_uniform_break_points` (src/utils/mesh_builder.hpp 9-25) accesses
element 0 of a vector of `n_cells + 1` elements, which is undefined behaviour for a negative number of cells; with 0 cells the only break point
is `max`. -/
noncomputable def initPseudo (E : Env) (id : String) (w : Spaces) : Except Fail Spaces := do
  let min ← getDouble E.conf (".SplineMesh." ++ id ++ "_min")
  let max ← getDouble E.conf (".SplineMesh." ++ id ++ "_max")
  let ncells ← getInt E.conf (".SplineMesh." ++ id ++ "_ncells")
  let b ← if 0 ≤ ncells then .ok (GridTools.uniformBreakPoints min max ncells.toNat) else .error .ub
  let w ← initB w b
  let b ← useB w
  initG w (E.sample b)

end Verif.MeshInit
