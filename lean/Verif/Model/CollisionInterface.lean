import Mathlib.Data.Real.Basic
import Mathlib.Analysis.SpecialFunctions.Pow.Real

/-!
# The interface of the collision operator (koliop)

`src/collisions/collision_common_configuration.hpp`, `src/geometryVparMu/collisions/collision_configuration.hpp`, `src/collisions/collision_operator.{hpp,cpp}`.
The external library koliop is not modelled: what is modelled is the data that it receives (extents, arrays, layout) and the life of its handle.
Simplifications: `double` is `ℝ`; a spoofed dimension is a dimension without extent in the geometry (`none`); device and host memory are one memory.
-/

namespace Verif.CollisionInterface

/-- The dimensions, `src/collisions/collision_common_configuration.hpp:54-62`. -/
inductive Dim
  | sp | phi | theta | r | vpar | mu
deriving DecidableEq, Repr

/-- The index range of the distribution function: the extent of each dimension, `none` for a dimension that does not exist in the geometry (an `InternalSpoofGrid`).
`src/collisions/collision_common_configuration.hpp:16-49,254-255`. -/
abbrev Geometry := Dim → Option ℕ

/-- `extract_1d_index_range`, `create_scalar_index_range`: extent 1 for a spoofed dimension. `src/collisions/collision_common_configuration.hpp:263-300`. -/
def extent (g : Geometry) (d : Dim) : ℕ :=
  match g d with
  | none => 1
  | some n => n

/-- A multi-index: the position in each dimension (only the dimensions of the field matter). Used in the model of `src/collisions/collision_common_configuration.hpp:305-363`. -/
abbrev Pos := Dim → ℕ

/-- Address in a field in layout right over the dimensions `dims`: the last dimension is contiguous. The allocations of
`src/collisions/collision_common_configuration.hpp:305-363` are `FieldMem`s, in layout right. -/
def addr (ext : Dim → ℕ) (dims : List Dim) (i : Pos) : ℕ := dims.foldl (fun a d => a * ext d + i d) 0

/-- A block of memory. Used in the model of `src/collisions/collision_common_configuration.hpp:232-247`. -/
abbrev Mem := ℕ → Option ℝ

/-- `transpose_replicate_deep_copy`: the parallel loop over the indices of the destination, here in the order `order`.
`src/collisions/collision_common_configuration.hpp:232-247`. The index of the source is the restriction of the index of the destination. -/
def transposeReplicate (ext : Dim → ℕ) (dstDims srcDims : List Dim) (src : Mem) (order : List Pos) (dst : Mem) : Mem :=
  order.foldl (fun m i => Function.update m (addr ext dstDims i) (src (addr ext srcDims i))) dst

/-- `parallel_fill` of an allocation of `n` elements. `src/collisions/collision_common_configuration.hpp:201-202`. -/
def fill (n : ℕ) (x : ℝ) : Mem := fun a => if a < n then some x else none

/-- The check of the constructor: `n > 0 && (n & (n - 1)) == 0`. `src/collisions/collision_common_configuration.hpp:168-170`. -/
def pow2Check (n : ℕ) : Bool := decide (n > 0) && ((n &&& (n - 1)) == 0)

/-- The arguments of `koliop_Create`, `src/collisions/collision_operator.cpp:42-69`. -/
structure Args where
  muExtent : ℕ
  vparExtent : ℕ
  tor1Extent : ℕ
  tor2Extent : ℕ
  tor3Extent : ℕ
  speciesExtent : ℕ
  tor1Local : ℕ
  tor2Local : ℕ
  rOffset : ℕ
  thetaOffset : ℕ
  interspecies : Bool
  solEnabled : Bool
  limiterMask : Bool
  irSolSeparatrix : ℤ
  hatAs : Mem
  hatZs : Mem
  mug : Mem
  vparg : Mem
  coeffIntdmu : Mem
  coeffIntdvpar : Mem
  coeffAD : Mem
  maskBuffer : Mem
  maskLimiter : Mem
  bNorm : Mem
  bStar : Mem

/-- The inputs of `CollisionConfiguration`: `masses`, `charges` of the species, coordinates of the two velocity grids, quadrature coefficients, fields. Used in the model of `src/collisions/collision_common_configuration.hpp:138-216`. -/
structure Inputs where
  masses : Mem
  charges : Mem
  coordMu : Mem
  coordVpar : Mem
  intdmu : Mem
  intdvpar : Mem
  interspecies : Bool
  nustar0 : ℝ
  bNorm : ℝ
  bStarS : Mem

/-- The exceptions of the constructors: `src/collisions/collision_common_configuration.hpp:171`, `src/geometryVparMu/collisions/collision_configuration.hpp:103`. -/
inductive Err
  | powerOfTwo
  | nustar
deriving DecidableEq, Repr

/-- `CollisionConfigurationData` (`src/collisions/collision_common_configuration.hpp:138-216`), `CollisionConfiguration`
(`src/geometryVparMu/collisions/collision_configuration.hpp:90-107,127-179`) and the constructor of `CollisionOperator` (`src/collisions/collision_operator.hpp:102-126`,
`src/collisions/collision_operator.cpp:19-74`), in this order. `bDims` are the dimensions of the input `Bstar_s`, `garbage` the content of the allocation before the copy. -/
noncomputable def create (g : Geometry) (inp : Inputs) (bDims : List Dim) (order : List Pos) (garbage : Mem) : Except Err Args :=
  let e := extent g
  if !(pow2Check (e .r) && pow2Check (e .theta) && pow2Check (e .phi)) then .error .powerOfTwo
  else if inp.nustar0 ≠ 1 then .error .nustar
  else .ok {
    muExtent := e .mu
    vparExtent := e .vpar
    tor1Extent := e .r
    tor2Extent := e .theta
    tor3Extent := e .phi
    speciesExtent := e .sp
    tor1Local := e .r
    tor2Local := e .theta
    rOffset := 0
    thetaOffset := 0
    interspecies := inp.interspecies
    solEnabled := false
    limiterMask := true
    irSolSeparatrix := 0 + (e .r : ℤ) - 1
    hatAs := inp.masses
    hatZs := inp.charges
    mug := inp.coordMu
    vparg := inp.coordVpar
    coeffIntdmu := inp.intdmu
    coeffIntdvpar := inp.intdvpar
    coeffAD := fill (e .r) (Real.sqrt 2)
    maskBuffer := fill (e .r) 0
    maskLimiter := fill (e .theta * e .r) 0
    bNorm := fill (e .theta * e .r) inp.bNorm
    bStar := transposeReplicate e [.sp, .theta, .r, .vpar] bDims inp.bStarS order garbage }

/-- The static assertions on the grids: `vpar` is tested in both. `src/collisions/collision_common_configuration.hpp:121-126`. -/
def uniformAsserts (isUniform : Dim → Bool) : Bool := isUniform .vpar && isUniform .vpar

/-! ## The life of the handle -/

/-- Operations on `CollisionOperator` objects: construction (a new koliop handle), the implicit copy (the class declares a destructor and no copy operation: the handle is copied),
destruction. `src/collisions/collision_operator.hpp:79-169`. -/
inductive Op
  | construct
  | copy (src : ℕ)
  | destroy (obj : ℕ)
deriving DecidableEq, Repr

/-- Objects (`none`: destroyed) with their handle, number of handles created, handles released, in order. Used in the model of `src/collisions/collision_operator.hpp:102-134`. -/
structure St where
  objs : List (Option ℕ) := []
  created : ℕ := 0
  released : List ℕ := []

/-- One operation. `src/collisions/collision_operator.hpp:102-134`, `src/collisions/collision_operator.cpp:76-81`. An operation on an object that does not exist is not a C++ program: no change. -/
def step (s : St) : Op → St
  | .construct => { s with objs := s.objs ++ [some s.created], created := s.created + 1 }
  | .copy o => match s.objs[o]? with
    | some (some h) => { s with objs := s.objs ++ [some h] }
    | _ => s
  | .destroy o => match s.objs[o]? with
    | some (some h) => { s with objs := s.objs.set o none, released := s.released ++ [h] }
    | _ => s

/-- A sequence of operations. `src/collisions/collision_operator.hpp:102-134`. -/
def run (ops : List Op) : St := ops.foldl step {}

end Verif.CollisionInterface
