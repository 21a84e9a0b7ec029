import Mathlib.Data.List.Basic

/-!
# Cached two-dimensional spline coefficients and the partial derivatives that share them

`src/math_tools/spline_builder_2d_cache.hpp`, `src/math_tools/spline_2d_partial_derivative.hpp`,
`src/math_tools/gradient_creator.hpp`. `F` is the type of (contents of) fields, `C` of (contents of) spline coefficient arrays. The DDC
spline builder is an arbitrary function `build : F → C`, the evaluator's `deriv` along one dimension an arbitrary `deriv : Dim → C → D`.
-/

namespace Verif.SplineCache

/-- `Dim1` and `Dim2`, spline_builder_2d_cache.hpp:18-19. -/
inductive Dim
  | d1
  | d2
deriving DecidableEq, Repr

/-- The members of `SplineBuilder2DCache`, spline_builder_2d_cache.hpp:28-31. The coefficient array is allocated uninitialised (line 44):
`none` until the builder has filled it. -/
structure State (C : Type*) where
  coeffs : Option C
  compute1 : Bool
  compute2 : Bool

/-- The constructor, spline_builder_2d_cache.hpp:40-48. -/
def init (C : Type*) : State C := ⟨none, true, true⟩

variable {F C D : Type*}

/-- `compute_coeffs<DimOfInterest>`, spline_builder_2d_cache.hpp:58-89. The returned field is a view of the member, i.e. the `coeffs` of the
new state. -/
def computeCoeffs (build : F → C) (s : State C) (dim : Dim) (field : F) : State C :=
  if dim = .d1 ∧ s.compute1 = true then
    { coeffs := some (build field), compute2 := false, compute1 := true }
  else if dim = .d2 ∧ s.compute2 = true then
    { coeffs := some (build field), compute1 := false, compute2 := true }
  else s

/-- A program's calls of `compute_coeffs` on one cache, in order. (spline_builder_2d_cache.hpp:58-89 repeated.) -/
def run (build : F → C) (s : State C) (calls : List (Dim × F)) : State C :=
  calls.foldl (fun s c => computeCoeffs build s c.1 c.2) s

/-- `Spline2DPartialDerivative::operator()`, spline_2d_partial_derivative.hpp:71-77: the derivative of whatever the shared cache holds *when it is
called* (`none`: uninitialised memory is read). The object's constructor (lines 55-63) calls `computeCoeffs`. -/
def evalDeriv (deriv : Dim → C → D) (s : State C) (dim : Dim) : Option D := s.coeffs.map (deriv dim)

/-- `GradientCreator::operator()`, gradient_creator.hpp:45-55, when the creators are `Spline2DPartialDerivativeCreator`s sharing one cache: for each
derivative dimension in order, create the instance (spline_2d_partial_derivative.hpp:132-140) and evaluate it. -/
def gradient (build : F → C) (deriv : Dim → C → D) (dims : List Dim) (s : State C) (field : F) :
    State C × List (Dim × Option D) :=
  dims.foldl
    (fun acc dim =>
      let s' := computeCoeffs build acc.1 dim field
      (s', acc.2 ++ [(dim, evalDeriv deriv s' dim)]))
    (s, [])

/-- A time loop: the gradient of each field in turn, with the same creator (gradient_creator.hpp:45-55). -/
def gradients (build : F → C) (deriv : Dim → C → D) (dims : List Dim) (s : State C) : List F → List (List (Dim × Option D))
  | [] => []
  | f :: fs => (gradient build deriv dims s f).2 :: gradients build deriv dims (gradient build deriv dims s f).1 fs

end Verif.SplineCache
