import Verif.Model.Fdm
import Mathlib.Data.Real.Basic

/-!
# Partial derivative objects and the fields they were made from

Model of the life of objects of the classes derived from `IPartialDerivative` (`src/math_tools/ipartial_derivative.hpp`):
`CentralFDMPartialDerivative` (`src/math_tools/central_fdm_partial_derivatives.hpp`), `CentralFDMPartialDerivativeWithBValue`
(`src/math_tools/central_fdm_partial_derivatives_with_boundary_values.hpp`), `Spline1DPartialDerivative`
(`src/math_tools/spline_1d_partial_derivative.hpp`), `ConstantPartialDerivative` (`src/math_tools/constant_partial_derivatives.hpp`), of
`GradientCreator` (`src/math_tools/gradient_creator.hpp`) over such creators, and of `PoissonLikeRHSFunction`
(`src/geometryRTheta/poisson/poisson_like_rhs_function.hpp`).

One line of the batch: a field is `n` numbers; the memory maps the name of a field to its numbers.  DDC's spline builder and evaluator are
arbitrary functions `build` and `evalDeriv`.
-/
namespace Verif.PartialDerivs

/-- A creator (or the arguments of the constructor other than the field): which class, on which grid. Used in the model of `central_fdm_partial_derivatives.hpp:229-234`. -/
inductive Kind (C : Type)
  /-- `CentralFDMPartialDerivativeCreator`, central_fdm_partial_derivatives.hpp 206-235 -/
  | fdm (n : ℕ) (x : ℕ → ℝ)
  /-- the same class in a periodic dimension, central_fdm_partial_derivatives.hpp 122-155 -/
  | fdmPeriodic (n : ℕ) (len : ℝ) (x : ℕ → ℝ)
  /-- `CentralFDMPartialDerivativeWithBValueCreator`, central_fdm_partial_derivatives_with_boundary_values.hpp 57-68 -/
  | fdmB (n : ℕ) (x : ℕ → ℝ) (bl br : ℝ)
  /-- `Spline1DPartialDerivativeCreator`, spline_1d_partial_derivative.hpp 93-138 -/
  | spline (n : ℕ) (build : (ℕ → ℝ) → C) (evalDeriv : C → ℕ → ℝ)
  /-- `ConstantPartialDerivativeCreator`, constant_partial_derivatives.hpp 56-85 -/
  | const (n : ℕ) (v : ℝ)

/-- An object: what its members hold. Used in the model of `central_fdm_partial_derivatives.hpp:229-234`. -/
inductive Obj (C : Type)
  /-- member `m_field`, central_fdm_partial_derivatives.hpp 49 -/
  | fdm (n : ℕ) (x : ℕ → ℝ) (field : ℕ → ℝ)
  /-- member `m_field`, central_fdm_partial_derivatives.hpp 49 -/
  | fdmPeriodic (n : ℕ) (len : ℝ) (x : ℕ → ℝ) (field : ℕ → ℝ)
  /-- members `m_field`, `m_b_value_left`, `m_b_value_right`, central_fdm_partial_derivatives_with_boundary_values.hpp 47-49 -/
  | fdmB (n : ℕ) (x : ℕ → ℝ) (bl br : ℝ) (field : ℕ → ℝ)
  /-- member `m_spline_coefs`, spline_1d_partial_derivative.hpp 44 -/
  | spline (n : ℕ) (evalDeriv : C → ℕ → ℝ) (coefs : C)
  /-- member `m_deriv_value`, constant_partial_derivatives.hpp 26 -/
  | const (n : ℕ) (v : ℝ)

variable {C : Type}

/-- The copy made by `ddc::parallel_deepcopy(get_field(m_field), field_ref)` (central_fdm_partial_derivatives.hpp 57-61): the `n` values of the
field, nothing after them (0 stands for memory outside of the array). -/
def snapshot (n : ℕ) (f : ℕ → ℝ) : ℕ → ℝ := fun i => if i < n then f i else 0

/-- `create_instance(field)` (central_fdm_partial_derivatives.hpp 229-234, central_fdm_partial_derivatives_with_boundary_values.hpp 59-68,
spline_1d_partial_derivative.hpp 54-63, constant_partial_derivatives.hpp 79-84). -/
def create (f : ℕ → ℝ) : Kind C → Obj C
  | .fdm n x => .fdm n x (snapshot n f)
  | .fdmPeriodic n len x => .fdmPeriodic n len x (snapshot n f)
  | .fdmB n x bl br => .fdmB n x bl br (snapshot n f)
  | .spline n build ev => .spline n ev (build (snapshot n f))
  | .const n v => .const n v

/-- Number of points over which `operator()` writes, and the value written at a point: finite differences of the member
(central_fdm_partial_derivatives.hpp 70-175, central_fdm_partial_derivatives_with_boundary_values.hpp 77-160), derivative of the member spline
(spline_1d_partial_derivative.hpp 71-77), the constant (constant_partial_derivatives.hpp 42-45). -/
noncomputable def Obj.value : Obj C → ℕ × (ℕ → ℝ)
  | .fdm n x g => (n, Fdm.deriv n x g)
  | .fdmPeriodic n len x g => (n, Fdm.derivPeriodic n len x g)
  | .fdmB n x bl br g => (n, Fdm.derivB n x g bl br)
  | .spline n ev c => (n, ev c)
  | .const n v => (n, fun _ => v)

/-- The state of a program: the fields of the caller and the objects made so far. Sequence of calls of the constructors and of ipartial_derivative.hpp:45 (`operator()`). -/
structure St (C : Type) where
  mem : ℕ → ℕ → ℝ
  objs : List (Obj C)

/-- What a program does. Sequence of calls of the constructors and of ipartial_derivative.hpp:45 (`operator()`). -/
inductive Op (C : Type)
  /-- the caller changes one value of a field -/
  | write (a i : ℕ) (v : ℝ)
  /-- a new object is made from a field (its number is the number of objects before) -/
  | make (k : Kind C) (a : ℕ)
  /-- `object(differentiated_field)` -/
  | apply (o dst : ℕ)

/-- Assignment of one element of a field (`differentiated_field(ibx) = ...`, central_fdm_partial_derivatives.hpp 96). -/
def set (mem : ℕ → ℕ → ℝ) (a i : ℕ) (v : ℝ) : ℕ → ℕ → ℝ := fun b j => if b = a ∧ j = i then v else mem b j

/-- `operator()(differentiated_field)`: one element after the other is written (`ddc::parallel_for_each`,
central_fdm_partial_derivatives.hpp 161-173; the order does not matter since the members are only read). -/
noncomputable def applyObj (mem : ℕ → ℕ → ℝ) (o : Obj C) (dst : ℕ) : ℕ → ℕ → ℝ :=
  (List.range o.value.1).foldl (fun m i => set m dst i (o.value.2 i)) mem

/-- One step of a program; using an object which does not exist does nothing (not expressible in the program). Sequence of calls of the constructors and of ipartial_derivative.hpp:45 (`operator()`). -/
noncomputable def step (s : St C) : Op C → St C
  | .write a i v => { s with mem := set s.mem a i v }
  | .make k a => { s with objs := s.objs ++ [create (s.mem a) k] }
  | .apply o dst =>
    match s.objs[o]? with
    | some x => { s with mem := applyObj s.mem x dst }
    | none => s

/-- A history of a program. Sequence of calls of the constructors and of ipartial_derivative.hpp:45 (`operator()`). -/
noncomputable def run (s : St C) (ops : List (Op C)) : St C := ops.foldl step s

/-- `GradientCreator::operator()(grad, func)` (gradient_creator.hpp 45-55): for each dimension in order an instance is made from `func` and
applied to the component of the result; the instance is destroyed. -/
noncomputable def gradient (mem : ℕ → ℕ → ℝ) (func : ℕ) : List (Kind C × ℕ) → ℕ → ℕ → ℝ
  | [] => mem
  | (k, dst) :: ks => gradient (applyObj mem (create (mem func) k) dst) func ks

/-- `PoissonLikeRHSFunction::operator()` (poisson_like_rhs_function.hpp 46-63): the member is a view of the coefficients of the caller. -/
def rhsFunction {Coord : Type} (evaluate : (ℕ → ℝ) → Coord → ℝ) (mem : ℕ → ℕ → ℝ) (coefs : ℕ) (x : Coord) : ℝ := evaluate (mem coefs) x

end Verif.PartialDerivs
