import Verif.Model.LagrangeEvaluator
import Mathlib.Logic.Function.Basic

/-!
# Lagrange interpolation in several dimensions

`src/interpolation/nd_lagrange_evaluator.hpp`, `src/interpolation/nd_identity_interpolation_builder.hpp`. As in `LagrangeEvaluator`:
break points of one dimension numbered `0 .. Nl`, `double` is `ℝ`, no batch dimension (the coefficients are those of one batch index).
-/

namespace Verif.NDLagrange

open Verif.LagrangeEvaluator

/-- What the recursion uses of a 1D `LagrangeEvaluator` and of its basis: `find_stencil` (lagrange_evaluator.hpp:488-523) with its `getclosest`,
and `eval_basis` (order 0) or column `order` of `eval_basis_and_n_derivs` (552-571). -/
structure Ev1 where
  periodic : Bool
  D : ℕ
  Nl : ℕ
  len : ℝ
  knot : ℕ → ℝ
  closest : ℝ → Option ℕ
  basis : ℕ → ℤ → ℝ → ℕ → ℝ

/-- `LagrangeEvaluator::eval_no_bc`, lagrange_evaluator.hpp:525-578. -/
noncomputable def Ev1.noBc (e : Ev1) (order : ℕ) (coef : ℕ → ℝ) (x : ℝ) : Option ℝ :=
  evalNoBc e.periodic e.D e.Nl e.len e.knot e.closest (e.basis order) coef x

/-- `NDLagrangeEvaluator::eval_no_bc`, nd_lagrange_evaluator.hpp:373-435. The list holds the head evaluator and the others, the coordinates and derivative orders are in
the same order. `coef` takes the list of the knots. When one evaluator is left it is its `eval_no_bc` that is called (432), not its `operator()`.
Lists of different lengths cannot occur (the dimensions are types). -/
noncomputable def ndEval : List Ev1 → List ℕ → (List ℕ → ℝ) → List ℝ → Option ℝ
  | [e], [o], coef, [x] => e.noBc o (fun k => coef [k]) x
  | e :: e' :: es, o :: os, coef, x :: xs =>
    (e.closest x).bind fun c =>
      let sx := findStencil e.periodic e.D e.Nl e.len e.knot c x
      (List.range (e.D + 1)).foldl
        (fun acc (i : ℕ) => acc.bind fun result =>
          (ndEval (e' :: es) os (fun ks => coef ((sx.1 + (i : ℤ)).toNat :: ks)) xs).map fun t => result + e.basis o sx.1 sx.2 i * t)
        (some 0)
  | _, _, _, _ => none

/-- `operator()` and `deriv` at a point, nd_lagrange_evaluator.hpp:164-170 and 262-270: both are `eval_no_bc`. -/
noncomputable def ndOperator (es : List Ev1) (coef : List ℕ → ℝ) (xs : List ℝ) : Option ℝ := ndEval es (es.map fun _ => 0) coef xs

/-- One dimension of the builder: the basis. Used in the model of `nd_identity_interpolation_builder.hpp:114-117`. -/
structure DimB where
  periodic : Bool
  D : ℕ
  Nl : ℕ

/-- Number of break points without the repeated one, nd_identity_interpolation_builder.hpp:114-117 and 164-166. -/
def DimB.bp (d : DimB) : ℕ := if d.periodic then d.Nl else d.Nl + 1

/-- Size of `full_domain()` of the basis (lagrange_basis_uniform.hpp, as in `buildCoeffs`). Used in the model of `nd_identity_interpolation_builder.hpp:153-183`. -/
def DimB.full (d : DimB) : ℕ := if d.periodic then d.Nl + (d.D + 1) else d.Nl + 1

variable {V : Type*}

/-- The coefficients (`none`: never written) and the range of each dimension recorded as filled (first index, size). Used in the model of `nd_identity_interpolation_builder.hpp:113-121`. -/
structure BState (V : Type*) where
  coef : (ℕ → ℕ) → Option V
  filled : ℕ → ℕ × ℕ

/-- The first copy, nd_identity_interpolation_builder.hpp:113-121. -/
def fill (n : ℕ) (dims : ℕ → DimB) (vals : (ℕ → ℕ) → V) : BState V where
  coef k := if ∀ d < n, k d < (dims d).bp then some (vals k) else none
  filled d := (0, (dims d).bp)

/-- `copy_periodic_data_on_dim`, nd_identity_interpolation_builder.hpp:153-183. `take_first(nrepeat)` beyond the range gives `none`. -/
def copyDim (n : ℕ) (dims : ℕ → DimB) (s : BState V) (d : ℕ) : BState V :=
  if (dims d).periodic then
    let ext0 := (dims d).bp
    let nrepeat := (dims d).full - (dims d).bp
    { coef := fun k =>
        if (ext0 ≤ k d ∧ k d < ext0 + nrepeat) ∧ ∀ j < n, j ≠ d → (s.filled j).1 ≤ k j ∧ k j < (s.filled j).1 + (s.filled j).2 then
          if k d - ext0 < (s.filled d).2 then s.coef (Function.update k d ((s.filled d).1 + (k d - ext0))) else none
        else s.coef k
      filled := Function.update s.filled d (ext0, nrepeat) }
  else s

/-- `operator()`, nd_identity_interpolation_builder.hpp:101-123, with `copy_periodic_data` (140-151): dimensions in order. -/
def build (n : ℕ) (dims : ℕ → DimB) (vals : (ℕ → ℕ) → V) : BState V :=
  (List.range n).foldl (copyDim n dims) (fill n dims vals)

end Verif.NDLagrange
