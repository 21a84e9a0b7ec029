import Mathlib.Data.Real.Sqrt
import Mathlib.Data.Real.Basic

/-!
# Discrete norms (src/math_tools/l_norm_tools.hpp)

A field on an index range `ι` is a function. A parallel reduction visits the range along an arbitrary tree.
-/

namespace Verif.Norms

/-- Reduction tree of a parallel reduction over an index range: `parallel_transform_reduce` may combine the values with any
bracketing and in any order; `idle` is a thread without work, contributing the neutral element. Used in the model of `l_norm_tools.hpp:77-93`. -/
inductive Tree (ι : Type*) where
  | idle : Tree ι
  | leaf : ι → Tree ι
  | node : Tree ι → Tree ι → Tree ι

/-- The indices at the leaves, from left to right. Used for l_norm_tools.hpp:78-115. -/
def Tree.indices {ι : Type*} : Tree ι → List ι
  | .idle => []
  | .leaf b => [b]
  | .node l r => l.indices ++ r.indices

/-- The result of the reduction with operation `op` and neutral element `e` of the values `f`. Used in the model of `l_norm_tools.hpp:77-93`. -/
def Tree.reduce {ι γ : Type*} (op : γ → γ → γ) (e : γ) (f : ι → γ) : Tree ι → γ
  | .idle => e
  | .leaf b => f b
  | .node l r => op (l.reduce op e f) (r.reduce op e f)

variable {ι : Type*}

/-- `norm_inf(Coord)` and `norm_inf(DVector)`, l_norm_tools.hpp:26-55: fold over the components. -/
noncomputable def normInfVec (v : List ℝ) : ℝ := v.foldl (fun result c => max result |c|) 0

/-- `detail::norm_inf`, l_norm_tools.hpp:77-93, for scalar elements (`norm_inf(double)` is `fabs`, 68-71). The initial
value is `0.` and the reducer is `max`. (Kokkos' own neutral element of `max` is the lowest double; combined with the
initial value `0` and non-negative values this is the same as `0`.) -/
noncomputable def normInf (t : Tree ι) (f : ι → ℝ) : ℝ := max 0 (t.reduce max 0 (fun i => |f i|))

/-- `detail::norm_inf`, l_norm_tools.hpp:77-93, for vector elements. -/
noncomputable def normInfField (t : Tree ι) (f : ι → List ℝ) : ℝ := max 0 (t.reduce max 0 (fun i => normInfVec (f i)))

/-- `detail::error_norm_inf`, l_norm_tools.hpp:97-115. -/
noncomputable def errorNormInf (t : Tree ι) (f g : ι → ℝ) : ℝ := max 0 (t.reduce max 0 (fun i => |f i - g i|))

/-- `norm_L1`, l_norm_tools.hpp:238-248; `q` are the quadrature coefficients and the quadrature is a sum reduction
(quadrature.hpp:84-101). -/
noncomputable def normL1 (t : Tree ι) (q f : ι → ℝ) : ℝ := 0 + t.reduce (· + ·) 0 (fun i => q i * |f i|)

/-- `error_norm_L1`, l_norm_tools.hpp:258-271. -/
noncomputable def errorNormL1 (t : Tree ι) (q f g : ι → ℝ) : ℝ := 0 + t.reduce (· + ·) 0 (fun i => q i * |f i - g i|)

/-- `norm_L2`, l_norm_tools.hpp:288-298. -/
noncomputable def normL2 (t : Tree ι) (q f : ι → ℝ) : ℝ :=
  Real.sqrt (0 + t.reduce (· + ·) 0 (fun i => q i * (f i * f i)))

/-- `error_norm_L2`, l_norm_tools.hpp:308-322. -/
noncomputable def errorNormL2 (t : Tree ι) (q f g : ι → ℝ) : ℝ :=
  Real.sqrt (0 + t.reduce (· + ·) 0 (fun i => q i * ((f i - g i) * (f i - g i))))

end Verif.Norms
