import Mathlib.Algebra.BigOperators.Group.Finset.Basic
import Mathlib.Algebra.Ring.Defs
import Mathlib.LinearAlgebra.Matrix.Defs

/-!
# What "the vector solves the linear system" means

Independent of the model: entries are functions of row and column, vectors functions of the index.
-/

namespace Verif.LinearSystem

/-- `A x = b` for the leading `n × n` part of `A`. -/
def Solves {α : Type*} [CommRing α] (n : ℕ) (A : ℕ → ℕ → α) (x b : ℕ → α) : Prop :=
  ∀ i < n, ∑ j ∈ Finset.range n, A i j * x j = b i

/-- The transposed entries. -/
def transpose {α : Type*} (A : ℕ → ℕ → α) : ℕ → ℕ → α := fun i j => A j i

/-- The leading `n × n` part as a Mathlib matrix. -/
def mat {α : Type*} (n : ℕ) (A : ℕ → ℕ → α) : Matrix (Fin n) (Fin n) α := fun i j => A i j

/-- The `2 × 2` block matrix with blocks `Q` (`nb × nb`), `G`, `Lam`, `D`, blocks being indexed by
(row, column) from zero. -/
def blocks {α : Type*} (nb : ℕ) (Q G Lam D : ℕ → ℕ → α) : ℕ → ℕ → α := fun i j =>
  if i < nb then (if j < nb then Q i j else G i (j - nb))
  else (if j < nb then Lam (i - nb) j else D (i - nb) (j - nb))

end Verif.LinearSystem
