import Mathlib.Algebra.BigOperators.Group.Finset.Basic
import Mathlib.Logic.Function.Basic
/-!
# Specification of Einstein summation

Index letters are characters; an assignment gives to every letter a position in its index set.
-/
namespace Verif.Spec

/-- The iterated sum of `F` over all the values of the letters of the list (letter, number of values), the other letters
keeping the value given by `a`. -/
def einsum {R : Type*} [AddCommMonoid R] : List (Char × ℕ) → (Char → ℕ) → ((Char → ℕ) → R) → R
  | [], a, F => F a
  | (c, n) :: cs, a, F => ∑ k ∈ Finset.range n, einsum cs (Function.update a c k) F

/-- The tags selected by an assignment in an index pattern such as `i: {x,y}, j: {r,t}`. -/
def pick {T : Type*} [Inhabited T] (a : Char → ℕ) (pattern : List (Char × List T)) : List T :=
  pattern.map fun p => p.2.getD (a p.1) default

/-- `rep` lists the letters that occur twice in the pattern, with the sizes of their index sets, in any order. -/
def Repeated {T : Type*} (all : List (Char × List T)) (rep : List (Char × ℕ)) : Prop :=
  (rep.map (·.1)).Nodup ∧
    ∀ c n, (c, n) ∈ rep ↔ (all.map (·.1)).count c = 2 ∧ ∃ p ∈ all, p.1 = c ∧ p.2.length = n

end Verif.Spec
