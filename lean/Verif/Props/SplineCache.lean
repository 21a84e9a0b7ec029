import Verif.Model.SplineCache
import Mathlib.Data.List.Induction

/-!
# C71: shared spline coefficients are those of the field being differentiated
-/

namespace Verif.SplineCache

variable {F C D : Type*}

/-- Specification: the field presented by the last call made with the dimension `lead`. -/
def lastOf (lead : Dim) : List (Dim × F) → Option F
  | [] => none
  | (d, f) :: rest => match lastOf lead rest with
    | some g => some g
    | none => if d = lead then some f else none

theorem lastOf_append (lead : Dim) (a : List (Dim × F)) (d : Dim) (f : F) :
    lastOf lead (a ++ [(d, f)]) = if d = lead then some f else lastOf lead a := by
  induction a with
  | nil => simp [lastOf]
  | cons x xs ih =>
    obtain ⟨e, g⟩ := x
    simp only [List.cons_append, lastOf, ih]
    by_cases h : d = lead <;> simp [h]

/-- The flags after the first call made with the dimension `lead`. -/
def flags (lead : Dim) (s : State C) : Prop := match lead with
  | .d1 => s.compute1 = true ∧ s.compute2 = false
  | .d2 => s.compute1 = false ∧ s.compute2 = true

theorem computeCoeffs_lead (build : F → C) (lead : Dim) (s : State C) (h : flags lead s) (d : Dim) (f : F) :
    flags lead (computeCoeffs build s d f) ∧
      (computeCoeffs build s d f).coeffs = if d = lead then some (build f) else s.coeffs := by
  cases lead <;> cases d <;> simp_all [flags, computeCoeffs]

theorem run_append (build : F → C) (s : State C) (a b : List (Dim × F)) : run build s (a ++ b) = run build (run build s a) b := by
  simp [run, List.foldl_append]

theorem run_flags (build : F → C) (lead : Dim) (f0 : F) (calls : List (Dim × F)) :
    flags lead (run build (init C) ((lead, f0) :: calls)) ∧
      (run build (init C) ((lead, f0) :: calls)).coeffs = (lastOf lead ((lead, f0) :: calls)).map build := by
  induction calls using List.reverseRecOn with
  | nil => cases lead <;> simp [run, computeCoeffs, init, flags, lastOf]
  | append_singleton xs x ih =>
    obtain ⟨d, f⟩ := x
    rw [← List.cons_append, run_append, lastOf_append]
    obtain ⟨h1, h2⟩ := computeCoeffs_lead build lead (run build (init C) ((lead, f0) :: xs)) ih.1 d f
    refine ⟨h1, ?_⟩
    show (computeCoeffs build (run build (init C) ((lead, f0) :: xs)) d f).coeffs = _
    rw [h2, ih.2]
    by_cases h : d = lead <;> simp [h]

/-- **C71** Whatever the sequence of calls, the cache holds the spline of the field given to the last call made with the *leading* dimension, the one
of the very first call; calls made with the other dimension never change it. -/
theorem c71_cache_contents (build : F → C) (lead : Dim) (f0 : F) (calls : List (Dim × F)) :
    (run build (init C) ((lead, f0) :: calls)).coeffs = (lastOf lead ((lead, f0) :: calls)).map build :=
  (run_flags build lead f0 calls).2

/-- **C71** Under the documented protocol — a new field is always presented through the leading dimension before the other one asks for it — every
call returns the coefficients of the field it was given. -/
theorem c71_protocol (build : F → C) (lead : Dim) (f0 : F) (calls : List (Dim × F)) (d : Dim) (f : F)
    (h : d = lead ∨ lastOf lead ((lead, f0) :: calls) = some f) :
    (run build (init C) ((lead, f0) :: calls ++ [(d, f)])).coeffs = some (build f) := by
  rw [List.cons_append, c71_cache_contents, ← List.cons_append, lastOf_append]
  by_cases hd : d = lead
  · simp [hd]
  · simp [hd, h.resolve_left hd]

example : (run (fun n : ℕ => n + 10) (init ℕ) [(.d2, 1), (.d1, 1), (.d2, 5), (.d1, 5)]).coeffs = some 15 := rfl

/-- **C71** Outside the protocol the coefficients are stale: a field presented through the other dimension only is ignored, without any diagnostic. -/
theorem c71_stale (build : F → C) (lead other : Dim) (hne : other ≠ lead) (f g : F) :
    (run build (init C) [(lead, f), (other, g)]).coeffs = some (build f) := by
  rw [c71_cache_contents]
  cases lead <;> cases other <;> simp_all [lastOf]

/-- … so with two different fields the returned coefficients are wrong as soon as the builder distinguishes them. -/
theorem c71_stale_wrong (build : F → C) (lead other : Dim) (hne : other ≠ lead) (f g : F) (h : build f ≠ build g) :
    (run build (init C) [(lead, f), (other, g)]).coeffs ≠ some (build g) := by
  rw [c71_stale build lead other hne]
  simpa using h

example : (run (fun n : ℕ => n + 10) (init ℕ) [(.d1, 1), (.d2, 5)]).coeffs ≠ some 15 :=
  c71_stale_wrong _ .d1 .d2 (by decide) 1 5 (by decide)

/-- **C71** A derivative object does not keep its own coefficients: creating a second object of the leading dimension for another field on the
same cache silently makes the first one return the derivative of that other field. -/
theorem c71_instances_share (build : F → C) (deriv : Dim → C → D) (lead d : Dim) (f g : F) :
    evalDeriv deriv (run build (init C) [(lead, f), (lead, g)]) d = some (deriv d (build g)) := by
  simp [evalDeriv, c71_cache_contents, lastOf]

theorem gradient_ready (build : F → C) (deriv : Dim → C → D) (lead other : Dim) (hne : other ≠ lead) (s : State C)
    (hs : s = init C ∨ flags lead s) (f : F) :
    (gradient build deriv [lead, other] s f).2 =
        [(lead, some (deriv lead (build f))), (other, some (deriv other (build f)))] ∧
      flags lead (gradient build deriv [lead, other] s f).1 := by
  rcases hs with rfl | hs
  · cases lead <;> cases other <;> simp_all [gradient, computeCoeffs, evalDeriv, flags, init]
  · cases lead <;> cases other <;> simp_all [gradient, computeCoeffs, evalDeriv, flags]

theorem gradients_ready (build : F → C) (deriv : Dim → C → D) (lead other : Dim) (hne : other ≠ lead) (fs : List F) :
    ∀ s : State C, (s = init C ∨ flags lead s) →
      gradients build deriv [lead, other] s fs =
        fs.map fun f => [(lead, some (deriv lead (build f))), (other, some (deriv other (build f)))] := by
  induction fs with
  | nil => intro s _; rfl
  | cons f fs ih =>
    intro s hs
    have h := gradient_ready build deriv lead other hne s hs f
    rw [gradients, h.1, ih _ (Or.inr h.2), List.map_cons]

/-- **C71** A gradient creator whose two creators share a cache gives, for every sequence of fields, both derivatives of each field, in the order
of its dimensions. -/
theorem c71_gradients (build : F → C) (deriv : Dim → C → D) (lead other : Dim) (hne : other ≠ lead) (fs : List F) :
    gradients build deriv [lead, other] (init C) fs =
      fs.map fun f => [(lead, some (deriv lead (build f))), (other, some (deriv other (build f)))] :=
  gradients_ready build deriv lead other hne fs _ (Or.inl rfl)

/-- Two gradient creators with opposite orders on the same cache: the second one returns, for its first component, a derivative of the previous
field. -/
theorem c71_opposite_orders (build : F → C) (deriv : Dim → C → D) (lead other : Dim) (hne : other ≠ lead) (f g : F) :
    (gradient build deriv [other, lead] (gradient build deriv [lead, other] (init C) f).1 g).2 =
      [(other, some (deriv other (build f))), (lead, some (deriv lead (build g)))] := by
  cases lead <;> cases other <;> simp_all [gradient, computeCoeffs, evalDeriv, init]

example : gradients (fun n : ℕ => n) (fun _ c => c) [.d1, .d2] (init ℕ) [3, 4] =
    [[(.d1, some 3), (.d2, some 3)], [(.d1, some 4), (.d2, some 4)]] := rfl

end Verif.SplineCache
