import Verif.Model.SplineBuilderDeriv
import Verif.Props.DerivField

/-!
# C78: the data given to the builder of a Hermite spline
-/

namespace Verif.SplineBuilderDeriv
open Verif.DerivField

/-- The field keeps `g o1 o2 x y` (derivative of orders `o1`, `o2` at the point `x`, `y`) in each of its elements. -/
def Holds (d : Desc) (mem : ℕ × ℕ → ℝ) (g : ℕ → ℕ → ℤ → ℤ → ℝ) : Prop :=
  ∀ e c, cell d e = some c → mem c = g (e.ord 0) (e.ord 1) (e.pos 0) (e.pos 1)

/-- The hypotheses: points on the grids, derivatives up to the orders the builder wants, kept at both ends of both grids. -/
structure Ok (d : Desc) (b : Nbv) : Prop where
  ddims : d.ddims = [.der 0, .grid 0, .der 1, .grid 1]
  stride : ∀ k, 0 < d.sStride k
  size : 1 ≤ d.size 0 ∧ 1 ≤ d.size 1
  orders : b.min1 ≤ d.nDerivs ∧ b.max1 ≤ d.nDerivs ∧ b.min2 ≤ d.nDerivs ∧ b.max2 ≤ d.nDerivs
  ends : ∀ k, InSlice d k (d.front k) ∧ InSlice d k (d.front k + d.size k - 1)

theorem ok_wf {d : Desc} {b : Nbv} (h : Ok d b) : WF d := ⟨by rw [h.ddims]; decide, h.stride⟩

theorem read_eq {d : Desc} {b : Nbv} (h : Ok d b) (mem : ℕ × ℕ → ℝ) (g : ℕ → ℕ → ℤ → ℤ → ℝ) (hg : Holds d mem g) (x y : ℤ) (o1 o2 : ℕ)
    (h1 : o1 ≤ d.nDerivs) (h2 : o2 ≤ d.nDerivs)
    (hx : if o1 = 0 then d.front 0 ≤ x ∧ x < d.front 0 + d.size 0 else InSlice d 0 x)
    (hy : if o2 = 0 then d.front 1 ≤ y ∧ y < d.front 1 + d.size 1 else InSlice d 1 y) :
    read d mem x y o1 o2 = some (g o1 o2 x y) := by
  have hv : Valid d ⟨fun k => if k = 0 then x else y, fun k => if k = 0 then o1 else o2⟩ := by
    constructor
    · intro k hk
      simp only [h.ddims, List.mem_cons, Tag.der.injEq, reduceCtorEq, List.not_mem_nil, or_false, false_or] at hk
      rcases hk with rfl | rfl
      · simpa using h1
      · simpa using h2
    · intro k hk _ h0
      simp only [h.ddims, List.mem_cons, Tag.grid.injEq, reduceCtorEq, List.not_mem_nil, or_false, false_or] at hk
      rcases hk with rfl | rfl
      · simp only [if_true] at h0 ⊢; rw [if_neg h0] at hx; exact hx
      · simp only [one_ne_zero, if_false] at h0 ⊢; rw [if_neg h0] at hy; exact hy
    · intro k hk hc
      simp only [h.ddims, List.mem_cons, Tag.grid.injEq, reduceCtorEq, List.not_mem_nil, or_false, false_or] at hk
      rcases hk with rfl | rfl
      · have h0 : o1 = 0 := by
          by_contra h0
          exact hc ⟨by simp [h.ddims], by simpa using h0⟩
        simp only [if_true]; rw [if_pos h0] at hx; exact hx
      · have h0 : o2 = 0 := by
          by_contra h0
          exact hc ⟨by simp [h.ddims], by simpa using h0⟩
        simp only [one_ne_zero, if_false]; rw [if_pos h0] at hy; exact hy
  obtain ⟨c, hc⟩ := (c77_access (ok_wf h) _).1.2 hv
  rw [read, hc, Option.map_some, hg _ c hc]
  rfl

/-- **C78** For all numbers of boundary conditions, grids and positions of the derivatives including the ends of the grids, the builder gets the values at all points of the grid, the derivatives normal to each of the four
edges at all points of that edge, and the mixed derivatives at each of the four corners, in the arguments for that edge or corner. -/
theorem c78_arguments {d : Desc} {b : Nbv} (h : Ok d b) (mem : ℕ × ℕ → ℝ) (g : ℕ → ℕ → ℤ → ℤ → ℝ) (hg : Holds d mem g) :
    let x0 := d.front 0
    let x1 := d.front 0 + d.size 0 - 1
    let y0 := d.front 1
    let y1 := d.front 1 + d.size 1 - 1
    let A := operatorCall d mem b
    (∀ x y, x0 ≤ x → x ≤ x1 → y0 ≤ y → y ≤ y1 → A.func x y = some (g 0 0 x y)) ∧
    (∀ o y, y0 ≤ y → y ≤ y1 → (1 ≤ o → o ≤ b.min1 → A.deriv1Min o y = some (g o 0 x0 y)) ∧ (1 ≤ o → o ≤ b.max1 → A.deriv1Max o y = some (g o 0 x1 y))) ∧
    (∀ o x, x0 ≤ x → x ≤ x1 → (1 ≤ o → o ≤ b.min2 → A.deriv2Min x o = some (g 0 o x y0)) ∧ (1 ≤ o → o ≤ b.max2 → A.deriv2Max x o = some (g 0 o x y1))) ∧
    (∀ o o', 1 ≤ o → 1 ≤ o' → (o ≤ b.min1 → o' ≤ b.min2 → A.minMin o o' = some (g o o' x0 y0)) ∧ (o ≤ b.max1 → o' ≤ b.min2 → A.maxMin o o' = some (g o o' x1 y0)) ∧
      (o ≤ b.min1 → o' ≤ b.max2 → A.minMax o o' = some (g o o' x0 y1)) ∧ (o ≤ b.max1 → o' ≤ b.max2 → A.maxMax o o' = some (g o o' x1 y1))) := by
  obtain ⟨s1, s2⟩ := h.size
  obtain ⟨n1, n2, n3, n4⟩ := h.orders
  have e0 := h.ends 0
  have e1 := h.ends 1
  refine ⟨?_, ?_, ?_, ?_⟩
  · intro x y a1 a2 a3 a4
    exact read_eq h mem g hg x y 0 0 (by omega) (by omega) (by rw [if_pos rfl]; omega) (by rw [if_pos rfl]; omega)
  · intro o y a1 a2
    refine ⟨fun o1 o2 => ?_, fun o1 o2 => ?_⟩
    · simp only [operatorCall, fillDeriv1]
      rw [if_pos (by omega)]
      exact read_eq h mem g hg _ y o 0 (by omega) (by omega) (by rw [if_neg (by omega)]; exact e0.1) (by rw [if_pos rfl]; omega)
    · simp only [operatorCall, fillDeriv1]
      rw [if_pos (by omega)]
      exact read_eq h mem g hg _ y o 0 (by omega) (by omega) (by rw [if_neg (by omega)]; exact e0.2) (by rw [if_pos rfl]; omega)
  · intro o x a1 a2
    refine ⟨fun o1 o2 => ?_, fun o1 o2 => ?_⟩
    · simp only [operatorCall, fillDeriv2]
      rw [if_pos (by omega)]
      exact read_eq h mem g hg x _ 0 o (by omega) (by omega) (by rw [if_pos rfl]; omega) (by rw [if_neg (by omega)]; exact e1.1)
    · simp only [operatorCall, fillDeriv2]
      rw [if_pos (by omega)]
      exact read_eq h mem g hg x _ 0 o (by omega) (by omega) (by rw [if_pos rfl]; omega) (by rw [if_neg (by omega)]; exact e1.2)
  · intro o o' ho ho'
    refine ⟨fun o1 o2 => ?_, fun o1 o2 => ?_, fun o1 o2 => ?_, fun o1 o2 => ?_⟩ <;>
      simp only [operatorCall, fillCross] <;> rw [if_pos (by omega)]
    · exact read_eq h mem g hg _ _ o o' (by omega) (by omega) (by rw [if_neg (by omega)]; exact e0.1) (by rw [if_neg (by omega)]; exact e1.1)
    · exact read_eq h mem g hg _ _ o o' (by omega) (by omega) (by rw [if_neg (by omega)]; exact e0.2) (by rw [if_neg (by omega)]; exact e1.1)
    · exact read_eq h mem g hg _ _ o o' (by omega) (by omega) (by rw [if_neg (by omega)]; exact e0.1) (by rw [if_neg (by omega)]; exact e1.2)
    · exact read_eq h mem g hg _ _ o o' (by omega) (by omega) (by rw [if_neg (by omega)]; exact e0.2) (by rw [if_neg (by omega)]; exact e1.2)

/-- **C78** (nothing else) The fields given to the builder have no other orders. -/
theorem c78_orders (d : Desc) (mem : ℕ × ℕ → ℝ) (b : Nbv) (o : ℕ) (y : ℤ) :
    ((operatorCall d mem b).deriv1Min o y ≠ none → 1 ≤ o ∧ o ≤ b.min1) ∧ ((operatorCall d mem b).deriv1Max o y ≠ none → 1 ≤ o ∧ o ≤ b.max1) ∧
    ((operatorCall d mem b).deriv2Min y o ≠ none → 1 ≤ o ∧ o ≤ b.min2) ∧ ((operatorCall d mem b).deriv2Max y o ≠ none → 1 ≤ o ∧ o ≤ b.max2) := by
  simp only [operatorCall, fillDeriv1, fillDeriv2]
  refine ⟨?_, ?_, ?_, ?_⟩ <;> intro hh <;> split at hh <;> first | omega | exact absurd rfl hh

/-- **C78** (finding) The comment at the start of `operator()` says that the derivatives the builder needs are checked to be in the field; nothing is checked. If the field has fewer derivatives than the builder wants, the
copy reads outside of the arrays. -/
theorem c78_unchecked (d : Desc) (hd : d.ddims = [.der 0, .grid 0, .der 1, .grid 1]) (hs : ∀ k, 0 < d.sStride k) (mem : ℕ × ℕ → ℝ) (x y : ℤ) (o : ℕ) (ho : d.nDerivs < o) :
    read d mem x y o 0 = none := by
  have hwf : WF d := ⟨by rw [hd]; decide, hs⟩
  rw [read]
  cases hc : cell d ⟨fun k => if k = 0 then x else y, fun k => if k = 0 then o else 0⟩ with
  | none => rfl
  | some c =>
    have := ((c77_access hwf _).1.1 ⟨c, hc⟩).ord 0 (by rw [hd]; simp)
    simp at this
    omega

/-- The hypotheses are met: 5 by 5 points, one derivative at the ends. -/

example : Ok (desc 5 5 (fun _ => 3) (fun _ => 3) (fun _ => 4) (fun _ => 2) 1) ⟨1, 1, 1, 0⟩ where
  ddims := rfl
  stride := fun _ => Nat.succ_pos 3
  size := ⟨by decide, by decide⟩
  orders := ⟨le_rfl, le_rfl, le_rfl, Nat.zero_le _⟩
  ends := fun k => ⟨⟨0, Nat.succ_pos 1, by simp [desc]⟩, ⟨1, Nat.lt_succ_self 1, by by_cases hk : k = 0 <;> simp [desc, hk]⟩⟩

/-- C78 (the field of the builder): for grids of any two sizes, a field whose derivatives are kept at the first and the last point of each grid, up to the orders the builder wants, meets the hypotheses of `c78_arguments`. -/
theorem c78_boundary_field {n1 n2 m : ℕ} (h1 : 2 ≤ n1) (h2 : 2 ≤ n2) (front : ℕ → ℤ) {b : Nbv} (hb : b.min1 ≤ m ∧ b.max1 ≤ m ∧ b.min2 ≤ m ∧ b.max2 ≤ m) :
    Ok (desc n1 n2 front front (fun k => if k = 0 then n1 - 1 else n2 - 1) (fun _ => 2) m) b where
  ddims := rfl
  stride := fun k => by by_cases hk : k = 0 <;> simp only [desc, hk, if_true, if_false] <;> omega
  size := ⟨show 1 ≤ n1 by omega, show 1 ≤ n2 by omega⟩
  orders := hb
  ends := fun k => ⟨⟨0, Nat.succ_pos 1, by simp [desc]⟩, ⟨1, Nat.lt_succ_self 1, by
    by_cases hk : k = 0 <;> simp only [desc, hk, if_true, if_false] <;> push_cast <;> omega⟩⟩

end Verif.SplineBuilderDeriv
