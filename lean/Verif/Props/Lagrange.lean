import Verif.Props.LagrangeComb
import Mathlib.LinearAlgebra.Lagrange
import Mathlib.Algebra.Polynomial.Taylor
import Mathlib.RingTheory.PowerSeries.Inverse
import Mathlib.RingTheory.PowerSeries.NoZeroDivisors
import Mathlib.Tactic.FieldSimp
import Mathlib.Tactic.NormNum
import Mathlib.Tactic.LinearCombination
import Mathlib.Tactic.Positivity

/-! # C17, C18: Lagrange bases and their derivatives

Specification: Mathlib's `Lagrange.basis (range (D+1)) xs j`, the unique polynomial of degree `D` which is 1 at `xs j`
and 0 at the other nodes, its value and its iterated derivatives. -/

namespace Verif.Lagrange

open Function Polynomial Finset

/-- The stencil nodes are pairwise different (a strictly increasing grid). -/
def Distinct (D : ℕ) (xs : ℕ → ℝ) : Prop := Set.InjOn xs (Finset.range (D + 1))

/-! ## Folds as sums and products -/

theorem foldl_prod_ne (i : ℕ) (f : ℕ → ℝ) (N : ℕ) (a : ℝ) :
    (List.range N).foldl (fun num j => if i = j then num else num * f j) a
      = a * ∏ j ∈ (Finset.range N).erase i, f j := by
  induction N with
  | zero => simp
  | succ N ih =>
    rw [List.range_succ, List.foldl_append, ih, Finset.range_add_one]
    simp only [List.foldl_cons, List.foldl_nil]
    by_cases h : i = N
    · subst h; simp [Finset.erase_insert_eq_erase]
    · rw [if_neg h, Finset.erase_insert_of_ne (Ne.symm h), Finset.prod_insert (by simp)]; ring

theorem foldl_sum (f : ℕ → ℝ) (N : ℕ) (a : ℝ) :
    (List.range N).foldl (fun acc j => acc + f j) a = a + ∑ j ∈ Finset.range N, f j := by
  induction N with
  | zero => simp
  | succ N ih => rw [List.range_succ, List.foldl_append, ih, Finset.sum_range_succ]; simp; ring

theorem foldl_sub_ne (i : ℕ) (f : ℕ → ℝ) (N : ℕ) (a : ℝ) :
    (List.range N).foldl (fun acc j => if j = i then acc else acc - f j) a
      = a - ∑ j ∈ (Finset.range N).erase i, f j := by
  induction N with
  | zero => simp
  | succ N ih =>
    rw [List.range_succ, List.foldl_append, ih, Finset.range_add_one]
    simp only [List.foldl_cons, List.foldl_nil]
    by_cases h : N = i
    · subst h; simp [Finset.erase_insert_eq_erase]
    · rw [if_neg h, Finset.erase_insert_of_ne h, Finset.sum_insert (by simp)]; ring

theorem foldl_sub_range' (f : ℕ → ℝ) (s N : ℕ) (a : ℝ) :
    (List.range' s N).foldl (fun acc j => acc - f j) a = a - ∑ j ∈ Finset.Ico s (s + N), f j := by
  induction N with
  | zero => simp
  | succ N ih =>
    rw [List.range'_concat, List.foldl_append, ih, ← Nat.add_assoc, Finset.sum_Ico_succ_top (by omega)]
    simp; ring

/-! ## Values -/

theorem getWeights_eq (D : ℕ) (xs : ℕ → ℝ) (i : ℕ) :
    getWeights D xs i = Lagrange.nodalWeight (Finset.range (D + 1)) xs i := by
  rw [getWeights, foldl_prod_ne i (fun j => xs i - xs j), one_mul, Lagrange.nodalWeight,
    Finset.prod_inv_distrib, one_div]

theorem weightsU_eq (D i : ℕ) : weightsU D i = getWeights D (fun k => (k : ℝ)) i := rfl

theorem weights_uniform (D : ℕ) (x0 dx : ℝ) (i : ℕ) (hi : i ≤ D) :
    getWeights D (uniformNodes x0 dx) i * dx ^ D = weightsU D i ∨ dx = 0 := by
  by_cases hdx : dx = 0
  · exact Or.inr hdx
  left
  rw [weightsU_eq, getWeights, getWeights, foldl_prod_ne i (fun j => uniformNodes x0 dx i - uniformNodes x0 dx j),
    foldl_prod_ne i (fun j => (i : ℝ) - j)]
  have : ∏ j ∈ (Finset.range (D + 1)).erase i, (uniformNodes x0 dx i - uniformNodes x0 dx j)
      = dx ^ D * ∏ j ∈ (Finset.range (D + 1)).erase i, ((i : ℝ) - j) := by
    have hc : ((Finset.range (D + 1)).erase i).card = D := by
      rw [Finset.card_erase_of_mem (by simp; omega)]; simp
    have hp : dx ^ D = ∏ _j ∈ (Finset.range (D + 1)).erase i, dx := by rw [Finset.prod_const, hc]
    rw [hp, ← Finset.prod_mul_distrib]
    apply Finset.prod_congr rfl
    intro j _
    simp only [uniformNodes]; ring
  rw [this, one_mul, one_mul, one_div, one_div, mul_inv]
  field_simp

/-- Scaling all weights and all denominators by common factors changes nothing. -/
theorem valuesBetweenNodes_scale (D : ℕ) (w w' den den' : ℕ → ℝ) (a b : ℝ) (ha : a ≠ 0) (hb : b ≠ 0)
    (hw : ∀ i ≤ D, w' i = a * w i) (hd : ∀ i ≤ D, den' i = b * den i) (i : ℕ) (hi : i ≤ D) :
    valuesBetweenNodes D w' den' i = valuesBetweenNodes D w den i := by
  unfold valuesBetweenNodes
  rw [foldl_sum (fun j => w' j / den' j), foldl_sum (fun j => w j / den j), zero_add, zero_add]
  have : ∑ j ∈ Finset.range (D + 1), w' j / den' j = (a / b) * ∑ j ∈ Finset.range (D + 1), w j / den j := by
    rw [Finset.mul_sum]
    apply Finset.sum_congr rfl
    intro j hj
    have hj : j ≤ D := by simpa [Nat.lt_succ_iff] using hj
    rw [hw j hj, hd j hj, mul_div_mul_comm]
  rw [this, hw i hi, hd i hi, mul_div_mul_comm, mul_div_mul_left _ _ (div_ne_zero ha hb)]

theorem valuesBetweenNodes_eq (D : ℕ) (xs : ℕ → ℝ) (hxs : Distinct D xs) (x : ℝ)
    (hx : ∀ i ≤ D, x ≠ xs i) (j : ℕ) (hj : j ≤ D) :
    valuesBetweenNodes D (getWeights D xs) (fun k => x - xs k) j
      = (Lagrange.basis (Finset.range (D + 1)) xs j).eval x := by
  unfold valuesBetweenNodes
  have hmem : ∀ k, k ∈ Finset.range (D + 1) ↔ k ≤ D := fun k => by simp [Nat.lt_succ_iff]
  rw [foldl_sum (fun k => getWeights D xs k / (x - xs k)), zero_add]
  have hN : (Lagrange.nodal (Finset.range (D + 1)) xs).eval x ≠ 0 :=
    Lagrange.eval_nodal_not_at_node fun i hi => hx i ((hmem i).1 hi)
  have h1 : ∀ k ≤ D, (Lagrange.basis (Finset.range (D + 1)) xs k).eval x
      = (Lagrange.nodal (Finset.range (D + 1)) xs).eval x * (getWeights D xs k / (x - xs k)) := by
    intro k hk
    rw [Lagrange.eval_basis_not_at_node ((hmem k).2 hk) (hx k hk), getWeights_eq, div_eq_mul_inv]
  have hsum : (Lagrange.nodal (Finset.range (D + 1)) xs).eval x
      * ∑ k ∈ Finset.range (D + 1), getWeights D xs k / (x - xs k) = 1 := by
    rw [Finset.mul_sum]
    have := congrArg (Polynomial.eval x) (Lagrange.sum_basis hxs ⟨0, by simp⟩)
    rw [Polynomial.eval_finsetSum, Polynomial.eval_one] at this
    rw [← this]
    exact Finset.sum_congr rfl fun k hk => (h1 k ((hmem k).1 hk)).symm
  have hS : ∑ k ∈ Finset.range (D + 1), getWeights D xs k / (x - xs k) ≠ 0 := by
    intro h; rw [h, mul_zero] at hsum; exact zero_ne_one hsum
  rw [h1 j hj, div_eq_iff hS]
  linear_combination (-(getWeights D xs j / (x - xs j))) * hsum

theorem basis_eval_node (D : ℕ) (xs : ℕ → ℝ) (hxs : Distinct D xs) (node j : ℕ) (hn : node ≤ D) (hj : j ≤ D) :
    (Lagrange.basis (Finset.range (D + 1)) xs j).eval (xs node) = if j = node then 1 else 0 := by
  have hmem : ∀ k, k ∈ Finset.range (D + 1) ↔ k ≤ D := fun k => by simp [Nat.lt_succ_iff]
  split_ifs with h
  · subst h; exact Lagrange.eval_basis_self hxs ((hmem j).2 hj)
  · exact Lagrange.eval_basis_of_ne h ((hmem node).2 hn)

theorem checkIfNodeNU_none {eps : ℝ} {D : ℕ} {xs : ℕ → ℝ} {x : ℝ} (heps : 0 < eps)
    (h : checkIfNodeNU eps D xs x = none) : ∀ i ≤ D, x ≠ xs i := by
  intro i hi hxi
  unfold checkIfNodeNU at h
  rw [List.find?_eq_none] at h
  apply h i (by simp; omega)
  simp [hxi, heps]

theorem checkIfNodeNU_some {eps : ℝ} {D : ℕ} {xs : ℕ → ℝ} {x : ℝ} {i : ℕ}
    (h : checkIfNodeNU eps D xs x = some i) : i ≤ D ∧ |x - xs i| < eps := by
  unfold checkIfNodeNU at h
  have h1 := List.mem_of_find?_eq_some h
  have h2 := List.find?_some h
  simp at h1 h2
  exact ⟨by omega, h2⟩

/-- Non-uniform basis: the values returned are those of the Lagrange basis polynomials of the stencil at `x`, or at the
stencil node that is closer to `x` than the tolerance. -/
theorem c17_values_non_uniform (eps : ℝ) (heps : 0 < eps) (D : ℕ) (xs : ℕ → ℝ) (hxs : Distinct D xs) (x : ℝ) :
    ∃ x', (x' = x ∨ ∃ i ≤ D, x' = xs i ∧ |x - xs i| < eps) ∧
      ∀ j ≤ D, evalBasisNU eps D xs x j = (Lagrange.basis (Finset.range (D + 1)) xs j).eval x' := by
  unfold evalBasisNU
  cases h : checkIfNodeNU eps D xs x with
  | none => exact ⟨x, Or.inl rfl, fun j hj => valuesBetweenNodes_eq D xs hxs x (checkIfNodeNU_none heps h) j hj⟩
  | some i =>
    have hi := checkIfNodeNU_some h
    exact ⟨xs i, Or.inr ⟨i, hi.1, rfl, hi.2⟩, fun j hj => (basis_eval_node D xs hxs i j hi.1 hj).symm⟩

theorem uniform_distinct (D : ℕ) (x0 dx : ℝ) (hdx : 0 < dx) : Distinct D (uniformNodes x0 dx) := by
  intro a _ b _ h
  simp only [uniformNodes, add_right_inj, mul_eq_mul_right_iff, hdx.ne', or_false] at h
  exact_mod_cast h

theorem offset_node (x0 dx x : ℝ) (hdx : 0 < dx) (i : ℕ) :
    x - uniformNodes x0 dx i = dx * (offsetU x0 dx x - i) := by
  unfold uniformNodes offsetU; field_simp; ring

/-- The value of `check_if_node` on a uniform grid for `x` within the stencil. -/
theorem checkIfNodeU_spec (eps x0 dx x : ℝ) (heps : 0 ≤ eps) (heps1 : eps < 1 / 2) (hdx : 0 < dx) (D : ℕ)
    (hx0 : x0 ≤ x) (hxD : x ≤ uniformNodes x0 dx D) :
    (checkIfNodeU eps x0 dx x = none ∧ ∀ i ≤ D, x ≠ uniformNodes x0 dx i) ∨
    (∃ i ≤ D, checkIfNodeU eps x0 dx x = some i ∧ |x - uniformNodes x0 dx i| ≤ eps * dx) := by
  have hoff0 : 0 ≤ offsetU x0 dx x := by
    unfold offsetU; exact mul_nonneg (by linarith) (by positivity)
  have hoffD : offsetU x0 dx x ≤ D := by
    have := offset_node x0 dx x hdx D
    have h2 : dx * (offsetU x0 dx x - D) ≤ 0 := by rw [← this]; linarith
    nlinarith
  have hfl := Nat.floor_le hoff0
  have hfl2 := Nat.lt_floor_add_one (offsetU x0 dx x)
  have habs : ∀ i, |x - uniformNodes x0 dx i| = dx * |offsetU x0 dx x - i| := fun i => by
    rw [offset_node x0 dx x hdx, abs_mul, abs_of_pos hdx]
  unfold checkIfNodeU
  simp only
  split_ifs with h1 h2
  · right
    refine ⟨_, ?_, rfl, ?_⟩
    · have : (⌊offsetU x0 dx x⌋₊ : ℝ) ≤ D := hfl.trans hoffD
      exact_mod_cast this
    · rw [habs, abs_of_nonneg (by linarith), mul_comm]
      exact mul_le_mul_of_nonneg_right h1 hdx.le
  · right
    have hlt : ⌊offsetU x0 dx x⌋₊ < D := by
      by_contra hcon
      have hge : (D : ℝ) ≤ ⌊offsetU x0 dx x⌋₊ := by exact_mod_cast not_lt.1 hcon
      linarith
    refine ⟨_, hlt, rfl, ?_⟩
    rw [habs, abs_of_nonpos (by push_cast; linarith), mul_comm]
    apply mul_le_mul_of_nonneg_right _ hdx.le
    push_cast; linarith
  · left
    refine ⟨rfl, fun i hi hxi => ?_⟩
    have hoff : offsetU x0 dx x = i := by
      have := offset_node x0 dx x hdx i
      rw [hxi, sub_self] at this
      rcases mul_eq_zero.1 this.symm with h | h
      · exact absurd h hdx.ne'
      · rw [hxi]; linarith
    rw [hoff, Nat.floor_natCast] at h1
    simp at h1; linarith

theorem valuesU_eq (D : ℕ) (x0 dx x : ℝ) (hdx : 0 < dx) (hx : ∀ i ≤ D, x ≠ uniformNodes x0 dx i)
    (j : ℕ) (hj : j ≤ D) :
    valuesBetweenNodes D (weightsU D) (fun k => offsetU x0 dx x - k) j
      = (Lagrange.basis (Finset.range (D + 1)) (uniformNodes x0 dx) j).eval x := by
  rw [← valuesBetweenNodes_eq D _ (uniform_distinct D x0 dx hdx) x hx j hj]
  refine valuesBetweenNodes_scale D _ _ _ _ (dx ^ D) (1 / dx) (by positivity) (by positivity) ?_ ?_ j hj
  · intro i hi
    rcases weights_uniform D x0 dx i hi with h | h
    · rw [← h, mul_comm]
    · exact absurd h hdx.ne'
  · intro i _
    rw [offset_node x0 dx x hdx]; field_simp

/-- Uniform basis: same statement. The point must lie in the stencil; the tolerance is smaller than half a cell.
In the periodic case the point is first shifted by one period if it lies below the stencil. -/
theorem c17_values_uniform (eps : ℝ) (heps : 0 ≤ eps) (heps1 : eps < 1 / 2) (D : ℕ) (x0 dx x length : ℝ)
    (periodic : Bool) (hdx : 0 < dx) (xe : ℝ) (hxe : xe = if periodic ∧ x < x0 then x + length else x)
    (hx0 : x0 ≤ xe) (hxD : xe ≤ uniformNodes x0 dx D) :
    ∃ x', (x' = xe ∨ ∃ i ≤ D, x' = uniformNodes x0 dx i ∧ |xe - uniformNodes x0 dx i| ≤ eps * dx) ∧
      ∀ j ≤ D, evalBasisUniform periodic length eps D x0 dx x j
        = (Lagrange.basis (Finset.range (D + 1)) (uniformNodes x0 dx) j).eval x' := by
  unfold evalBasisUniform evalBasisU
  rw [← hxe]
  rcases checkIfNodeU_spec eps x0 dx xe heps heps1 hdx D hx0 hxD with ⟨h, hne⟩ | ⟨i, hi, h, hd⟩
  · rw [h]
    exact ⟨xe, Or.inl rfl, fun j hj => valuesU_eq D x0 dx xe hdx hne j hj⟩
  · rw [h]
    exact ⟨_, Or.inr ⟨i, hi, rfl, hd⟩, fun j hj =>
      (basis_eval_node D _ (uniform_distinct D x0 dx hdx) i j hi hj).symm⟩

/-- Consequence (either grid): if the values are those of the basis polynomials at `x'` then they sum to one and
reproduce at `x'` every polynomial of degree at most `D` from its values at the stencil nodes. -/
theorem c17_reproduction (D : ℕ) (xs : ℕ → ℝ) (hxs : Distinct D xs) (x' : ℝ) (vals : ℕ → ℝ)
    (hv : ∀ j ≤ D, vals j = (Lagrange.basis (Finset.range (D + 1)) xs j).eval x') :
    (∑ j ∈ Finset.range (D + 1), vals j = 1) ∧
    (∀ p : ℝ[X], p.natDegree ≤ D → ∑ j ∈ Finset.range (D + 1), p.eval (xs j) * vals j = p.eval x') := by
  have key : ∀ p : ℝ[X], p.natDegree ≤ D →
      ∑ j ∈ Finset.range (D + 1), p.eval (xs j) * vals j = p.eval x' := by
    intro p hp
    have hdeg : p.degree < (Finset.range (D + 1)).card := by
      rw [Finset.card_range]
      exact lt_of_le_of_lt Polynomial.degree_le_natDegree (by exact_mod_cast Nat.lt_succ_of_le hp)
    conv_rhs => rw [Lagrange.eq_interpolate hxs hdeg, Lagrange.interpolate_apply, Polynomial.eval_finsetSum]
    apply Finset.sum_congr rfl
    intro j hj
    rw [hv j (by simpa [Nat.lt_succ_iff] using hj)]; simp
  refine ⟨?_, key⟩
  have := key 1 (by simp)
  simpa using this

/-! ## Derivatives between nodes -/

theorem coeff_prod_one_add {ι : Type*} (s : Finset ι) [DecidableEq ι] (f : ι → ℝ) (n : ℕ) :
    (∏ k ∈ s, (1 + Polynomial.C (f k) * X)).coeff n = ∑ S ∈ s.powersetCard n, ∏ k ∈ S, f k := by
  rw [Finset.prod_one_add, Polynomial.finsetSum_coeff]
  have : ∀ t ∈ s.powerset, (∏ i ∈ t, (Polynomial.C (f i) * X)).coeff n
      = if t.card = n then ∏ i ∈ t, f i else 0 := by
    intro t _
    rw [Finset.prod_mul_distrib, Finset.prod_const, ← map_prod, Polynomial.coeff_C_mul, Polynomial.coeff_X_pow]
    by_cases h : t.card = n
    · simp [h]
    · rw [if_neg (Ne.symm h), if_neg h, mul_zero]
  rw [Finset.sum_congr rfl this, ← Finset.sum_filter]
  congr 1
  ext t
  simp [Finset.mem_powersetCard]

theorem iterate_derivative_eval (p : ℝ[X]) (n : ℕ) (x : ℝ) :
    (derivative^[n] p).eval x = n.factorial * (taylor x p).coeff n := by
  rw [taylor_coeff, ← Polynomial.factorial_smul_hasseDeriv]
  simp

theorem taylor_basis (D : ℕ) (xs : ℕ → ℝ) (x : ℝ) (j : ℕ) :
    taylor x (Lagrange.basis (Finset.range (D + 1)) xs j)
      = Polynomial.C (getWeights D xs j) * ∏ k ∈ (Finset.range (D + 1)).erase j, (X + Polynomial.C (x - xs k)) := by
  have : Lagrange.basis (Finset.range (D + 1)) xs j
      = Polynomial.C (getWeights D xs j) * ∏ k ∈ (Finset.range (D + 1)).erase j, (X - Polynomial.C (xs k)) := by
    rw [getWeights_eq]
    simp only [Lagrange.basis, Lagrange.basisDivisor, Lagrange.nodalWeight, Finset.prod_mul_distrib, map_prod]
  rw [this, taylor_mul, taylor_C]
  congr 1
  have h : ∀ p, taylor x p = taylorAlgHom x p := fun _ => rfl
  rw [h, map_prod]
  apply Finset.prod_congr rfl
  intro k _
  rw [← h]
  simp only [map_sub, taylor_X, taylor_C]
  ring

theorem deriv_between (D : ℕ) (xs : ℕ → ℝ) (x : ℝ) (hx : ∀ i ≤ D, x ≠ xs i) (j n : ℕ) (hj : j ≤ D) :
    (derivative^[n] (Lagrange.basis (Finset.range (D + 1)) xs j)).eval x
      = (Lagrange.basis (Finset.range (D + 1)) xs j).eval x
        * (∑ S ∈ ((Finset.range (D + 1)).erase j).powersetCard n, ∏ k ∈ S, (x - xs k)⁻¹) * n.factorial := by
  have hprod : ∏ k ∈ (Finset.range (D + 1)).erase j, (X + Polynomial.C (x - xs k))
      = Polynomial.C (∏ k ∈ (Finset.range (D + 1)).erase j, (x - xs k))
        * ∏ k ∈ (Finset.range (D + 1)).erase j, (1 + Polynomial.C ((x - xs k)⁻¹) * X) := by
    rw [map_prod, ← Finset.prod_mul_distrib]
    apply Finset.prod_congr rfl
    intro k hk
    have hk : k ≤ D := by
      have := Finset.mem_of_mem_erase hk
      simpa [Nat.lt_succ_iff] using this
    have hne : x - xs k ≠ 0 := sub_ne_zero.2 (hx k hk)
    rw [mul_add, mul_one, ← mul_assoc, ← Polynomial.C_mul, mul_inv_cancel₀ hne, Polynomial.C_1, one_mul, add_comm]
  have h0 : (Lagrange.basis (Finset.range (D + 1)) xs j).eval x
      = getWeights D xs j * ∏ k ∈ (Finset.range (D + 1)).erase j, (x - xs k) := by
    have := iterate_derivative_eval (Lagrange.basis (Finset.range (D + 1)) xs j) 0 x
    rw [taylor_basis, hprod, ← mul_assoc, ← Polynomial.C_mul, Polynomial.coeff_C_mul, coeff_prod_one_add] at this
    simpa using this
  rw [iterate_derivative_eval, taylor_basis, hprod, ← mul_assoc, ← Polynomial.C_mul, Polynomial.coeff_C_mul,
    coeff_prod_one_add, h0]
  ring

theorem derivBetweenNodes_eq (D : ℕ) (xs : ℕ → ℝ) (x : ℝ) (hx : ∀ i ≤ D, x ≠ xs i)
    (values : ℕ → ℝ) (term : ℤ → ℝ) (hterm : ∀ k : ℕ, term k = x - xs k)
    (hv : ∀ j ≤ D, values j = (Lagrange.basis (Finset.range (D + 1)) xs j).eval x) (j n : ℕ) (hj : j ≤ D)
    (hn : n ≤ D) :
    ∃ F, ∀ fuel ≥ F, derivBetweenNodes fuel D values term j n
      = some ((derivative^[n] (Lagrange.basis (Finset.range (D + 1)) xs j)).eval x) := by
  by_cases h0 : n = 0
  · subst h0
    exact ⟨0, fun fuel _ => by simp [derivBetweenNodes, hv j hj]⟩
  · obtain ⟨F, hF⟩ := factorLoop_eq D n j (Nat.pos_of_ne_zero h0) hn hj term
    refine ⟨F, fun fuel hf => ?_⟩
    rw [derivBetweenNodes, if_neg h0, hF fuel hf, Option.map_some, deriv_between D xs x hx j n hj, hv j hj]
    simp only [hterm]

/-! ## Derivatives at a node -/

/-- The power series of `X / (X + d)`. -/
theorem coeff_X_mul_inv (d : ℝ) (hd : d ≠ 0) (m : ℕ) :
    PowerSeries.coeff m (PowerSeries.X * (PowerSeries.X + PowerSeries.C d)⁻¹)
      = if m = 0 then 0 else (-1) ^ (m + 1) / d ^ m := by
  have hinv : (PowerSeries.X + PowerSeries.C d)⁻¹ = PowerSeries.mk fun k => (-1) ^ k / d ^ (k + 1) := by
    have hc : PowerSeries.constantCoeff (PowerSeries.X + PowerSeries.C d) ≠ 0 := by simpa using hd
    rw [PowerSeries.inv_eq_iff_mul_eq_one hc]
    ext k
    cases k with
    | zero => simp [mul_add, hd]
    | succ k =>
      rw [mul_add, map_add, PowerSeries.coeff_succ_mul_X, PowerSeries.coeff_mul_C, PowerSeries.coeff_mk,
        PowerSeries.coeff_mk, PowerSeries.coeff_one, if_neg (by omega)]
      field_simp; ring
  rw [hinv]
  cases m with
  | zero => simp
  | succ m =>
    rw [PowerSeries.coeff_succ_X_mul, PowerSeries.coeff_mk, if_neg (by omega)]
    ring

theorem node_series (D : ℕ) (xs : ℕ → ℝ) (hxs : Distinct D xs) (i j : ℕ) (hi : i ≤ D) (hj : j ≤ D) (hij : j ≠ i) :
    PowerSeries.C (getWeights D xs i)
        * ((taylor (xs i) (Lagrange.basis (Finset.range (D + 1)) xs j) : ℝ[X]) : PowerSeries ℝ)
      + ∑ p ∈ (Finset.range (D + 1)).erase i, PowerSeries.C (getWeights D xs p)
        * (PowerSeries.X * (PowerSeries.X + PowerSeries.C (xs i - xs p))⁻¹)
        * ((taylor (xs i) (Lagrange.basis (Finset.range (D + 1)) xs j) : ℝ[X]) : PowerSeries ℝ)
      = PowerSeries.C (getWeights D xs j) * (PowerSeries.X * (PowerSeries.X + PowerSeries.C (xs i - xs j))⁻¹) := by
  set s := Finset.range (D + 1) with hs
  have hmem : ∀ k, k ∈ s ↔ k ≤ D := fun k => by simp [hs, Nat.lt_succ_iff]
  let L : ℕ → PowerSeries ℝ := fun p => ((taylor (xs i) (Lagrange.basis s xs p) : ℝ[X]) : PowerSeries ℝ)
  let M : PowerSeries ℝ := ∏ k ∈ s.erase i, (PowerSeries.X + PowerSeries.C (xs i - xs k))
  have hfac : ∀ k ∈ s.erase i, PowerSeries.constantCoeff (PowerSeries.X + PowerSeries.C (xs i - xs k)) ≠ 0 := by
    intro k hk
    have hk' := Finset.mem_erase.1 hk
    simp only [map_add, PowerSeries.constantCoeff_X, PowerSeries.constantCoeff_C, zero_add]
    exact sub_ne_zero.2 fun h => hk'.1 (hxs ((hmem i).2 hi) hk'.2 h).symm
  have hM0 : M ≠ 0 := by
    apply Finset.prod_ne_zero_iff.2
    intro k hk h
    apply hfac k hk
    rw [h]; simp
  have hL : ∀ p ∈ s, L p = PowerSeries.C (getWeights D xs p)
      * ∏ k ∈ s.erase p, (PowerSeries.X + PowerSeries.C (xs i - xs k)) := by
    intro p _
    simp only [L, hs]
    rw [taylor_basis, Polynomial.coe_mul, Polynomial.coe_C]
    congr 1
    rw [← Polynomial.coeToPowerSeries.ringHom_apply, map_prod]
    apply Finset.prod_congr rfl
    intro k _
    simp [Polynomial.coeToPowerSeries.ringHom_apply]
  have hLi : L i = PowerSeries.C (getWeights D xs i) * M := hL i ((hmem i).2 hi)
  have hLp : ∀ p ∈ s.erase i, L p = PowerSeries.C (getWeights D xs p)
      * (PowerSeries.X * (PowerSeries.X + PowerSeries.C (xs i - xs p))⁻¹) * M := by
    intro p hp
    have hp' := Finset.mem_erase.1 hp
    rw [hL p hp'.2, ← Finset.mul_prod_erase (s.erase p) _ (Finset.mem_erase.2 ⟨hp'.1.symm, (hmem i).2 hi⟩)]
    have hM : M = (PowerSeries.X + PowerSeries.C (xs i - xs p))
        * ∏ k ∈ (s.erase i).erase p, (PowerSeries.X + PowerSeries.C (xs i - xs k)) :=
      (Finset.mul_prod_erase (s.erase i) _ hp).symm
    have hcanc : (PowerSeries.X + PowerSeries.C (xs i - xs p))⁻¹ * (PowerSeries.X + PowerSeries.C (xs i - xs p)) = 1 :=
      PowerSeries.inv_mul_cancel _ (hfac p hp)
    rw [hM, Finset.erase_right_comm]
    simp only [sub_self, map_zero, add_zero]
    linear_combination (-(PowerSeries.C (getWeights D xs p) * PowerSeries.X
      * ∏ k ∈ (s.erase i).erase p, (PowerSeries.X + PowerSeries.C (xs i - xs k)))) * hcanc
  have hsum : ∑ p ∈ s, L p = 1 := by
    have := congrArg (fun q : ℝ[X] => (Polynomial.coeToPowerSeries.ringHom (taylorAlgHom (xs i) q)))
      (Lagrange.sum_basis hxs ⟨0, by simp⟩)
    simp only [map_sum, map_one] at this
    exact this
  rw [← Finset.add_sum_erase s _ ((hmem i).2 hi), hLi, Finset.sum_congr rfl hLp, ← Finset.sum_mul, ← add_mul] at hsum
  have hj' : j ∈ s.erase i := Finset.mem_erase.2 ⟨hij, (hmem j).2 hj⟩
  have hLj := hLp j hj'
  rw [← Finset.sum_mul, ← add_mul]
  change _ * L j = _
  rw [hLj]
  linear_combination (PowerSeries.C (getWeights D xs j)
      * (PowerSeries.X * (PowerSeries.X + PowerSeries.C (xs i - xs j))⁻¹)) * hsum

theorem neg1Pow_eq (n : ℕ) : (neg1Pow n : ℝ) = (-1) ^ n := by
  unfold neg1Pow
  rcases Nat.even_or_odd n with h | h
  · rw [h.neg_one_pow, Nat.even_iff.1 h]; norm_num
  · rw [h.neg_one_pow, Nat.odd_iff.1 h]; norm_num

/-- Taylor coefficients at a node satisfy the recursion used by the code. -/
theorem node_recursion (D : ℕ) (xs : ℕ → ℝ) (hxs : Distinct D xs) (i j : ℕ) (hi : i ≤ D) (hj : j ≤ D) (hij : j ≠ i)
    (a : ℕ → ℝ) (ha : ∀ n, a n = (taylor (xs i) (Lagrange.basis (Finset.range (D + 1)) xs j)).coeff n)
    (n : ℕ) (hn : 0 < n) :
    getWeights D xs i * a n = (-1) ^ (n + 1) * getWeights D xs j / (xs i - xs j) ^ n
      - ∑ p ∈ (Finset.range (D + 1)).erase i, ∑ k ∈ Finset.Ico 1 (1 + (n - 1)),
          (-1) ^ (n + 1 - k) * getWeights D xs p * a k / (xs i - xs p) ^ (n - k) := by
  have hmem : ∀ k, k ∈ Finset.range (D + 1) ↔ k ≤ D := fun k => by simp [Nat.lt_succ_iff]
  have hne : ∀ p ≤ D, p ≠ i → xs i - xs p ≠ 0 := fun p hp hpi =>
    sub_ne_zero.2 fun h => hpi (hxs ((hmem i).2 hi) ((hmem p).2 hp) h).symm
  have h := congrArg (PowerSeries.coeff n) (node_series D xs hxs i j hi hj hij)
  rw [map_add, map_sum] at h
  simp only [mul_assoc, PowerSeries.coeff_C_mul, Polynomial.coeff_coe, ← ha] at h
  rw [coeff_X_mul_inv _ (hne j hj hij), if_neg (by omega)] at h
  have ha0 : a 0 = 0 := by
    rw [ha, taylor_coeff_zero, basis_eval_node D xs hxs i j hi hj, if_neg hij]
  have hterm : ∀ p ∈ (Finset.range (D + 1)).erase i,
      getWeights D xs p * PowerSeries.coeff n (PowerSeries.X * ((PowerSeries.X + PowerSeries.C (xs i - xs p))⁻¹
        * ((taylor (xs i) (Lagrange.basis (Finset.range (D + 1)) xs j) : ℝ[X]) : PowerSeries ℝ)))
      = ∑ k ∈ Finset.Ico 1 (1 + (n - 1)),
          (-1) ^ (n + 1 - k) * getWeights D xs p * a k / (xs i - xs p) ^ (n - k) := by
    intro p hp
    have hp' := Finset.mem_erase.1 hp
    rw [← mul_assoc, PowerSeries.coeff_mul, Finset.Nat.sum_antidiagonal_eq_sum_range_succ_mk]
    simp only [Polynomial.coeff_coe, ← ha, coeff_X_mul_inv _ (hne p ((hmem p).1 hp'.2) hp'.1)]
    rw [← Finset.sum_range_reflect, Finset.mul_sum]
    have hIco : Finset.Ico 1 (1 + (n - 1)) = (Finset.range (n + 1)).filter (fun k => k ≠ 0 ∧ k ≠ n) := by
      ext k; simp; omega
    rw [hIco, Finset.sum_filter]
    apply Finset.sum_congr rfl
    intro k hk
    have hk : k ≤ n := by simpa [Nat.lt_succ_iff] using hk
    have e1 : n + 1 - 1 - k = n - k := by omega
    have e2 : n - (n - k) = k := by omega
    rw [e1, e2]
    by_cases hk0 : k = 0
    · simp [hk0, ha0]
    by_cases hkn : k = n
    · simp [hkn]
    rw [if_neg (by omega), if_pos ⟨hk0, hkn⟩, show n + 1 - k = n - k + 1 by omega]
    ring
  rw [Finset.sum_congr rfl hterm] at h
  linear_combination h

theorem derivNodeStep_eq (D : ℕ) (w xs : ℕ → ℝ) (node j n : ℕ) (d : ℕ → ℝ) :
    derivNodeStep D w xs node j n d
      = ((-1) ^ (n + 1) * w j / (xs node - xs j) ^ n
        - ∑ p ∈ (Finset.range (D + 1)).erase node, ∑ k ∈ Finset.Ico 1 (1 + (n - 1)),
          (-1) ^ (n + 1 - k) * w p * d k / (k.factorial : ℝ) / (xs node - xs p) ^ (n - k))
        * ((n.factorial : ℝ) / w node) := by
  unfold derivNodeStep
  simp only [foldl_sub_range', neg1Pow_eq]
  rw [foldl_sub_ne node (fun p => ∑ k ∈ Finset.Ico 1 (1 + (n - 1)),
          (-1) ^ (n + 1 - k) * w p * d k / (k.factorial : ℝ) / (xs node - xs p) ^ (n - k))]

theorem derivNodeRow_eq (D : ℕ) (w xs : ℕ → ℝ) (hxs : Distinct D xs) (a : ℝ) (ha : a ≠ 0)
    (hw : ∀ i ≤ D, w i = a * getWeights D xs i) (node j : ℕ) (hnode : node ≤ D)
    (hj : j ≤ D) (hij : j ≠ node) (N n : ℕ) (hn : 0 < n) (hnN : n ≤ N) :
    derivNodeRow D w xs node j N n
      = (derivative^[n] (Lagrange.basis (Finset.range (D + 1)) xs j)).eval (xs node) := by
  have hmem : ∀ k, k ∈ Finset.range (D + 1) ↔ k ≤ D := fun k => by simp [Nat.lt_succ_iff]
  have hwi : getWeights D xs node ≠ 0 := by
    rw [getWeights_eq]; exact Lagrange.nodalWeight_ne_zero hxs ((hmem node).2 hnode)
  induction N generalizing n with
  | zero => omega
  | succ N ih =>
    unfold derivNodeRow at ih ⊢
    rw [List.range'_concat, List.foldl_append]
    simp only [List.foldl_cons, List.foldl_nil, Nat.one_mul]
    by_cases hlast : n = 1 + N
    · subst hlast
      rw [update_self, derivNodeStep_eq, iterate_derivative_eval]
      have hrec := node_recursion D xs hxs node j hnode hj hij _ (fun _ => rfl) (1 + N) hn
      have hsum : ∑ p ∈ (Finset.range (D + 1)).erase node, ∑ k ∈ Finset.Ico 1 (1 + (1 + N - 1)),
          (-1) ^ (1 + N + 1 - k) * w p
            * (List.range' 1 N).foldl (fun d n => update d n (derivNodeStep D w xs node j n d)) (fun _ => 0) k
            / (k.factorial : ℝ) / (xs node - xs p) ^ (1 + N - k)
          = a * ∑ p ∈ (Finset.range (D + 1)).erase node, ∑ k ∈ Finset.Ico 1 (1 + (1 + N - 1)),
          (-1) ^ (1 + N + 1 - k) * getWeights D xs p
            * (taylor (xs node) (Lagrange.basis (Finset.range (D + 1)) xs j)).coeff k
            / (xs node - xs p) ^ (1 + N - k) := by
        rw [Finset.mul_sum]
        apply Finset.sum_congr rfl
        intro p hp
        rw [Finset.mul_sum]
        apply Finset.sum_congr rfl
        intro k hk
        have hk := Finset.mem_Ico.1 hk
        rw [ih k (by omega) (by omega), iterate_derivative_eval,
          hw p ((hmem p).1 (Finset.mem_of_mem_erase hp))]
        have : (k.factorial : ℝ) ≠ 0 := by exact_mod_cast k.factorial_ne_zero
        field_simp
      rw [hsum, hw j hj, hw node hnode]
      have hfin : (-1) ^ (1 + N + 1) * (a * getWeights D xs j) / (xs node - xs j) ^ (1 + N)
          - a * ∑ p ∈ (Finset.range (D + 1)).erase node, ∑ k ∈ Finset.Ico 1 (1 + (1 + N - 1)),
          (-1) ^ (1 + N + 1 - k) * getWeights D xs p
            * (taylor (xs node) (Lagrange.basis (Finset.range (D + 1)) xs j)).coeff k
            / (xs node - xs p) ^ (1 + N - k)
          = a * (getWeights D xs node
            * (taylor (xs node) (Lagrange.basis (Finset.range (D + 1)) xs j)).coeff (1 + N)) := by
        rw [hrec]; ring
      rw [hfin]
      field_simp
    · rw [update_of_ne hlast]
      exact ih n hn (by omega)

theorem derivAtNode_eq (D : ℕ) (w xs : ℕ → ℝ) (hxs : Distinct D xs) (a : ℝ) (ha : a ≠ 0)
    (hw : ∀ i ≤ D, w i = a * getWeights D xs i) (node j : ℕ) (hnode : node ≤ D)
    (hj : j ≤ D) (N n : ℕ) (hnN : n ≤ N) :
    derivAtNode D w xs node N j n
      = (derivative^[n] (Lagrange.basis (Finset.range (D + 1)) xs j)).eval (xs node) := by
  have hmem : ∀ k, k ∈ Finset.range (D + 1) ↔ k ≤ D := fun k => by simp [Nat.lt_succ_iff]
  unfold derivAtNode
  by_cases h0 : n = 0
  · subst h0; simpa using (basis_eval_node D xs hxs node j hnode hj).symm
  rw [if_neg h0]
  by_cases hjn : j = node
  · subst hjn
    rw [if_pos rfl, foldl_sub_ne j (fun k => derivNodeRow D w xs j k N n), zero_sub]
    have hsum := congrArg (fun q : ℝ[X] => (derivative^[n] q).eval (xs j)) (Lagrange.sum_basis hxs ⟨0, by simp⟩)
    have h1 : derivative^[n] (1 : ℝ[X]) = 0 := Polynomial.iterate_derivative_one (Nat.pos_of_ne_zero h0)
    rw [h1, Polynomial.eval_zero, Polynomial.iterate_derivative_sum, Polynomial.eval_finsetSum,
      ← Finset.add_sum_erase _ _ ((hmem j).2 hj)] at hsum
    have : ∑ k ∈ (Finset.range (D + 1)).erase j, derivNodeRow D w xs j k N n
        = ∑ k ∈ (Finset.range (D + 1)).erase j,
          (derivative^[n] (Lagrange.basis (Finset.range (D + 1)) xs k)).eval (xs j) := by
      apply Finset.sum_congr rfl
      intro k hk
      have hk' := Finset.mem_erase.1 hk
      exact derivNodeRow_eq D w xs hxs a ha hw j k hj ((hmem k).1 hk'.2) hk'.1 N n (Nat.pos_of_ne_zero h0) hnN
    rw [this]; linarith
  · rw [if_neg hjn]
    exact derivNodeRow_eq D w xs hxs a ha hw node j hnode hj hjn N n (Nat.pos_of_ne_zero h0) hnN

/-! ## C18 -/

/-- Non-uniform basis: entry `(j, n)` of `eval_basis_and_n_derivs` is the `n`-th derivative of the `j`-th Lagrange basis
polynomial at `x` (or at the stencil node closer to `x` than the tolerance), for all requested orders; the loop over
combinations terminates. -/
theorem c18_derivs_non_uniform (eps : ℝ) (heps : 0 < eps) (D : ℕ) (xs : ℕ → ℝ) (hxs : Distinct D xs) (x : ℝ)
    (N : ℕ) (hN : N ≤ D) :
    ∃ x', (x' = x ∨ ∃ i ≤ D, x' = xs i ∧ |x - xs i| < eps) ∧
      ∀ j ≤ D, ∀ n ≤ N, ∃ F, ∀ fuel ≥ F, evalBasisAndNDerivsNU fuel eps D xs x N j n
        = some ((derivative^[n] (Lagrange.basis (Finset.range (D + 1)) xs j)).eval x') := by
  unfold evalBasisAndNDerivsNU
  cases h : checkIfNodeNU eps D xs x with
  | none =>
    have hne := checkIfNodeNU_none heps h
    exact ⟨x, Or.inl rfl, fun j hj n hn => derivBetweenNodes_eq D xs x hne _ _ (fun k => by simp)
      (fun j hj => valuesBetweenNodes_eq D xs hxs x hne j hj) j n hj (by omega)⟩
  | some i =>
    have hi := checkIfNodeNU_some h
    exact ⟨xs i, Or.inr ⟨i, hi.1, rfl, hi.2⟩, fun j hj n hn => ⟨0, fun fuel _ => by
      simp only
      rw [derivAtNode_eq D _ xs hxs 1 one_ne_zero (fun i _ => by rw [one_mul]) i j hi.1 hj N n hn]⟩⟩

/-- Uniform basis: same statement for `x` in the stencil. -/
theorem c18_derivs_uniform (eps : ℝ) (heps : 0 ≤ eps) (heps1 : eps < 1 / 2) (D : ℕ) (x0 dx x : ℝ) (hdx : 0 < dx)
    (hx0 : x0 ≤ x) (hxD : x ≤ uniformNodes x0 dx D) (N : ℕ) (hN : N ≤ D) :
    ∃ x', (x' = x ∨ ∃ i ≤ D, x' = uniformNodes x0 dx i ∧ |x - uniformNodes x0 dx i| ≤ eps * dx) ∧
      ∀ j ≤ D, ∀ n ≤ N, ∃ F, ∀ fuel ≥ F, evalBasisAndNDerivsU fuel eps D x0 dx x N j n
        = some ((derivative^[n] (Lagrange.basis (Finset.range (D + 1)) (uniformNodes x0 dx) j)).eval x') := by
  unfold evalBasisAndNDerivsU
  rcases checkIfNodeU_spec eps x0 dx x heps heps1 hdx D hx0 hxD with ⟨h, hne⟩ | ⟨i, hi, h, hd⟩
  · rw [h]
    exact ⟨x, Or.inl rfl, fun j hj n hn => derivBetweenNodes_eq D (uniformNodes x0 dx) x hne _ _
      (fun k => by rw [offset_node x0 dx x hdx]; simp) (fun j hj => valuesU_eq D x0 dx x hdx hne j hj) j n hj
      (by omega)⟩
  · rw [h]
    refine ⟨_, Or.inr ⟨i, hi, rfl, hd⟩, fun j hj n hn => ⟨0, fun fuel _ => ?_⟩⟩
    simp only
    rw [derivAtNode_eq D _ _ (uniform_distinct D x0 dx hdx) (dx ^ D) (by positivity) ?_ i j hi hj N n hn]
    intro k hk
    rcases weights_uniform D x0 dx k hk with h | h
    · rw [← h, mul_comm]
    · exact absurd h hdx.ne'

/-! ## Instances -/

/-- A non-uniform stencil of degree 3. -/
example : Distinct 3 (fun k => (k : ℝ) ^ 2) := by
  intro a _ b _ h
  have : (a : ℝ) = b := by
    have h : (a : ℝ) ^ 2 = (b : ℝ) ^ 2 := h
    exact (sq_eq_sq₀ (Nat.cast_nonneg a) (Nat.cast_nonneg b)).1 h
  exact_mod_cast this

/-- A point of a uniform stencil of degree 2 which is not a node. -/
example : (1 : ℝ) ≤ 5 / 4 ∧ (5 / 4 : ℝ) ≤ uniformNodes 1 (1 / 2) 2 ∧ ((0 : ℝ) ≤ 1 / 100 ∧ (1 / 100 : ℝ) < 1 / 2) := by
  norm_num [uniformNodes]

/-- The loop over combinations visits the three pairs among the nodes 0, 1, 3 (`j = 2`, `D = 3`):
1/(1*2) + 1/(1*4) + 1/(2*4) with `term c = c + 1`. -/
example : factorLoop 3 2 2 (fun c => (c : ℝ) + 1) 10 initComb 0 0 = some (7 / 8) := by
  norm_num [factorLoop, bumpFill, initComb, back, maxVal, skip, List.range_succ, List.range', Function.update]

end Verif.Lagrange
