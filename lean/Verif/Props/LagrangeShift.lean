import Verif.Props.LagrangeEvaluator
import Mathlib.Data.ZMod.Basic
import Mathlib.Tactic.FieldSimp
import Mathlib.Tactic.Ring
import Mathlib.Tactic.Linarith

/-!
# The periodic Lagrange evaluator on a uniform grid, in closed form
-/

namespace Verif.LagrangeEvaluator

open Verif.Lagrange Finset

/-- Number of the grid point around which the stencil of `x` is centred, on the unbounded grid `x0 + k dx`, `k` integer: the nearest point for an even degree,
the point at the left of `x` for an odd one. -/
noncomputable def centre (D : ℕ) (x0 dx x : ℝ) : ℤ := if D % 2 = 0 then ⌊(x - x0) / dx + 1 / 2⌋ else ⌊(x - x0) / dx⌋

/-- The basis on the uniform grid depends on the position of the point in the stencil, in cells, only. -/
theorem evalBasisU_offset (eps : ℝ) (D : ℕ) (x0 dx x x0' dx' x' : ℝ) (h : offsetU x0 dx x = offsetU x0' dx' x') (j : ℕ) :
    evalBasisU eps D x0 dx x j = evalBasisU eps D x0' dx' x' j := by
  simp only [evalBasisU, checkIfNodeU, h]

theorem centre_shift (D : ℕ) (x0 dx x : ℝ) (hdx : 0 < dx) (q : ℤ) : centre D x0 dx (x + q * dx) = centre D x0 dx x + q := by
  have e : (x + q * dx - x0) / dx = (x - x0) / dx + q := by field_simp; ring
  unfold centre
  rw [e]
  split_ifs
  · rw [show (x - x0) / dx + (q : ℝ) + 1 / 2 = (x - x0) / dx + 1 / 2 + (q : ℝ) by ring, Int.floor_add_intCast]
  · rw [Int.floor_add_intCast]

theorem getclosestU_eq (D : ℕ) (x0 dx x : ℝ) (hdx : 0 < dx) (hx : x0 ≤ x) : (getclosestU D x0 dx x : ℤ) = centre D x0 dx x := by
  have h0 : 0 ≤ (x - x0) / dx := div_nonneg (by linarith) hdx.le
  unfold getclosestU centre
  split_ifs
  · exact Int.natCast_floor_eq_floor (by linarith)
  · exact Int.natCast_floor_eq_floor h0

/-- Closed form of the evaluation: the values at the `D + 1` points (modulo the period) around `x`, weighted by the Lagrange basis at the position of `x` among them. -/
theorem evalU_closed (eps : ℝ) (D Nl : ℕ) (hD : 0 < D) (hDN : D < Nl) (x0 dx : ℝ) (hdx : 0 < dx) (lower upper : ℝ → ℝ)
    (vals : ℕ → ℝ) (x : ℝ) :
    evalU true eps D Nl x0 dx lower upper (builtCoeffs true D Nl vals) x =
      some (∑ i ∈ range (D + 1), vals ((centre D x0 dx x - (D / 2 : ℕ) + i) % Nl).toNat *
        evalBasisU eps D 0 1 ((x - x0) / dx - centre D x0 dx x + (D / 2 : ℕ)) i) := by
  have hN : (0 : ℝ) < Nl := by exact_mod_cast (show 0 < Nl by omega)
  have hk := increasing_uniform (Nl + D) x0 dx hdx
  have hp : PeriodicKnots D Nl (uniformNodes x0 dx) := by intro i _; simp only [uniformNodes]; push_cast; ring
  have hlen : uniformNodes x0 dx Nl - uniformNodes x0 dx 0 = Nl * dx := by simp [uniformNodes]
  have hk0 : uniformNodes x0 dx 0 = x0 := by simp [uniformNodes]
  have hkN : uniformNodes x0 dx Nl = x0 + Nl * dx := by simp [uniformNodes]
  have hLpos : 0 < (Nl : ℝ) * dx := by positivity
  -- reduction to the period
  obtain ⟨q, y, hy, h0, h1, he⟩ : ∃ (q : ℤ) (y : ℝ), x = y + (q * Nl : ℤ) * dx ∧ x0 ≤ y ∧ y ≤ x0 + Nl * dx ∧
      evalU true eps D Nl x0 dx lower upper (builtCoeffs true D Nl vals) x =
      evalNoBc true D Nl (Nl * dx) (uniformNodes x0 dx) (fun y => some (getclosestU D x0 dx y))
        (fun s y j => evalBasisUniform true (Nl * dx) eps D (uniformNodes x0 dx s.toNat) dx y j) (builtCoeffs true D Nl vals) y := by
    by_cases hin : x < x0 ∨ x > x0 + Nl * dx
    · refine ⟨⌊(x - x0) / (Nl * dx)⌋, x - (⌊(x - x0) / (Nl * dx)⌋ : ℝ) * (Nl * dx), by push_cast; ring, ?_, ?_, ?_⟩
      · have := Int.floor_le ((x - x0) / (Nl * dx))
        rw [le_div_iff₀ hLpos] at this
        linarith
      · have := Int.lt_floor_add_one ((x - x0) / (Nl * dx))
        rw [div_lt_iff₀ hLpos] at this
        linarith
      · simp only [evalU, eval, if_true, hk0, hkN, add_sub_cancel_left]
        rw [if_pos hin]
    · refine ⟨0, x, by simp, ?_, ?_, ?_⟩
      · rw [not_or, not_lt] at hin; exact hin.1
      · rw [not_or, not_lt, not_lt] at hin; exact hin.2
      · simp only [evalU, eval, if_true, hk0, hkN, add_sub_cancel_left]
        rw [if_neg hin]
  have hcl := c19_closest_uniform D Nl x0 dx y hdx (by rw [hk0]; exact h0) (by rw [hkN]; exact h1)
  have hb : Bracket D Nl (uniformNodes x0 dx) y (getclosestU D x0 dx y) := hcl
  obtain ⟨s, x', hs, hsD, hx0, hx1, hx'⟩ := c19_stencil_periodic D Nl hD hDN.le (uniformNodes x0 dx) hk hp y (by rw [hk0]; exact h0)
    (by rw [hkN]; exact h1) _ hb
  rw [he]
  unfold evalNoBc
  simp only [Option.map_some]
  rw [hlen] at hs
  simp only [hs]
  rw [stencil_sum D _ (fun i => evalBasisUniform true (Nl * dx) eps D (uniformNodes x0 dx (s : ℤ).toNat) dx x' i) s]
  congr 1
  have hcen : centre D x0 dx x = (getclosestU D x0 dx y : ℤ) + q * Nl := by
    rw [hy, centre_shift D x0 dx y hdx, getclosestU_eq D x0 dx y hdx h0]
  have hxy : (x - x0) / dx = (y - x0) / dx + q * Nl := by rw [hy]; push_cast; field_simp; ring
  apply sum_congr rfl
  intro i hi
  have hiD : i ≤ D := by simpa [Nat.lt_succ_iff] using hi
  congr 1
  · rw [builtCoeffs, (c19_builder D Nl vals).2 hDN (s + i) (by omega), Option.getD_some]
    congr 1
    have : ((centre D x0 dx x - (D / 2 : ℕ) + i) % Nl) = (((s + i) % Nl : ℕ) : ℤ) := by
      rw [hcen]
      push_cast
      rcases hx' with ⟨_, h⟩ | ⟨_, h⟩
      · rw [show (getclosestU D x0 dx y : ℤ) + q * Nl - (D : ℤ) / 2 + i = ((s : ℤ) + i) + Nl * q by push_cast [← h]; ring, Int.add_mul_emod_self_left]
      · have h' : (s : ℤ) + (D / 2 : ℕ) = getclosestU D x0 dx y + Nl := by exact_mod_cast h
        rw [show (getclosestU D x0 dx y : ℤ) + q * Nl - (D : ℤ) / 2 + i = ((s : ℤ) + i) + Nl * (q - 1) by push_cast at h'; linarith, Int.add_mul_emod_self_left]
    rw [this, Int.toNat_natCast]
  · rw [evalBasisUniform, if_neg (by rintro ⟨_, h⟩; rw [Int.toNat_natCast] at h; linarith)]
    apply evalBasisU_offset
    rw [Int.toNat_natCast, hcen, hxy]
    unfold offsetU uniformNodes
    push_cast
    rcases hx' with ⟨hxx, h⟩ | ⟨hxx, h⟩
    · have h' : (s : ℝ) + (D / 2 : ℕ) = getclosestU D x0 dx y := by exact_mod_cast h
      rw [hxx, ← h']; field_simp; ring
    · have h' : (s : ℝ) + (D / 2 : ℕ) = getclosestU D x0 dx y + Nl := by exact_mod_cast h
      rw [hxx, hlen]
      have h'' : (getclosestU D x0 dx y : ℝ) = s + (D / 2 : ℕ) - Nl := by linarith
      rw [h'']; field_simp; ring

end Verif.LagrangeEvaluator
