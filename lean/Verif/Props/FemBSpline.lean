import Verif.Props.BSpline
import Mathlib.Algebra.Order.Group.Int
import Mathlib.Order.SuccPred.IntervalSucc
import Mathlib.Algebra.Order.SuccPred

/-!
# C114: the 1D finite element Poisson solver with B-splines of any degree on any break points

Specification. `b 0 < b 1 < … < b n` are the break points; `rule q` are the quadrature points and weights in the cell `[b q, b (q + 1)]`.
-/

namespace Verif.BSpline

open Polynomial Finset

/-- The quadrature rule of every cell has at least `d` points, which are distinct and in the cell, with positive weights, and is exact up to the degree `k`: it integrates the derivative of every polynomial `F` of
degree at most `k + 1` to `F (right end) - F (left end)`. -/
structure Rule (n d k : ℕ) (b : ℕ → ℝ) (rule : ℕ → List (ℝ × ℝ)) : Prop where
  distinct : ∀ q < n, ((rule q).map Prod.fst).Nodup
  enough : ∀ q < n, d ≤ (rule q).length
  weight : ∀ q < n, ∀ xw ∈ rule q, 0 < xw.2
  inside : ∀ q < n, ∀ xw ∈ rule q, b q ≤ xw.1 ∧ xw.1 ≤ b (q + 1)
  exact : ∀ q < n, ∀ F : ℝ[X], F.natDegree ≤ k + 1 → ((rule q).map fun xw => xw.2 * (derivative F).eval xw.1).sum = F.eval (b (q + 1)) - F.eval (b q)

theorem Rule.mono {n d k l : ℕ} {b : ℕ → ℝ} {rule : ℕ → List (ℝ × ℝ)} (R : Rule n d k b rule) (h : l ≤ k) : Rule n d l b rule :=
  ⟨R.distinct, R.enough, R.weight, R.inside, fun q hq F hF => R.exact q hq F (by omega)⟩

theorem mem_points {t : ℤ → ℝ} {d n : ℕ} {rule : ℕ → List (ℝ × ℝ)} {p : Fem.Pt} : p ∈ points t d n rule ↔ ∃ q < n, ∃ xw ∈ rule q, pt t d q xw = p := by
  simp [points, List.mem_flatMap, List.mem_range]

theorem integral_points (t : ℤ → ℝ) (d n : ℕ) (rule : ℕ → List (ℝ × ℝ)) (g : Fem.Pt → ℝ) :
    Fem.integral (points t d n rule) g = ∑ q ∈ range n, ((rule q).map fun xw => xw.2 * g (pt t d q xw)).sum := by
  rw [← Fem.list_range_sum, Fem.integral, points]
  induction List.range n with
  | nil => simp
  | cons q l ih =>
    rw [List.flatMap_cons, List.map_append, List.sum_append, ih, List.map_cons, List.sum_cons, List.map_map]
    rfl

theorem value_pt (t : ℤ → ℝ) (d N q : ℕ) (xw : ℝ × ℝ) (c : ℕ → ℝ) (a : ℤ → ℝ) (h : ∀ j < d + 1, c ((j + q) % N) = a (q - d + j)) :
    Fem.value d N c (pt t d q xw) = (spl t q d a).eval xw.1 := by
  simp only [Fem.value, spl, eval_finsetSum, eval_mul, eval_C, pt]
  exact sum_congr rfl fun j hj => by rw [h j (mem_range.1 hj)]

theorem slope_pt (t : ℤ → ℝ) (d N q : ℕ) (xw : ℝ × ℝ) (c : ℕ → ℝ) (a : ℤ → ℝ) (h : ∀ j < d + 1, c ((j + q) % N) = a (q - d + j)) :
    Fem.slope d N c (pt t d q xw) = (derivative (spl t q d a)).eval xw.1 := by
  simp only [Fem.slope, spl, derivative_sum, derivative_C_mul, eval_finsetSum, eval_mul, eval_C, pt]
  exact sum_congr rfl fun j hj => by rw [h j (mem_range.1 hj)]

/-! ## Clamped knots -/

section clamped

variable {n : ℕ} {b : ℕ → ℝ}

theorem clamped_cell (q : ℕ) (hq : q ≤ n) : clampedKnots n b q = b q := by
  simp [clampedKnots, Nat.min_eq_left hq]

theorem clamped_mono (hb : ∀ i < n, b i < b (i + 1)) : Monotone (clampedKnots n b) := by
  have hm : ∀ j i, i ≤ j → j ≤ n → b i ≤ b j := by
    intro j
    induction j with
    | zero => intro i hi _; rw [Nat.le_zero.1 hi]
    | succ j ih =>
      intro i hi hj
      rcases Nat.lt_or_ge i (j + 1) with h | h
      · exact (ih i (by omega) (by omega)).trans (hb j (by omega)).le
      · rw [show i = j + 1 by omega]
  intro i j hij
  exact hm _ _ (by simp only [le_min_iff]; omega) (by omega)

/-- The coefficients, as numbered along the knots. -/
def along (d : ℕ) (c : ℕ → ℝ) (i : ℤ) : ℝ := c (i + d).toNat

theorem along_eq (d N q : ℕ) (c : ℕ → ℝ) (h : q + d < N) : ∀ j < d + 1, c ((j + q) % N) = along d c (q - d + j) := by
  intro j hj
  rw [Nat.mod_eq_of_lt (by omega), along, show ((q : ℤ) - d + j + d).toNat = j + q by omega]

/-- C114: the hypotheses of C52 hold of the clamped B-splines of every degree `d ≥ 1` on any increasing break points, with any quadrature with `d` distinct points in every cell. -/
theorem c114_dirichlet_space {d k : ℕ} (hd : 1 ≤ d) (hn : 1 ≤ n) (hb : ∀ i < n, b i < b (i + 1)) {rule : ℕ → List (ℝ × ℝ)} (R : Rule n d k b rule) :
    Fem.DirichletSpace d (n + d) (points (clampedKnots n b) d n rule) where
  two_le := by omega
  inside p hp := by
    obtain ⟨q, hq, xw, _, rfl⟩ := mem_points.1 hp
    simp only [pt]
    omega
  weight p hp := by
    obtain ⟨q, hq, xw, hx, rfl⟩ := mem_points.1 hp
    exact R.weight q hq xw hx
  definite c hc := by
    obtain ⟨p, rfl⟩ : ∃ p, d = p + 1 := ⟨d - 1, by omega⟩
    have hstep : ∀ i < n + (p + 1) - 1, c (i + 1) = c i := by
      intro i hi
      obtain ⟨q, hq⟩ : ∃ q, q = min i (n - 1) := ⟨_, rfl⟩
      have hqn : q < n := by omega
      have hcell : clampedKnots n b q < clampedKnots n b ((q : ℤ) + 1) := by
        rw [clamped_cell q (by omega), show (q : ℤ) + 1 = ((q + 1 : ℕ) : ℤ) by push_cast; ring, clamped_cell (q + 1) (by omega)]
        exact hb q hqn
      have := flat (clamped_mono hb) hcell p (along (p + 1) c) ((rule q).map Prod.fst) (R.distinct q hqn) (by rw [List.length_map]; exact R.enough q hqn) (by
        intro x hx
        obtain ⟨xw, hxw, rfl⟩ := List.mem_map.1 hx
        have := hc (pt (clampedKnots n b) (p + 1) q xw) (mem_points.2 ⟨q, hqn, xw, hxw, rfl⟩)
        rw [slope_pt _ _ _ _ _ _ (along (p + 1) c) (along_eq _ _ _ _ (by omega))] at this
        exact this) (i - q) (by omega)
      simp only [along] at this
      rw [show ((q : ℤ) - p + ((i - q : ℕ) : ℤ) + ((p + 1 : ℕ) : ℤ)).toNat = i + 1 by push_cast; omega, show ((q : ℤ) - p + ((i - q : ℕ) : ℤ) - 1 + ((p + 1 : ℕ) : ℤ)).toNat = i by push_cast; omega] at this
      exact this
    intro i
    induction i with
    | zero => intro _; rfl
    | succ i ih => intro hi; rw [hstep i (by omega), ih (by omega)]

end clamped

/-! ## Periodic knots -/

section periodic

variable {n : ℕ} {b : ℕ → ℝ}

theorem periodic_cell (hn : 1 ≤ n) (q : ℕ) (hq : q < n) : periodicKnots n b q = b q := by
  rw [periodicKnots, Int.emod_eq_of_lt (by omega) (by omega), Int.ediv_eq_zero_of_lt (by omega) (by omega)]
  simp

theorem periodic_end (hn : 1 ≤ n) : periodicKnots n b n = b n := by
  rw [periodicKnots, Int.emod_self, Int.ediv_self (by omega)]
  simp

theorem periodic_shift (hn : 1 ≤ n) (i : ℤ) : periodicKnots n b (i + n) = periodicKnots n b i + (b n - b 0) := by
  rw [periodicKnots, periodicKnots, Int.add_emod_right, Int.add_ediv_of_dvd_right (dvd_refl _), Int.ediv_self (by omega)]
  push_cast
  ring

theorem periodic_cell' (hn : 1 ≤ n) (q : ℕ) (hq : q ≤ n) : periodicKnots n b q = b q := by
  rcases Nat.lt_or_ge q n with h | h
  · exact periodic_cell hn q h
  · rw [show q = n by omega, periodic_end hn]

theorem periodic_lt (hn : 1 ≤ n) (hb : ∀ i < n, b i < b (i + 1)) (i : ℤ) : periodicKnots n b i < periodicKnots n b (i + 1) := by
  have key : ∀ (q : ℕ) (k : ℤ), q < n → periodicKnots n b (q + k * n) < periodicKnots n b (q + 1 + k * n) := by
    have hk : ∀ (k : ℤ) (j : ℤ), periodicKnots n b (j + k * n) = periodicKnots n b j + k * (b n - b 0) := by
      intro k j
      rw [periodicKnots, periodicKnots, Int.add_mul_emod_self_right, Int.add_mul_ediv_right _ _ (by omega)]
      push_cast
      ring
    intro q k hq
    rw [hk, hk, show (q : ℤ) + 1 = ((q + 1 : ℕ) : ℤ) by push_cast; ring, periodic_cell' hn q (by omega), periodic_cell' hn (q + 1) (by omega)]
    have := hb q hq
    linarith
  have h0 : 0 ≤ i % n := Int.emod_nonneg _ (by omega)
  have h1 : i % n < n := Int.emod_lt_of_pos _ (by omega)
  have h2 := Int.emod_add_mul_ediv i n
  have := key (i % n).toNat (i / n) (by omega)
  rw [show (((i % n).toNat : ℕ) : ℤ) = i % n by omega, show i % n + i / n * n = i by linarith, show i % n + 1 + i / n * n = i + 1 by linarith] at this
  exact this

theorem periodic_mono (hn : 1 ≤ n) (hb : ∀ i < n, b i < b (i + 1)) : Monotone (periodicKnots n b) :=
  monotone_int_of_le_succ fun i => (periodic_lt hn hb i).le

/-- The coefficients, as numbered along the knots. -/
def around (d n : ℕ) (c : ℕ → ℝ) (i : ℤ) : ℝ := c ((i + d) % n).toNat

theorem around_eq (d q : ℕ) (c : ℕ → ℝ) (hn : 1 ≤ n) : ∀ j < d + 1, c ((j + q) % n) = around d n c (q - d + j) := by
  intro j hj
  rw [around, show (q : ℤ) - d + j + d = ((j + q : ℕ) : ℤ) by push_cast; ring, ← Int.natCast_mod, Int.toNat_natCast]

theorem piece_shift {t : ℤ → ℝ} {s : ℤ} {L : ℝ} (h : ∀ i, t (i + s) = t i + L) (c : ℤ) (p : ℕ) (i : ℤ) (x : ℝ) : (piece t (c + s) p (i + s)).eval (x + L) = (piece t c p i).eval x := by
  induction p generalizing i with
  | zero =>
    simp only [piece]
    by_cases hi : i = c
    · rw [if_pos hi, if_pos (by omega)]; simp
    · rw [if_neg hi, if_neg (by omega)]; simp
  | succ p ih =>
    rw [piece_succ, piece_succ]
    simp only [eval_add, eval_mul, eval_C, eval_sub, eval_X]
    rw [show i + s + (p : ℤ) + 1 = i + p + 1 + s by ring, show i + s + (p : ℤ) + 2 = i + p + 2 + s by ring, show i + s + 1 = i + 1 + s by ring, h, h, h, h, ih, ih]
    ring

theorem window (g : ℕ → ℝ) (n : ℕ) (hg : ∀ k, g (k + n) = g k) (N : ℕ) : ∑ k ∈ range (N + n), g k = ∑ k ∈ range N, g k + ∑ k ∈ range n, g k := by
  induction N with
  | zero => simp
  | succ N ih => rw [show N + 1 + n = N + n + 1 by ring, sum_range_succ, ih, hg, sum_range_succ]; ring

/-- The integrals of the periodic B-splines, as DDC computes them (`ddc::integrals`, used at `fem_1d_poisson_solver.hpp:330-345`): width of the support over `degree + 1`. -/
noncomputable def integrals (n d : ℕ) (b : ℕ → ℝ) (r : ℕ) : ℝ := (periodicKnots n b (r + 1) - periodicKnots n b (r - d)) / (d + 1)

/-- Every periodic spline has a primitive in each cell, and the integrals of the cells add up to the sum of the coefficients times the integrals of the B-splines. -/
theorem periodic_primitive {d : ℕ} (hn : 1 ≤ n) (hb : ∀ i < n, b i < b (i + 1)) (c : ℕ → ℝ) :
    ∃ F : ℕ → ℝ[X], (∀ q, derivative (F q) = spl (periodicKnots n b) q d (around d n c) ∧ (F q).natDegree ≤ d + 1) ∧
      ∑ q ∈ range n, ((F q).eval (b (q + 1)) - (F q).eval (b q)) = ∑ r ∈ range n, c r * integrals n d b r := by
  obtain ⟨t, ht⟩ : ∃ t, t = periodicKnots n b := ⟨_, rfl⟩
  have tm : Monotone t := ht ▸ periodic_mono hn hb
  have tl : ∀ i, t i < t (i + 1) := ht ▸ periodic_lt hn hb
  have ts : ∀ i, t (i + n) = t i + (b n - b 0) := ht ▸ periodic_shift hn
  have tb : ∀ q ≤ n, t ((q : ℕ) : ℤ) = b q := fun q hq => ht ▸ periodic_cell' hn q hq
  obtain ⟨g, hg⟩ : ∃ g : ℕ → ℝ, g = fun k => c (k % n) * integrals n d b k := ⟨_, rfl⟩
  have gper : ∀ k, g (k + n) = g k := by
    intro k
    simp only [hg, integrals, ← ht]
    rw [Nat.add_mod_right, show (((k + n : ℕ) : ℤ) + 1) = (k : ℤ) + 1 + n by push_cast; ring, show (((k + n : ℕ) : ℤ) - d) = (k : ℤ) - d + n by push_cast; ring, ts, ts]
    ring
  obtain ⟨A, hA⟩ : ∃ A : ℤ → ℝ, A = fun i : ℤ => ∑ k ∈ range (i + (d : ℤ) + 1).toNat, g k := ⟨_, rfl⟩
  have hder : ∀ q : ℕ, derivative (spl t q (d + 1) A) = spl t q d (around d n c) := by
    intro q
    have h := deriv_sum tm (tl q) d A
    rw [spl, spl]
    push_cast
    rw [h]
    refine sum_congr rfl fun j hj => ?_
    have hj := mem_range.1 hj
    refine congrArg (fun z => C z * _) ?_
    have hden := den_pos tm (tl q) d ((q : ℤ) - d + j) (by omega) (by omega)
    have hstep : A (q - d + j) - A (q - d + j - 1) = g (q + j) := by
      simp only [hA]
      rw [show ((q : ℤ) - d + j + d + 1).toNat = q + j + 1 by omega, show ((q : ℤ) - d + j - 1 + d + 1).toNat = q + j by omega, sum_range_succ]
      ring
    rw [hstep, ← around_eq d q c hn j hj, hg]
    simp only [integrals, ← ht]
    rw [show (((q + j : ℕ) : ℤ) + 1) = (q : ℤ) - d + j + d + 1 by push_cast; ring, show (((q + j : ℕ) : ℤ) - d) = (q : ℤ) - d + j by push_cast; ring, add_comm q j]
    have : (d : ℝ) + 1 ≠ 0 := by positivity
    field_simp
  refine ⟨fun q => spl t q (d + 1) A, fun q => ⟨ht ▸ hder q, spl_degree _ _⟩, ?_⟩
  have hcell : ∀ q ∈ range n, (spl t q (d + 1) A).eval (b (q + 1)) - (spl t q (d + 1) A).eval (b q) = (spl t ((q + 1 : ℕ) : ℤ) (d + 1) A).eval (t ((q + 1 : ℕ) : ℤ)) - (spl t q (d + 1) A).eval (t q) := by
    intro q hq
    have hq := mem_range.1 hq
    rw [← tb q (by omega), ← tb (q + 1) (by omega)]
    have hcont := spl_continuous (c := (q : ℤ)) (tl q) (by have := tl (q + 1); rwa [show (q : ℤ) + 1 + 1 = q + 2 by ring] at this) d A
    rw [show (((q + 1 : ℕ) : ℤ)) = (q : ℤ) + 1 by push_cast; ring, ← hcont]
  rw [sum_congr rfl hcell, sum_range_sub (fun q : ℕ => (spl t (q : ℤ) (d + 1) A).eval (t (q : ℤ)))]
  have hfull : ∑ r ∈ range n, c r * integrals n d b r = ∑ k ∈ range n, g k := by
    refine sum_congr rfl fun r hr => ?_
    simp only [hg]
    rw [Nat.mod_eq_of_lt (mem_range.1 hr)]
  have hAs : ∀ j : ℕ, A ((n : ℤ) - (d + 1) + j) = A ((0 : ℤ) - (d + 1) + j) + ∑ k ∈ range n, g k := by
    intro j
    simp only [hA]
    rw [show ((n : ℤ) - (d + 1) + j + d + 1).toNat = j + n by omega, show ((0 : ℤ) - (d + 1) + j + d + 1).toNat = j by omega, window g n gper]
  have hend : (spl t (n : ℤ) (d + 1) A).eval (t n) = (spl t 0 (d + 1) A).eval (t 0) + ∑ k ∈ range n, g k := by
    have hu := congrArg (eval (t 0)) (unity tm (tl 0) (d + 1))
    simp only [spl, eval_finsetSum, eval_mul, eval_C, eval_one] at hu ⊢
    have e : ∀ j ∈ range (d + 1 + 1), A ((n : ℤ) - ((d + 1 : ℕ) : ℤ) + j) * (piece t n (d + 1) ((n : ℤ) - ((d + 1 : ℕ) : ℤ) + j)).eval (t n) =
        A ((0 : ℤ) - ((d + 1 : ℕ) : ℤ) + j) * (piece t 0 (d + 1) ((0 : ℤ) - ((d + 1 : ℕ) : ℤ) + j)).eval (t 0) + (∑ k ∈ range n, g k) * (piece t 0 (d + 1) ((0 : ℤ) - ((d + 1 : ℕ) : ℤ) + j)).eval (t 0) := by
      intro j _
      have h1 := hAs j
      have h2 := piece_shift ts 0 (d + 1) ((0 : ℤ) - ((d + 1 : ℕ) : ℤ) + j) (t 0)
      rw [zero_add, ← ts 0, zero_add, show (0 : ℤ) - ((d + 1 : ℕ) : ℤ) + j + n = (n : ℤ) - ((d + 1 : ℕ) : ℤ) + j by ring] at h2
      rw [h2]
      push_cast at h1 ⊢
      rw [h1]
      ring
    rw [sum_congr rfl e, sum_add_distrib, ← mul_sum, hu, mul_one]
  rw [hfull, hend, Nat.cast_zero]
  ring

/-- The quadrature integrates periodic splines exactly, and the integral of B-spline number `r` is the width of its support over `d + 1`. -/
theorem integral_value {d k : ℕ} (hk : d ≤ k) (hn : 1 ≤ n) (hb : ∀ i < n, b i < b (i + 1)) {rule : ℕ → List (ℝ × ℝ)} (R : Rule n d k b rule) (c : ℕ → ℝ) :
    ∑ r ∈ range n, c r * integrals n d b r = Fem.integral (points (periodicKnots n b) d n rule) (Fem.value d n c) := by
  obtain ⟨F, hF, hsum⟩ := periodic_primitive (d := d) hn hb c
  rw [← hsum, integral_points]
  refine sum_congr rfl fun q hq => ?_
  rw [← R.exact q (mem_range.1 hq) (F q) ((hF q).2.trans (by omega)), (hF q).1]
  refine congrArg List.sum (List.map_congr_left fun xw _ => ?_)
  rw [value_pt _ d n q xw c (around d n c) (around_eq d q c hn)]

/-- C114: the hypotheses of C52 hold of the periodic B-splines of every degree `d ≥ 1` on any increasing break points, with any quadrature with `d` distinct points in every cell which is exact up to
the degree `d`. -/
theorem c114_periodic_space {d k : ℕ} (hd : 1 ≤ d) (hk : d ≤ k) (hn : 1 ≤ n) (hb : ∀ i < n, b i < b (i + 1)) {rule : ℕ → List (ℝ × ℝ)} (R : Rule n d k b rule) :
    Fem.PeriodicSpace d n (points (periodicKnots n b) d n rule) (integrals n d b) where
  pos := by omega
  jmin_lt p hp := by
    obtain ⟨q, hq, xw, _, rfl⟩ := mem_points.1 hp
    exact hq
  weight p hp := by
    obtain ⟨q, hq, xw, hx, rfl⟩ := mem_points.1 hp
    exact R.weight q hq xw hx
  nonempty := by
    have h := R.enough 0 (by omega)
    obtain ⟨xw, hxw⟩ := List.exists_mem_of_length_pos (l := rule 0) (by omega)
    exact List.ne_nil_of_mem (mem_points.2 ⟨0, by omega, xw, hxw, rfl⟩)
  unity p hp := by
    obtain ⟨q, hq, xw, hx, rfl⟩ := mem_points.1 hp
    have := congrArg (eval xw.1) (unity (periodic_mono hn hb) (periodic_lt hn hb q) d)
    simpa only [eval_finsetSum, eval_one, pt] using this
  unity' p hp := by
    obtain ⟨q, hq, xw, hx, rfl⟩ := mem_points.1 hp
    have := congrArg (fun P => eval xw.1 (derivative P)) (unity (periodic_mono hn hb) (periodic_lt hn hb q) d)
    simpa only [derivative_sum, eval_finsetSum, derivative_one, eval_zero, pt] using this
  integrals c := integral_value hk hn hb R c
  definite c hc := by
    obtain ⟨p, rfl⟩ : ∃ p, d = p + 1 := ⟨d - 1, by omega⟩
    intro i
    induction i with
    | zero => intro _; rfl
    | succ i ih =>
      intro hi
      rw [← ih (by omega)]
      have hin : i < n := by omega
      have := flat (periodic_mono hn hb) (periodic_lt hn hb i) p (around (p + 1) n c) ((rule i).map Prod.fst) (R.distinct i hin) (by rw [List.length_map]; exact R.enough i hin) (by
        intro x hx
        obtain ⟨xw, hxw, rfl⟩ := List.mem_map.1 hx
        have := hc (pt (periodicKnots n b) (p + 1) i xw) (mem_points.2 ⟨i, hin, xw, hxw, rfl⟩)
        rw [slope_pt _ _ _ _ _ _ (around (p + 1) n c) (around_eq _ _ _ hn)] at this
        exact this) 0 (by omega)
      simp only [around] at this
      rw [show (i : ℤ) - p + ((0 : ℕ) : ℤ) + ((p + 1 : ℕ) : ℤ) = ((i + 1 : ℕ) : ℤ) by push_cast; ring, show (i : ℤ) - p + ((0 : ℕ) : ℤ) - 1 + ((p + 1 : ℕ) : ℤ) = ((i : ℕ) : ℤ) by push_cast; ring,
        ← Int.natCast_mod, ← Int.natCast_mod, Int.toNat_natCast, Int.toNat_natCast, Nat.mod_eq_of_lt hi, Nat.mod_eq_of_lt hin] at this
      exact this

end periodic

end Verif.BSpline
