import Verif.Model.SplineInterp
import Verif.Props.SplineEnergy

/-!
# C115, C116: the interpolation problem of the spline builders is well posed

Specification: `PeriodicInterpolant` and `HermiteInterpolant` say which values and derivatives the spline has.
-/

namespace Verif.SplineInterp

open Verif.BSpline Verif.SplineQuadrature Polynomial Finset

theorem derivAt_eq (t : ℤ → ℝ) (d N q k : ℕ) (x : ℝ) (c : ℕ → ℝ) (a : ℤ → ℝ) (h : ∀ j < d + 1, c ((j + q) % N) = a (q - d + j)) : derivAt t d N q k x c = (derivative^[k] (spl t q d a)).eval x := by
  simp only [derivAt, spl, iterate_derivative_sum, eval_finsetSum, iterate_derivative_C_mul, eval_mul, eval_C]
  exact sum_congr rfl fun j hj => by rw [h j (mem_range.1 hj)]

section
variable {n d e : ℕ} {b : ℕ → ℝ}

theorem clamped_smooth (hb : ∀ i < n, b i < b (i + 1)) (a : ℤ → ℝ) (q : ℕ) (hq : q + 1 < n) (k : ℕ) (hk : k < d) :
    (derivative^[k] (spl (clampedKnots n b) q d a)).eval (b (q + 1)) = (derivative^[k] (spl (clampedKnots n b) ((q + 1 : ℕ) : ℤ) d a)).eval (b (q + 1)) := by
  have t0 : clampedKnots n b q = b q := clamped_cell q (by omega)
  have t1 : clampedKnots n b ((q : ℤ) + 1) = b (q + 1) := by rw [show (q : ℤ) + 1 = ((q + 1 : ℕ) : ℤ) by push_cast; ring, clamped_cell (q + 1) (by omega)]
  have t2 : clampedKnots n b ((q : ℤ) + 2) = b (q + 2) := by rw [show (q : ℤ) + 2 = ((q + 2 : ℕ) : ℤ) by push_cast; ring, clamped_cell (q + 2) (by omega)]
  have := spl_smooth (clamped_mono hb) (c := q) (by rw [t0, t1]; exact hb q (by omega)) (by rw [t1, t2]; exact hb (q + 1) (by omega)) k d a hk
  rw [t1] at this
  push_cast
  exact this

theorem periodic_smooth (hn : 1 ≤ n) (hb : ∀ i < n, b i < b (i + 1)) (a : ℤ → ℝ) (q : ℕ) (hq : q < n) (k : ℕ) (hk : k < d) :
    (derivative^[k] (spl (periodicKnots n b) q d a)).eval (b (q + 1)) = (derivative^[k] (spl (periodicKnots n b) ((q + 1 : ℕ) : ℤ) d a)).eval (b (q + 1)) := by
  have t1 : periodicKnots n b ((q : ℤ) + 1) = b (q + 1) := by rw [show (q : ℤ) + 1 = ((q + 1 : ℕ) : ℤ) by push_cast; ring, periodic_cell' hn (q + 1) (by omega)]
  have := spl_smooth (periodic_mono hn hb) (c := q) (periodic_lt hn hb q) (by have := periodic_lt hn hb ((q : ℤ) + 1); rwa [show (q : ℤ) + 1 + 1 = q + 2 by ring] at this) k d a hk
  rw [t1] at this
  push_cast
  exact this

theorem around_shift (c : ℕ → ℝ) (i : ℤ) : around d n c (i + n) = around d n c i := by
  rw [around, around, show i + (n : ℤ) + d = i + d + n by ring, Int.add_emod_right]

theorem periodic_wrap (hn : 1 ≤ n) (hb : ∀ i < n, b i < b (i + 1)) (c : ℕ → ℝ) (k : ℕ) (hk : k < d) :
    (derivative^[k] (spl (periodicKnots n b) ((n - 1 : ℕ) : ℤ) d (around d n c))).eval (b n) = (derivative^[k] (spl (periodicKnots n b) ((0 : ℕ) : ℤ) d (around d n c))).eval (b 0) := by
  have h1 := periodic_smooth (d := d) hn hb (around d n c) (n - 1) (by omega) k hk
  rw [show n - 1 + 1 = n by omega] at h1
  rw [h1]
  have h2 := spl_shift (periodic_mono hn hb) (periodic_shift (b := b) hn) (c := 0) (by have := periodic_lt hn hb 0; exact this) k d (around d n c) (around_shift c) (b 0)
  rw [zero_add, add_sub_cancel] at h2
  exact h2

/-- A periodic spline of odd degree which vanishes at the break points is zero. -/
theorem periodic_unique (hn : 1 ≤ n) (hb : ∀ i < n, b i < b (i + 1)) (c : ℕ → ℝ) (h : PeriodicInterpolant n (2 * e + 1) b (fun _ => 0) c) : ∀ j < n, c j = 0 := by
  obtain ⟨P, hP⟩ : ∃ P : ℕ → ℝ[X], P = fun q : ℕ => spl (periodicKnots n b) q (2 * e + 1) (around (2 * e + 1) n c) := ⟨_, rfl⟩
  have hcont : ∀ q < n, ∀ k ≤ 2 * e, (derivative^[k] (P q)).eval (b (q + 1)) = (derivative^[k] (P (q + 1))).eval (b (q + 1)) := fun q hq k hk => by
    rw [hP]; exact periodic_smooth hn hb _ q hq k (by omega)
  have hper : ∀ k ≤ 2 * e, (derivative^[k] (P (n - 1))).eval (b n) = (derivative^[k] (P 0)).eval (b 0) := fun k hk => by
    rw [hP]; exact periodic_wrap hn hb c k (by omega)
  have hv : ∀ q < n, (P q).eval (b q) = 0 := fun q hq => by
    rw [hP, ← valueAt_eq (N := n) (c := c) (h := around_eq (2 * e + 1) q c hn)]
    exact h q hq
  have hz := periodic_zero (e := e) hn hb (P := P) (fun q _ => by rw [hP]; exact spl_degree _ _) (fun q hq k hk => hcont q (by omega) k hk) (fun q hq => ⟨hv q hq, by
    by_cases hl : q + 1 < n
    · have := hcont q hq 0 (by omega)
      simp only [Function.iterate_zero, id_eq] at this
      rw [this]; exact hv _ hl
    · have := hper 0 (by omega)
      simp only [Function.iterate_zero, id_eq] at this
      rw [show q = n - 1 by omega, show n - 1 + 1 = n by omega, this]; exact hv 0 (by omega)⟩) hper
  intro j hj
  have hj0 := hz j hj
  rw [hP] at hj0
  have := independent (periodic_mono hn hb) (periodic_lt hn hb j) (2 * e + 1) _ hj0 0 (by omega)
  have e0 := around_eq (n := n) (2 * e + 1) j c hn 0 (by omega)
  push_cast at this e0
  rw [← e0, zero_add, Nat.mod_eq_of_lt hj] at this
  exact this

/-- A spline of odd degree which vanishes at the break points and whose derivatives vanish at the ends up to half the degree is zero. -/
theorem hermite_unique (hn : 1 ≤ n) (hb : ∀ i < n, b i < b (i + 1)) (c : ℕ → ℝ) (h : HermiteInterpolant n (2 * e + 1) b (fun _ => 0) (fun _ => 0) (fun _ => 0) c) : ∀ j < n + (2 * e + 1), c j = 0 := by
  obtain ⟨P, hP⟩ : ∃ P : ℕ → ℝ[X], P = fun q : ℕ => spl (clampedKnots n b) q (2 * e + 1) (along (2 * e + 1) c) := ⟨_, rfl⟩
  have hcont : ∀ q, q + 1 < n → ∀ k ≤ 2 * e, (derivative^[k] (P q)).eval (b (q + 1)) = (derivative^[k] (P (q + 1))).eval (b (q + 1)) := fun q hq k hk => by
    rw [hP]; exact clamped_smooth hb _ q hq k (by omega)
  have hval : ∀ q < n, ∀ x, valueAt (clampedKnots n b) (2 * e + 1) (n + (2 * e + 1)) q x c = (P q).eval x := fun q hq x => by
    rw [hP]; exact valueAt_eq _ _ _ _ _ _ _ (along_eq _ _ q c (by omega))
  have hder : ∀ q < n, ∀ k x, derivAt (clampedKnots n b) (2 * e + 1) (n + (2 * e + 1)) q k x c = (derivative^[k] (P q)).eval x := fun q hq k x => by
    rw [hP]; exact derivAt_eq _ _ _ _ _ _ _ _ (along_eq _ _ q c (by omega))
  have hv : ∀ q < n, (P q).eval (b q) = 0 := fun q hq => by rw [← hval q hq]; exact h.value q hq
  have hz := hermite_zero (e := e) hn hb (P := P) (fun q _ => by rw [hP]; exact spl_degree _ _) hcont (fun q hq => ⟨hv q hq, by
    by_cases hl : q + 1 < n
    · have := hcont q hl 0 (by omega)
      simp only [Function.iterate_zero, id_eq] at this
      rw [this]; exact hv _ hl
    · rw [show q = n - 1 by omega, show n - 1 + 1 = n by omega, ← hval (n - 1) (by omega)]; exact h.last⟩)
    (fun k h1 h2 => by rw [← hder 0 (by omega)]; exact h.left k h1 (by omega)) (fun k h1 h2 => by rw [← hder (n - 1) (by omega)]; exact h.right k h1 (by omega))
  have hcell : ∀ q < n, clampedKnots n b q < clampedKnots n b ((q : ℤ) + 1) := by
    intro q hq
    rw [clamped_cell q (by omega), show (q : ℤ) + 1 = ((q + 1 : ℕ) : ℤ) by push_cast; ring, clamped_cell (q + 1) (by omega)]
    exact hb q hq
  intro j hj
  obtain ⟨q, hq⟩ : ∃ q, q = min j (n - 1) := ⟨_, rfl⟩
  have hq0 := hz q (by omega)
  rw [hP] at hq0
  have := independent (clamped_mono hb) (hcell q (by omega)) (2 * e + 1) _ hq0 (j - q) (by omega)
  have e0 := along_eq (2 * e + 1) (n + (2 * e + 1)) q c (by omega) (j - q) (by omega)
  push_cast at this e0
  rw [← e0, show j - q + q = j by omega, Nat.mod_eq_of_lt hj] at this
  exact this

end

/-- Rows given by sums over the basis functions of the cell are linear. -/
theorem derivAt_linear (t : ℤ → ℝ) (d N q k : ℕ) (x : ℝ) (hN : 0 < N) (c : ℕ → ℝ) : ∑ j ∈ range N, c j * derivAt t d N q k x (unit j) = derivAt t d N q k x c := row_linear N d q hN _ c

theorem valueAt_derivAt (t : ℤ → ℝ) (d N q : ℕ) (x : ℝ) (c : ℕ → ℝ) : valueAt t d N q x c = derivAt t d N q 0 x c := rfl

/-- A square system of linear equations with at most one solution has one. -/
theorem square_system {N : ℕ} (row : ℕ → (ℕ → ℝ) → ℝ) (hlin : ∀ i < N, ∀ c : ℕ → ℝ, ∑ k ∈ range N, c k * row i (unit k) = row i c) (huniq : ∀ c, (∀ i < N, row i c = 0) → ∀ j < N, c j = 0) (v : ℕ → ℝ) :
    ∃ c, (∀ i < N, row i c = v i) ∧ ∀ c', (∀ i < N, row i c' = v i) → ∀ j < N, c' j = c j := by
  have hrow : ∀ c : ℕ → ℝ, ∀ i < N, ∑ j ∈ range N, row i (unit j) * c j = row i c := fun c i hi => by
    rw [← hlin i hi c]
    exact sum_congr rfl fun k _ => mul_comm _ _
  obtain ⟨c, hc⟩ := solvable N (fun i j => row i (unit j)) (fun x hx => huniq x fun i hi => by rw [← hrow x i hi]; exact hx i hi) v
  refine ⟨c, fun i hi => by rw [← hrow c i hi]; exact hc i hi, fun c' hc' j hj => ?_⟩
  have := huniq (fun k => c' k - c k) (fun i hi => by
    rw [← hrow _ i hi]
    simp only [mul_sub, sum_sub_distrib]
    rw [hrow c' i hi, hc' i hi, hc i hi, sub_self]) j hj
  linarith

/-- C116 (well posed, periodic): for every odd degree and every increasing break points there is exactly one periodic spline with given values at the break points. -/
theorem c116_periodic_unique {n e : ℕ} {b : ℕ → ℝ} (hn : 1 ≤ n) (hb : ∀ i < n, b i < b (i + 1)) (v : ℕ → ℝ) :
    ∃ c, PeriodicInterpolant n (2 * e + 1) b v c ∧ ∀ c', PeriodicInterpolant n (2 * e + 1) b v c' → ∀ j < n, c' j = c j :=
  square_system (fun q => valueAt (periodicKnots n b) (2 * e + 1) n q (b q)) (fun i _ c => row_linear n _ i (by omega) _ c) (fun c hc => periodic_unique hn hb c hc) v

/-- C116 (well posed, Hermite): for every odd degree and every increasing break points there is exactly one spline with given values at the break points and given derivatives at the ends. -/
theorem c116_hermite_unique {n e : ℕ} {b : ℕ → ℝ} (hn : 1 ≤ n) (hb : ∀ i < n, b i < b (i + 1)) (v dl dr : ℕ → ℝ) :
    ∃ c, HermiteInterpolant n (2 * e + 1) b v dl dr c ∧ ∀ c', HermiteInterpolant n (2 * e + 1) b v dl dr c' → ∀ j < n + (2 * e + 1), c' j = c j := by
  obtain ⟨N, hN⟩ : ∃ N, N = n + (2 * e + 1) := ⟨_, rfl⟩
  obtain ⟨row, hr⟩ : ∃ row : ℕ → (ℕ → ℝ) → ℝ, row = fun i => if i < n then derivAt (clampedKnots n b) (2 * e + 1) N i 0 (b i) else if i = n then derivAt (clampedKnots n b) (2 * e + 1) N (n - 1) 0 (b n)
    else if i ≤ n + e then derivAt (clampedKnots n b) (2 * e + 1) N 0 (i - n) (b 0) else derivAt (clampedKnots n b) (2 * e + 1) N (n - 1) (i - n - e) (b n) := ⟨_, rfl⟩
  obtain ⟨u, hu⟩ : ∃ u : (ℕ → ℝ) → (ℕ → ℝ) → (ℕ → ℝ) → ℕ → ℝ, u = fun v dl dr i => if i < n then v i else if i = n then v n else if i ≤ n + e then dl (i - n) else dr (i - n - e) := ⟨_, rfl⟩
  have key : ∀ v dl dr c, (∀ i < N, row i c = u v dl dr i) ↔ HermiteInterpolant n (2 * e + 1) b v dl dr c := by
    intro v dl dr c
    constructor
    · intro h
      rw [hr, hu] at h
      refine ⟨fun q hq => ?_, ?_, fun k h1 h2 => ?_, fun k h1 h2 => ?_⟩
      · have := h q (by omega)
        simp only [if_pos hq] at this
        rw [← hN]; exact this
      · have := h n (by omega)
        simp only [lt_irrefl, if_false, if_true] at this
        rw [← hN]; exact this
      · have := h (n + k) (by omega)
        simp only [if_neg (show ¬ n + k < n by omega), if_neg (show n + k ≠ n by omega), if_pos (show n + k ≤ n + e by omega), Nat.add_sub_cancel_left] at this
        rw [← hN]; exact this
      · have := h (n + e + k) (by omega)
        simp only [if_neg (show ¬ n + e + k < n by omega), if_neg (show n + e + k ≠ n by omega), if_neg (show ¬ n + e + k ≤ n + e by omega), show n + e + k - n - e = k by omega] at this
        rw [← hN]; exact this
    · intro h i hi
      obtain ⟨h1, h2, h3, h4⟩ := h
      rw [← hN] at h1 h2 h3 h4
      rw [hr, hu]
      beta_reduce
      split_ifs with a1 a2 a3
      · exact h1 i a1
      · exact h2
      · exact h3 _ (by omega) (by omega)
      · exact h4 _ (by omega) (by omega)
  have hlin : ∀ i < N, ∀ c : ℕ → ℝ, ∑ k ∈ range N, c k * row i (unit k) = row i c := by
    intro i _ c
    rw [hr]
    beta_reduce
    split_ifs <;> exact derivAt_linear _ _ _ _ _ _ (by omega) c
  have hzero : u (fun _ => 0) (fun _ => 0) (fun _ => 0) = fun _ => 0 := by
    rw [hu]
    funext i
    simp
  obtain ⟨c, h1, h2⟩ := square_system row hlin (fun c hc => by
    rw [hN]
    exact hermite_unique hn hb c ((key _ _ _ c).1 (by rw [hzero]; exact hc))) (u v dl dr)
  rw [hN] at h2
  exact ⟨c, (key _ _ _ c).1 h1, fun c' hc' => h2 c' (by rw [← hN]; exact (key _ _ _ c').2 hc')⟩

/-- C116 (limit): the degree has to be odd. With quadratic splines on two equal cells the spline with the coefficients `1, -1` vanishes at both break points. -/
theorem c116_even_degree_singular : PeriodicInterpolant 2 2 (fun q => (q : ℝ)) (fun _ => 0) (fun j => if j = 0 then 1 else -1) := by
  have hk : ∀ i : ℤ, periodicKnots 2 (fun q => (q : ℝ)) i = i := by
    intro i
    have h := Int.emod_add_mul_ediv i 2
    rcases Int.emod_two_eq_zero_or_one i with h0 | h0
    · rw [periodicKnots]
      push_cast
      rw [h0] at h ⊢
      have h' : (i : ℝ) = 2 * ((i / 2 : ℤ) : ℝ) := by exact_mod_cast (by linarith : i = 2 * (i / 2))
      simp only [Int.toNat_zero, Nat.cast_zero]
      rw [h']; ring_nf
    · rw [periodicKnots]
      push_cast
      rw [h0] at h ⊢
      have h' : (i : ℝ) = 1 + 2 * ((i / 2 : ℤ) : ℝ) := by exact_mod_cast (by linarith : i = 1 + 2 * (i / 2))
      simp only [Int.toNat_one, Nat.cast_one]
      rw [h']; ring_nf
  intro q hq
  interval_cases q <;> simp [valueAt, pt, sum_range_succ, piece, hk] <;> norm_num

/-- Instance: splines of degree 5 on the strongly non-uniform break points `1, 2, 4, 8, …`. -/
example (v dl dr : ℕ → ℝ) : ∃ c, HermiteInterpolant 20 5 (fun q => (2 : ℝ) ^ q) v dl dr c :=
  (c116_hermite_unique (e := 2) (by norm_num) (fun i _ => by rw [pow_succ]; linarith [pow_pos (by norm_num : (0 : ℝ) < 2) i]) v dl dr).imp fun _ h => h.1

/-! ## The coefficients of the spline quadratures -/

/-- C115 (existence, periodic): for every odd degree and every increasing break points, there is exactly one list of coefficients for the interpolation points at the break points. -/
theorem c115_periodic_coefficients {n e : ℕ} {b : ℕ → ℝ} (hn : 1 ≤ n) (hb : ∀ i < n, b i < b (i + 1)) (m : ℕ → ℝ) :
    ∃! w, QuadratureCoefficients n (valueRows (periodicKnots n b) (2 * e + 1) n ((List.range n).map fun q => (q, b q))) m w := by
  refine c115_coefficients_exist (by simp [valueRows]) (valueRows_linear _ _ _ (by omega) _) (fun c hc => periodic_unique (e := e) hn hb c fun q hq => ?_) m
  refine hc (valueAt (periodicKnots n b) (2 * e + 1) n q (b q)) ?_
  simp only [valueRows, List.map_map, List.mem_map, List.mem_range]
  exact ⟨q, hq, rfl⟩

/-- C115 (existence, Neumann): the same for the cubic Hermite splines of the Neumann quadrature. -/
theorem c115_neumann_coefficients {n : ℕ} {b : ℕ → ℝ} (hn : 1 ≤ n) (hb : ∀ i < n, b i < b (i + 1)) (m : ℕ → ℝ) :
    ∃! w, QuadratureCoefficients (n + 3) (hermiteRows n b (clampedKnots n b) 3 (n + 3) (((List.range n).map fun q => (q, b q)) ++ [(n - 1, b n)])) m w := by
  refine c115_coefficients_exist (by simp [hermiteRows, valueRows]) ?_ (fun c hc => hermite_unique (e := 1) hn hb c ⟨fun q hq => ?_, ?_, fun k h1 h2 => ?_, fun k h1 h2 => ?_⟩) m
  · intro row hrow c
    simp only [hermiteRows, List.mem_cons, List.mem_append, List.not_mem_nil, or_false] at hrow
    rcases hrow with rfl | hrow | rfl
    · exact row_linear (n + 3) 3 0 (by omega) _ c
    · exact valueRows_linear _ _ _ (by omega) _ row hrow c
    · exact row_linear (n + 3) 3 (n - 1) (by omega) _ c
  · refine hc (valueAt (clampedKnots n b) 3 (n + 3) q (b q)) ?_
    simp only [hermiteRows, valueRows, List.map_append, List.map_map, List.mem_cons, List.mem_append, List.mem_map, List.mem_range]
    exact Or.inr (Or.inl (Or.inl ⟨q, hq, rfl⟩))
  · refine hc (valueAt (clampedKnots n b) 3 (n + 3) (n - 1) (b n)) ?_
    simp [hermiteRows, valueRows]
  · obtain rfl : k = 1 := by omega
    refine hc (slopeAt (clampedKnots n b) 3 (n + 3) 0 (b 0)) ?_
    simp [hermiteRows]
  · obtain rfl : k = 1 := by omega
    refine hc (slopeAt (clampedKnots n b) 3 (n + 3) (n - 1) (b n)) ?_
    simp [hermiteRows]

end Verif.SplineInterp
