import Verif.Model.FloatAdvection
import Verif.Props.FloatLagrange
import Verif.Props.AdvectionStability
import Verif.Props.Rounding
import Mathlib.Algebra.Order.Chebyshev

/-! Property C109: many steps of the semi-Lagrangian advection in space, with periodic Lagrange interpolation of any odd degree, computed in floating-point arithmetic: the values stay close to those of the exact scheme
and to the translated function. -/

namespace Verif.FloatAdvection

open Finset Verif.Rounding Verif.FloatWrap Verif.FloatLagrange Verif.Strang Verif.Simulation Verif.LagrangeEvaluator Verif.AccuracyAdvection

/-! ## The basis functions are Lipschitz -/

theorem prod_lipschitz (s : Finset ℕ) (B t t' : ℝ) (hB : 0 ≤ B) (h : ∀ k ∈ s, |t - k| ≤ B) (h' : ∀ k ∈ s, |t' - k| ≤ B) :
    B * |∏ k ∈ s, (t - k) - ∏ k ∈ s, (t' - k)| ≤ s.card * B ^ s.card * |t - t'| := by
  induction s using Finset.induction_on with
  | empty => simp
  | insert a s ha ih =>
    have ih := ih (fun k hk => h k (mem_insert_of_mem hk)) (fun k hk => h' k (mem_insert_of_mem hk))
    rw [prod_insert ha, prod_insert ha, card_insert_of_notMem ha]
    have e : (t - a) * ∏ k ∈ s, (t - k) - (t' - a) * ∏ k ∈ s, (t' - k) = (t - a) * (∏ k ∈ s, (t - k) - ∏ k ∈ s, (t' - k)) + (t - t') * ∏ k ∈ s, (t' - k) := by ring
    have hp : |∏ k ∈ s, (t' - k)| ≤ B ^ s.card := by
      rw [Finset.abs_prod]
      rw [← prod_const]
      exact prod_le_prod (fun k _ => abs_nonneg _) fun k hk => h' k (mem_insert_of_mem hk)
    have h1 : |(t - a) * (∏ k ∈ s, (t - k) - ∏ k ∈ s, (t' - k))| ≤ s.card * B ^ s.card * |t - t'| := by
      rw [abs_mul]
      exact (mul_le_mul_of_nonneg_right (h a (mem_insert_self _ _)) (abs_nonneg _)).trans ih
    have h2 : |(t - t') * ∏ k ∈ s, (t' - k)| ≤ |t - t'| * B ^ s.card := by rw [abs_mul]; exact mul_le_mul_of_nonneg_left hp (abs_nonneg _)
    rw [e]
    have h3 := mul_le_mul_of_nonneg_left ((abs_add_le _ _).trans (add_le_add h1 h2)) hB
    refine h3.trans (le_of_eq ?_)
    push_cast
    rw [pow_succ]
    ring

theorem weight_eq (D : ℕ) (t : ℝ) (j : ℕ) : weight D t j = (∏ k ∈ (range (D + 1)).erase j, (t - k)) / ∏ k ∈ (range (D + 1)).erase j, ((j : ℝ) - k) := by
  unfold weight
  rw [Lagrange.basis, Polynomial.eval_prod, ← prod_div_distrib]
  refine prod_congr rfl fun k _ => ?_
  simp [Lagrange.basisDivisor]
  ring

/-- The Lipschitz constant of the interpolation. -/
noncomputable def lip (D : ℕ) : ℝ := D * (D + 1) ^ D

theorem lip_nonneg (D : ℕ) : 0 ≤ lip D := by unfold lip; positivity

theorem weight_lipschitz (D : ℕ) (t t' : ℝ) (h0 : 0 ≤ t) (h1 : t ≤ D + 1) (h0' : 0 ≤ t') (h1' : t' ≤ D + 1) : ∑ j ∈ range (D + 1), |weight D t j - weight D t' j| ≤ lip D * |t - t'| := by
  have hD : (0 : ℝ) < D + 1 := by positivity
  have hb : ∀ s : ℝ, 0 ≤ s → s ≤ D + 1 → ∀ j, ∀ k ∈ (range (D + 1)).erase j, |s - k| ≤ D + 1 := by
    intro s hs0 hs1 j k hk
    have : k < D + 1 := by simpa using (mem_erase.1 hk).2
    have hk' : (k : ℝ) ≤ D := by exact_mod_cast Nat.lt_succ_iff.1 this
    have hk0 : (0 : ℝ) ≤ k := Nat.cast_nonneg k
    rw [abs_le]; constructor <;> linarith
  have hterm : ∀ j ∈ range (D + 1), (D + 1) * |weight D t j - weight D t' j| ≤ D * (D + 1) ^ D * |t - t'| := by
    intro j hj
    have hjD : j ≤ D := by simpa [Nat.lt_succ_iff] using hj
    rw [weight_eq, weight_eq, ← sub_div, abs_div]
    have hden : 1 ≤ |∏ k ∈ (range (D + 1)).erase j, ((j : ℝ) - k)| := by
      rw [Finset.abs_prod, prod_nodes D j hjD]
      exact_mod_cast Nat.mul_pos j.factorial_pos (D - j).factorial_pos
    have hp := prod_lipschitz ((range (D + 1)).erase j) (D + 1) t t' hD.le (hb t h0 h1 j) (hb t' h0' h1' j)
    rw [card_erase_of_mem hj, card_range, Nat.add_sub_cancel] at hp
    refine le_trans ?_ hp
    exact mul_le_mul_of_nonneg_left (div_le_self (abs_nonneg _) hden) hD.le
  have h := sum_le_sum hterm
  rw [← mul_sum, sum_const, card_range, nsmul_eq_mul] at h
  push_cast at h
  exact le_of_mul_le_mul_left (h.trans (le_of_eq (by unfold lip; ring))) hD

/-! ## The piecewise interpolating polynomial of a periodic line -/

/-- The value at the position `p`, in cells, of the piecewise polynomial of odd degree `D` interpolating the periodic line `c`. -/
noncomputable def piece (D N : ℕ) (c : ZMod N → ℝ) (p : ℝ) : ℝ := ∑ j ∈ range (D + 1), weight D (p - ⌊p⌋ + (D / 2 : ℕ)) j * c ((⌊p⌋ - (D / 2 : ℕ) + j : ℤ) : ZMod N)

section
variable {D N : ℕ} {c : ZMod N → ℝ} {M : ℝ}

/-- The polynomial of one stencil. -/
noncomputable def poly (D N : ℕ) (c : ZMod N → ℝ) (s : ℤ) (t : ℝ) : ℝ := ∑ j ∈ range (D + 1), weight D t j * c ((s + j : ℤ) : ZMod N)

theorem poly_lipschitz (hM : ∀ i, |c i| ≤ M) (s : ℤ) {t t' : ℝ} (h0 : 0 ≤ t) (h1 : t ≤ D + 1) (h0' : 0 ≤ t') (h1' : t' ≤ D + 1) : |poly D N c s t - poly D N c s t'| ≤ lip D * M * |t - t'| := by
  unfold poly
  rw [← sum_sub_distrib]
  have hM0 : 0 ≤ M := (abs_nonneg _).trans (hM 0)
  have : ∀ j ∈ range (D + 1), |weight D t j * c ((s + j : ℤ) : ZMod N) - weight D t' j * c ((s + j : ℤ) : ZMod N)| ≤ |weight D t j - weight D t' j| * M := by
    intro j _
    rw [← sub_mul, abs_mul]
    exact mul_le_mul_of_nonneg_left (hM _) (abs_nonneg _)
  refine (abs_sum_le_sum_abs _ _).trans ((sum_le_sum this).trans ?_)
  rw [← sum_mul]
  refine (mul_le_mul_of_nonneg_right (weight_lipschitz D t t' h0 h1 h0' h1') hM0).trans (le_of_eq (by ring))

theorem weight_node (D k j : ℕ) (hk : k ≤ D) (hj : j ≤ D) : weight D k j = if j = k then 1 else 0 := by
  have hi : Set.InjOn (fun i : ℕ => (i : ℝ)) (range (D + 1) : Finset ℕ) := fun a _ b _ h => by simpa using h
  unfold weight
  split_ifs with h
  · subst h
    exact Lagrange.eval_basis_self hi (by simp; omega)
  · exact Lagrange.eval_basis_of_ne (v := fun i : ℕ => (i : ℝ)) h (by simp; omega)

theorem poly_node (s : ℤ) (k : ℕ) (hk : k ≤ D) : poly D N c s k = c ((s + k : ℤ) : ZMod N) := by
  unfold poly
  rw [sum_eq_single k]
  · rw [weight_node D k k hk hk]; simp
  · intro j hj hjk
    rw [weight_node D k j hk (by simpa [Nat.lt_succ_iff] using hj), if_neg hjk, zero_mul]
  · intro h; exact absurd (by simp; omega) h

theorem piece_poly (p : ℝ) : piece D N c p = poly D N c (⌊p⌋ - (D / 2 : ℕ)) (p - ⌊p⌋ + (D / 2 : ℕ)) := rfl

theorem half_le (hD : D % 2 = 1) : ((D / 2 : ℕ) : ℝ) = (D - 1) / 2 := by
  obtain ⟨m, hm⟩ : ∃ m, D = 2 * m + 1 := ⟨D / 2, by omega⟩
  rw [show D / 2 = m by omega, hm]
  push_cast; ring

theorem piece_node (n : ℤ) : piece D N c n = c (n : ZMod N) := by
  rw [piece_poly, Int.floor_intCast, sub_self, zero_add, poly_node _ _ (by omega)]
  congr 1
  push_cast; ring

/-- The polynomial of a stencil is the piecewise polynomial in the middle cell, both ends included. -/
theorem poly_piece (hD : D % 2 = 1) (s : ℤ) {t : ℝ} (h0 : (D - 1) / 2 ≤ t) (h1 : t ≤ (D - 1) / 2 + 1) : poly D N c s t = piece D N c (s + t) := by
  have hh := half_le hD
  rcases eq_or_lt_of_le h1 with h | h
  · have e : (s : ℝ) + t = ((s + (D / 2 : ℕ) + 1 : ℤ) : ℝ) := by simp only [Int.cast_add, Int.cast_natCast, Int.cast_one]; rw [h, hh]; ring
    rw [e, piece_node]
    have : t = ((D / 2 + 1 : ℕ) : ℝ) := by push_cast; rw [hh, h]
    rw [this, poly_node _ _ (by omega)]
    congr 1
    simp only [Int.cast_add, Int.cast_natCast, Int.cast_one, Nat.cast_add, Nat.cast_one, add_assoc]
  · have hf : ⌊(s : ℝ) + t⌋ = s + (D / 2 : ℕ) := by
      rw [Int.floor_eq_iff]
      simp only [Int.cast_add, Int.cast_natCast]
      rw [hh]
      constructor <;> linarith
    rw [piece_poly, hf]
    congr 1
    · omega
    · simp only [Int.cast_add, Int.cast_natCast]; ring

/-- The piecewise polynomial is Lipschitz. -/
theorem piece_lipschitz (hD : D % 2 = 1) (hM : ∀ i, |c i| ≤ M) {p q : ℝ} (hpq : |p - q| ≤ 1) : |piece D N c p - piece D N c q| ≤ lip D * M * |p - q| := by
  wlog hle : p ≤ q generalizing p q
  · rw [abs_sub_comm, abs_sub_comm p q]
    exact this (by rwa [abs_sub_comm]) (not_le.1 hle).le
  have hh := half_le hD
  have hd0 : (0 : ℝ) ≤ (D - 1) / 2 := by rw [← hh]; positivity
  have hD1 : (D - 1 : ℝ) / 2 ≤ D := by
    have : (0 : ℝ) ≤ D := Nat.cast_nonneg D
    linarith
  have fp := Int.floor_le p; have fp' := Int.lt_floor_add_one p
  have fq := Int.floor_le q; have fq' := Int.lt_floor_add_one q
  have hab := abs_le.1 hpq
  have key : ∀ (s : ℤ) (a b : ℝ), s + ((D - 1) / 2) ≤ a → a ≤ s + ((D - 1) / 2 + 1) → s + ((D - 1) / 2) ≤ b → b ≤ s + ((D - 1) / 2 + 1) → |piece D N c a - piece D N c b| ≤ lip D * M * |a - b| := by
    intro s a b ha0 ha1 hb0 hb1
    have ea := poly_piece (N := N) (c := c) hD s (t := a - s) (by linarith) (by linarith)
    have eb := poly_piece (N := N) (c := c) hD s (t := b - s) (by linarith) (by linarith)
    rw [show (s : ℝ) + (a - s) = a by ring] at ea
    rw [show (s : ℝ) + (b - s) = b by ring] at eb
    rw [← ea, ← eb]
    refine (poly_lipschitz hM s (by linarith) (by linarith) (by linarith) (by linarith)).trans (le_of_eq ?_)
    congr 2; ring
  have hs : ∀ z : ℤ, ((z - (D / 2 : ℕ) : ℤ) : ℝ) = z - (D - 1) / 2 := by intro z; simp only [Int.cast_sub, Int.cast_natCast]; rw [hh]
  by_cases hf : ⌊p⌋ = ⌊q⌋
  · refine key (⌊p⌋ - (D / 2 : ℕ)) p q ?_ ?_ ?_ ?_ <;> rw [hs] <;> [linarith; linarith; (rw [hf]; linarith); (rw [hf]; linarith)]
  · have hlt : ⌊p⌋ < ⌊q⌋ := lt_of_le_of_ne (Int.floor_le_floor hle) hf
    have hq1 : ⌊q⌋ = ⌊p⌋ + 1 := by
      have : (⌊q⌋ : ℝ) < ⌊p⌋ + 2 := by linarith
      have : ⌊q⌋ < ⌊p⌋ + 2 := by exact_mod_cast this
      omega
    have hq1' : (⌊q⌋ : ℝ) = ⌊p⌋ + 1 := by rw [hq1]; push_cast; ring
    have k1 := key (⌊p⌋ - (D / 2 : ℕ)) p ⌊q⌋ (by rw [hs]; linarith) (by rw [hs]; linarith) (by rw [hs]; linarith) (by rw [hs]; linarith)
    have k2 := key (⌊q⌋ - (D / 2 : ℕ)) ⌊q⌋ q (by rw [hs]; linarith) (by rw [hs]; linarith) (by rw [hs]; linarith) (by rw [hs]; linarith)
    have e1 : |p - ⌊q⌋| = ⌊q⌋ - p := by rw [abs_of_nonpos (by linarith)]; ring
    have e2 : |(⌊q⌋ : ℝ) - q| = q - ⌊q⌋ := by rw [abs_of_nonpos (by linarith)]; ring
    have e3 : |p - q| = q - p := by rw [abs_of_nonpos (by linarith)]; ring
    rw [e1] at k1; rw [e2] at k2; rw [e3]
    refine (abs_sub_le _ (piece D N c ⌊q⌋) _).trans ((add_le_add k1 k2).trans (le_of_eq (by ring)))

/-- The piecewise polynomial is periodic. -/
theorem piece_periodic (p : ℝ) (z : ℤ) : piece D N c (p + z * N) = piece D N c p := by
  unfold piece
  have hf : ⌊p + z * N⌋ = ⌊p⌋ + z * N := by
    rw [show p + (z : ℝ) * N = p + ((z * N : ℤ) : ℝ) by push_cast; ring, Int.floor_add_intCast]
  rw [hf]
  refine sum_congr rfl fun j _ => ?_
  congr 2
  · push_cast; ring
  · push_cast; simp

/-- The value of the polynomial of a stencil at a point slightly outside of the middle cell. -/
theorem poly_near (hD : D % 2 = 1) (hM : ∀ i, |c i| ≤ M) (s : ℤ) {t p π ω : ℝ} (h0 : 0 ≤ t) (h1 : t ≤ D + 1) (hπ0 : 0 ≤ π) (hπ : |t - D / 2| ≤ 1 / 2 + π) (hω : |s + t - p| ≤ ω) (hs : π + ω ≤ 1) :
    |poly D N c s t - piece D N c p| ≤ lip D * M * (2 * π + ω) := by
  have hM0 : 0 ≤ M := (abs_nonneg _).trans (hM 0)
  have hLM : 0 ≤ lip D * M := mul_nonneg (lip_nonneg D) hM0
  have hD1 : (1 : ℝ) ≤ D := by exact_mod_cast (by omega : 1 ≤ D)
  obtain ⟨t', ht'⟩ : ∃ t' : ℝ, t' = max (((D : ℝ) - 1) / 2) (min t (((D : ℝ) - 1) / 2 + 1)) := ⟨_, rfl⟩
  have b := abs_le.1 hπ
  have hlow : (D - 1) / 2 ≤ t' := by rw [ht']; exact le_max_left _ _
  have hup : t' ≤ (D - 1) / 2 + 1 := by rw [ht']; exact max_le (by linarith) (min_le_right _ _)
  have hd : |t - t'| ≤ π := by
    rw [ht', abs_le]
    rcases le_total t ((D - 1) / 2 + 1) with h | h
    · rw [min_eq_left h]
      rcases le_total ((D - 1) / 2 : ℝ) t with h' | h'
      · rw [max_eq_right h']; constructor <;> linarith
      · rw [max_eq_left h']; constructor <;> linarith
    · rw [min_eq_right h, max_eq_right (by linarith)]; constructor <;> linarith
  have k1 := poly_lipschitz (D := D) hM s h0 h1 (by linarith : 0 ≤ t') (by linarith : t' ≤ D + 1)
  rw [poly_piece hD s hlow hup] at k1
  have bd := abs_le.1 hd
  have bω := abs_le.1 hω
  have hst : |s + t' - p| ≤ π + ω := by rw [abs_le]; constructor <;> linarith
  have k2 := piece_lipschitz (N := N) hD hM (hst.trans hs)
  refine (abs_sub_le _ (piece D N c (s + t')) _).trans ((add_le_add (k1.trans (mul_le_mul_of_nonneg_left hd hLM)) (k2.trans (mul_le_mul_of_nonneg_left hst hLM))).trans (le_of_eq (by ring)))

end

/-! ## One step -/

section
variable {u : ℝ}

theorem coefs_eq {D N : ℕ} (hDN : D < N) (c : ZMod N → ℝ) (k : ℤ) (h0 : 0 ≤ k) (h1 : k ≤ N + D) : coefs D N c k = c (k : ZMod N) := by
  obtain ⟨m, rfl⟩ := Int.eq_ofNat_of_zero_le h0
  unfold coefs buildCoeffs
  simp only [Int.toNat_natCast, if_true]
  by_cases h : m < N
  · rw [if_pos h]; simp
  · rw [if_neg h, if_pos (by omega), if_pos (by omega)]
    have : m - N + N = m := by omega
    have e : ((m - N : ℕ) : ZMod N) = (m : ZMod N) := by
      conv_rhs => rw [← this]
      simp
    simp [e]

/-- The displacement has a small relative error. -/
theorem disp_err (hu0 : 0 ≤ u) (hu : u ≤ 1 / 16) {me ms dt vel disp : ℝ} (h : DispFl u me ms dt vel disp) : |disp - Real.sqrt (me / ms) * dt * vel| ≤ 8 * u * |Real.sqrt (me / ms) * dt * vel| := by
  have hu1 : u < 1 := by linarith
  obtain ⟨q, r, p, h1, h2, h3, h4⟩ := h
  obtain ⟨f1, hf1, rfl⟩ := fl_fac hu0 hu1 h1
  obtain ⟨f2, hf2, rfl⟩ := fl_fac hu0 hu1 h2
  obtain ⟨f3, hf3, rfl⟩ := fl_fac hu0 hu1 h3
  obtain ⟨f4, hf4, rfl⟩ := fl_fac hu0 hu1 h4
  have hp := fac_pos hu1 hf1
  have hs : Fac u 1 (Real.sqrt f1) := by
    have a := hf1.1; have b := hf1.2
    rw [pow_one] at a b
    have hv : 0 ≤ 1 - u := by linarith
    refine ⟨?_, ?_⟩ <;> rw [pow_one]
    · refine Real.le_sqrt_of_sq_le ?_
      nlinarith
    · have : Real.sqrt f1 * (1 - u) = Real.sqrt (f1 * (1 - u) ^ 2) := by rw [Real.sqrt_mul hp.le, Real.sqrt_sq hv]
      rw [this, Real.sqrt_le_one]
      nlinarith
  have hF := fac_mul hu1 (fac_mul hu1 (fac_mul hu1 hs hf2) hf3) hf4
  have he := fac_err hu0 hu1 hF
  have hg := gam_le hu0 hu1 4 (by push_cast; linarith)
  have e : Real.sqrt (me / ms * f1) * f2 * dt * f3 * vel * f4 - Real.sqrt (me / ms) * dt * vel = (Real.sqrt f1 * f2 * f3 * f4 - 1) * (Real.sqrt (me / ms) * dt * vel) := by
    rw [Real.sqrt_mul' _ hp.le]; ring
  rw [e, abs_mul]
  refine mul_le_mul_of_nonneg_right (he.trans (hg.trans (le_of_eq ?_))) (abs_nonneg _)
  push_cast; ring

/-- A bound of all lengths of the computation: the origin, the period, the knots and the displacement. -/
noncomputable def reach (x0 τ dx δ : ℝ) (N : ℕ) : ℝ := |x0| + N * dx + τ + 2 * |δ|

/-- The error, in cells, of the position where the line is interpolated. -/
noncomputable def posErr (u eps x0 τ dx δ : ℝ) (D N : ℕ) : ℝ :=
  (44 * u * reach x0 τ dx δ N + 12 * (reach x0 τ dx δ N / (N * dx)) * τ) / dx + (gam u 3 * (D + 1) + (2 * eps + u))

/-- The relative error of one step. -/
noncomputable def stepErr (u eps x0 τ dx δ : ℝ) (D N : ℕ) : ℝ := 4 * gam u (2 * D + 5) * (1 + (D + 1) * 2 ^ D) * ((D + 1) * 2 ^ D) + 3 * lip D * posErr u eps x0 τ dx δ D N

/-- The computed value is close to the piecewise polynomial at the foot. -/
theorem piece_step {eps τ dx δ M : ℝ} {D N : ℕ} [NeZero N] {w : ℕ → ℝ} {kn : ℤ → ℝ} {disp : ℝ} {c c' : ZMod N → ℝ} (hu0 : 0 ≤ u) (hu : u ≤ 1 / 16) (hdx : 0 < dx) (hτ : 0 ≤ τ) (heps0 : 0 ≤ eps) (heps : eps ≤ 1 / 16)
    (hD : D % 2 = 1) (hDN : D < N) (hw : ∀ i ≤ D, WeightU u D i (w i)) (hkn : ∀ k : ℤ, 0 ≤ k → k ≤ N + D → |kn k - (kn 0 + k * dx)| ≤ τ)
    (hsmall : 44 * u * reach (kn 0) τ dx δ N + 12 * (reach (kn 0) τ dx δ N / (N * dx)) * τ ≤ dx / 4) (hg3 : gam u 3 * (D + 1) ≤ 1 / 16) (hg : gam u (2 * D + 5) * (1 + (D + 1) * 2 ^ D) ≤ 1 / 2)
    (hM : ∀ i, |c i| ≤ M) (hdisp : |disp - δ| ≤ 8 * u * |δ|) (h : AdvLineFl u eps D N w kn dx disp c c') (i : ZMod N) :
    |c' i - piece D N c (i.val - δ / dx)| ≤ stepErr u eps (kn 0) τ dx δ D N * M := by
  obtain ⟨foot, hfoot, hev⟩ := h i
  have hu1 : u < 1 := by linarith
  have hM0 : 0 ≤ M := (abs_nonneg _).trans (hM 0)
  have hN2 : 2 ≤ N := by omega
  have hN2' : (2 : ℝ) ≤ N := by exact_mod_cast hN2
  have hDN' : (D + 1 : ℝ) ≤ N := by exact_mod_cast hDN
  obtain ⟨L, hL⟩ : ∃ L, L = N * dx := ⟨_, rfl⟩
  have hLdx : 2 * dx ≤ L := by rw [hL]; exact mul_le_mul_of_nonneg_right hN2' hdx.le
  have hDL : (D + 1) * dx ≤ L := by rw [hL]; exact mul_le_mul_of_nonneg_right hDN' hdx.le
  have hL0 : 0 < L := by linarith
  obtain ⟨R, hR⟩ : ∃ R, R = reach (kn 0) τ dx δ N := ⟨_, rfl⟩
  have hRe : R = |kn 0| + L + τ + 2 * |δ| := by rw [hR, hL]; rfl
  obtain ⟨ρ, hρ⟩ : ∃ ρ, ρ = R / L := ⟨_, rfl⟩
  rw [← hL, ← hR, ← hρ] at hsmall
  have hx0 := abs_nonneg (kn 0); have hδ0 := abs_nonneg δ
  have hRL : L ≤ R := by linarith
  have hρ1 : 1 ≤ ρ := by rw [hρ, le_div_iff₀ hL0]; linarith
  have hρL : ρ * L = R := by rw [hρ]; field_simp
  have hρτ : τ ≤ ρ * τ := by nlinarith
  have hR0 : 0 < R := by linarith
  have huR : 0 ≤ u * R := by positivity
  have huR16 : u * R ≤ R / 16 := by nlinarith
  have huδ : u * |δ| ≤ |δ| / 16 := by nlinarith
  have hdisp' : |disp| ≤ 2 * |δ| := by
    have := abs_sub_abs_le_abs_sub disp δ
    linarith
  -- the foot
  have hiN : (i.val : ℤ) ≤ N + D := by have := ZMod.val_lt i; omega
  have hiN' : (i.val : ℝ) ≤ N := by exact_mod_cast (ZMod.val_lt i).le
  have hiL : (i.val : ℝ) * dx ≤ L := by rw [hL]; exact mul_le_mul_of_nonneg_right hiN' hdx.le
  have hi0 : 0 ≤ (i.val : ℝ) * dx := by positivity
  have hkni := abs_le.1 (hkn i.val (by omega) hiN)
  simp only [Int.cast_natCast] at hkni
  have bd := abs_le.1 hdisp'
  have bx := abs_le.1 (le_refl |kn 0|)
  have hknd : |kn i.val - disp| ≤ R := by rw [hRe, abs_le]; constructor <;> linarith
  have hfe := abs_le.1 ((fl_err hfoot).trans (mul_le_mul_of_nonneg_left hknd hu0))
  have hfk : |foot - kn 0| ≤ L + τ + 2 * |δ| + u * R := by rw [abs_le]; constructor <;> linarith
  obtain ⟨A, hA⟩ : ∃ A, A = 13 * u * (|foot - kn 0| + (N * dx + τ) + |kn 0|) := ⟨_, rfl⟩
  have hAle : A ≤ 27 * (u * R) := by
    have h1 : |foot - kn 0| + (N * dx + τ) + |kn 0| ≤ 27 / 13 * R := by rw [← hL]; linarith
    rw [hA]
    have := mul_le_mul_of_nonneg_left h1 (by positivity : 0 ≤ 13 * u)
    linarith
  have hA0 : 0 ≤ A := by rw [hA, ← hL]; positivity
  have hB : 4 * u * (|kn 0| + 2 * ((N + 1) * dx)) ≤ 12 * (u * R) := by
    have h1 : |kn 0| + 2 * ((N + 1) * dx) ≤ 3 * R := by
      have : (N + 1) * dx = L + dx := by rw [hL]; ring
      rw [this]; linarith
    have := mul_le_mul_of_nonneg_left h1 (by positivity : 0 ≤ 4 * u)
    linarith
  have hB' : 4 * u * (|kn 0| + (N + 1) * dx) ≤ 6 * (u * R) := by
    have h1 : |kn 0| + (N + 1) * dx ≤ 3 / 2 * R := by
      have : (N + 1) * dx = L + dx := by rw [hL]; ring
      rw [this]; linarith
    have := mul_le_mul_of_nonneg_left h1 (by positivity : 0 ≤ 4 * u)
    linarith
  have hcM : ∀ k : ℤ, 0 ≤ k → k ≤ N + D → |coefs D N c k| ≤ M := fun k h0 h1 => by rw [coefs_eq hDN c k h0 h1]; exact hM _
  obtain ⟨s, j, t, hs0, hs1, ht0, ht1, hcen, hpos, hy⟩ := c103_periodic u eps τ dx foot (c' i) M D N w kn (coefs D N c) hu0 hu hdx hτ heps0 heps (by omega) hDN.le hN2 hw hkn
    (by rw [← hA]; linarith) hg3 hg hcM hev
  rw [← hA] at hcen hpos
  obtain ⟨G, hG⟩ : ∃ G, G = gam u 3 * (D + 1) + (2 * eps + u) := ⟨_, rfl⟩
  rw [← hG] at hcen hpos
  have hG0 : 0 ≤ G := by rw [hG]; have := gam_nonneg hu0 hu1 3; positivity
  have hG1 : G ≤ 1 / 4 := by rw [hG]; linarith
  have hGdx : G * dx ≤ 1 / 4 * dx := mul_le_mul_of_nonneg_right hG1 hdx.le
  have hinterp : interp D (fun k => (k : ℝ)) (fun i => coefs D N c (s + i)) t = poly D N c s t := by
    unfold interp poly
    refine sum_congr rfl fun k hk => ?_
    have : k < D + 1 := by simpa using hk
    simp only [coefs_eq hDN c (s + k) (by omega) (by omega)]
    rw [mul_comm]
    rfl
  rw [hinterp] at hy
  -- the number of periods
  have hkN := abs_le.1 (hkn N (by omega) (by omega))
  simp only [Int.cast_natCast, ← hL] at hkN
  have hks := abs_le.1 (hkn s hs0 (by omega))
  have hsN : (s : ℝ) ≤ N := by exact_mod_cast hs1
  have hs0' : (0 : ℝ) ≤ s := by exact_mod_cast hs0
  have hsL : (s : ℝ) * dx ≤ L := by rw [hL]; exact mul_le_mul_of_nonneg_right hsN hdx.le
  have hsL0 : 0 ≤ (s : ℝ) * dx := by positivity
  have htL : t * dx ≤ L := (mul_le_mul_of_nonneg_right ht1 hdx.le).trans hDL
  have htL0 : 0 ≤ t * dx := by positivity
  have hbp := abs_le.1 hpos
  have hbf := abs_le.1 hfk
  have hτd : τ ≤ dx / 48 := by linarith
  have hj : |(j : ℝ)| ≤ 4 * ρ := by
    have h1 : |(j : ℝ) * (kn N - kn 0)| ≤ 15 / 4 * R := by rw [abs_le]; constructor <;> linarith
    rw [abs_mul] at h1
    have h2 : 15 / 16 * L ≤ |kn N - kn 0| := (by linarith : 15 / 16 * L ≤ kn N - kn 0).trans (le_abs_self _)
    have h3 := (mul_le_mul_of_nonneg_left h2 (abs_nonneg (j : ℝ))).trans h1
    rw [← hρL] at h3
    have h4 : |(j : ℝ)| * L ≤ 4 * ρ * L := by linarith
    exact le_of_mul_le_mul_right h4 hL0
  have hjτ : |(j : ℝ) * (kn N - kn 0 - L)| ≤ 4 * (ρ * τ) := by
    rw [abs_mul]
    have h1 : |kn N - kn 0 - L| ≤ τ := by rw [abs_le]; constructor <;> linarith
    exact (mul_le_mul hj h1 (abs_nonneg _) (by positivity)).trans (le_of_eq (by ring))
  have hbj := abs_le.1 hjτ
  have hbd := abs_le.1 hdisp
  have huδR : 8 * u * |δ| ≤ 4 * (u * R) := by
    have : |δ| ≤ 1 / 2 * R := by linarith
    have := mul_le_mul_of_nonneg_left this hu0
    linarith
  -- the errors in cells
  obtain ⟨E, hE⟩ : ∃ E, E = posErr u eps (kn 0) τ dx δ D N := ⟨_, rfl⟩
  have hEdx : E * dx = 44 * (u * R) + 12 * (ρ * τ) + G * dx := by
    rw [hE, hG, hρ, hR, hL]
    unfold posErr
    field_simp
  have hE0 : 0 ≤ E := by
    have : 0 ≤ E * dx := by rw [hEdx]; positivity
    exact nonneg_of_mul_nonneg_left this hdx
  have hE1 : E ≤ 1 / 2 := by
    have : E * dx ≤ 1 / 2 * dx := by rw [hEdx]; linarith
    exact le_of_mul_le_mul_right this hdx
  have hπ : |t - D / 2| ≤ 1 / 2 + E := by
    have : |t - D / 2| * dx ≤ (1 / 2 + E) * dx := by rw [add_mul, hEdx]; linarith
    exact le_of_mul_le_mul_right this hdx
  obtain ⟨p, hp⟩ : ∃ p : ℝ, p = i.val - δ / dx + ((-j : ℤ) : ℝ) * N := ⟨_, rfl⟩
  have hω : |s + t - p| ≤ E := by
    have : |(s + t - p) * dx| ≤ E * dx := by
      have e : (s + t - p) * dx = s * dx + t * dx - (i.val * dx - δ - j * L) := by rw [hp, hL]; push_cast; field_simp; ring
      rw [e, hEdx, abs_le]
      constructor <;> linarith
    rw [abs_mul, abs_of_pos hdx] at this
    exact le_of_mul_le_mul_right this hdx
  have key := poly_near hD hM s ht0 ht1 hE0 hπ hω (by linarith)
  rw [hp, piece_periodic] at key
  refine (abs_sub_le _ (poly D N c s t) _).trans ((add_le_add hy key).trans (le_of_eq ?_))
  unfold stepErr
  rw [← hE]; ring

/-! ## The exact scheme -/

/-- One step of the advection of a line in exact arithmetic with the displacement `δ`: the builder and the evaluator of C19 and C99 (with the tolerance 0), evaluated at the feet. -/
noncomputable def exactStep (D N : ℕ) (x0 dx δ : ℝ) (c : ZMod N → ℝ) : ZMod N → ℝ :=
  fun i => (lagrangeLine 0 D N x0 dx).eval (periodicCoord N x0 dx i - δ) ((lagrangeLine 0 D N x0 dx).build c)

theorem exactStep_piece {D N : ℕ} (hD : D % 2 = 1) (hDN : D < N) (x0 dx δ : ℝ) (hdx : 0 < dx) (c : ZMod N → ℝ) (i : ZMod N) : exactStep D N x0 dx δ c i = piece D N c (i.val - δ / dx) := by
  unfold exactStep
  rw [lagrange_closed 0 D N (by omega) hDN x0 dx hdx]
  have e : (periodicCoord N x0 dx i - δ - x0) / dx = i.val - δ / dx := by unfold periodicCoord; field_simp; ring
  unfold LagrangeEvaluator.centre
  rw [if_neg (by omega), e]
  unfold piece
  obtain ⟨p, hp⟩ : ∃ p : ℝ, p = i.val - δ / dx := ⟨_, rfl⟩
  rw [← hp]
  have hh := half_le hD
  have hnodes : Lagrange.uniformNodes 0 1 = fun i : ℕ => (i : ℝ) := by funext i; simp [Lagrange.uniformNodes]
  have f0 := Int.floor_le p; have f1 := Int.lt_floor_add_one p
  have hD1 : (1 : ℝ) ≤ D := by exact_mod_cast (by omega : 1 ≤ D)
  obtain ⟨y, hy, hv⟩ := Lagrange.c17_values_uniform 0 le_rfl (by norm_num) D 0 1 (p - ⌊p⌋ + (D / 2 : ℕ)) 0 false one_pos (p - ⌊p⌋ + (D / 2 : ℕ)) (by simp)
    (by rw [hh]; linarith) (by simp only [Lagrange.uniformNodes]; rw [hh]; linarith)
  have hye : y = p - ⌊p⌋ + (D / 2 : ℕ) := by
    rcases hy with h | ⟨k, -, h, hd⟩
    · exact h
    · rw [zero_mul] at hd
      have := abs_eq_zero.1 (le_antisymm hd (abs_nonneg _))
      rw [h]; linarith
  refine sum_congr rfl fun j hj => ?_
  have := hv j (by simpa [Nat.lt_succ_iff] using hj)
  rw [mul_comm, weight, ← hye, ← hnodes, ← this]
  simp [Lagrange.evalBasisUniform, hye]

theorem exactStep_sub {D N : ℕ} (hD : D % 2 = 1) (hDN : D < N) (x0 dx δ : ℝ) (hdx : 0 < dx) (c d : ZMod N → ℝ) (i : ZMod N) :
    exactStep D N x0 dx δ (fun i => c i - d i) i = exactStep D N x0 dx δ c i - exactStep D N x0 dx δ d i := by
  simp only [exactStep_piece hD hDN x0 dx δ hdx, piece, mul_sub, sum_sub_distrib]

theorem exactStep_stable {D N : ℕ} [NeZero N] (hD : D % 2 = 1) (hDN : D < N) (x0 dx δ : ℝ) (hdx : 0 < dx) (c : ZMod N → ℝ) :
    Real.sqrt (∑ i, exactStep D N x0 dx δ c i ^ 2) ≤ Real.sqrt (∑ i, c i ^ 2) := by
  refine Real.sqrt_le_sqrt ?_
  obtain ⟨y, z, hy, hform⟩ := AdvectionStability.lagrange_form 0 le_rfl (by norm_num) D N (by omega) hDN x0 dx hdx δ
  unfold exactStep
  simp only [hform]
  refine le_trans (le_of_eq ?_) (lagrange_stable D y hy c)
  exact Equiv.sum_comp (Equiv.addRight z) fun x => (∑ j ∈ range (D + 1), weight D y j * c (x + j)) ^ 2

theorem weight_sum (D : ℕ) (y : ℝ) : ∑ j ∈ range (D + 1), weight D y j = 1 := by
  have := PolyDeg.interpolate ((PolyDeg.const 1).mono (Nat.zero_le D)) y
  simp only [one_mul] at this
  exact this.symm

/-- The exact scheme conserves the sum of the values. -/
theorem exactStep_sum {D N : ℕ} [NeZero N] (hD : D % 2 = 1) (hDN : D < N) (x0 dx δ : ℝ) (hdx : 0 < dx) (c : ZMod N → ℝ) : ∑ i, exactStep D N x0 dx δ c i = ∑ i, c i := by
  obtain ⟨y, z, -, hform⟩ := AdvectionStability.lagrange_form 0 le_rfl (by norm_num) D N (by omega) hDN x0 dx hdx δ
  unfold exactStep
  simp only [hform]
  rw [sum_comm]
  have e : ∀ j ∈ range (D + 1), ∑ i, weight D y j * c (i + z + j) = weight D y j * ∑ i, c i := fun j _ => by
    rw [← mul_sum]
    congr 1
    rw [← Equiv.sum_comp (Equiv.addRight (z + (j : ZMod N))) c]
    exact sum_congr rfl fun i _ => by simp [add_assoc]
  rw [sum_congr rfl e, ← sum_mul, weight_sum, one_mul]

/-- **C99 (no bounds for higher degrees)** With an odd degree of at least three and any displacement that is not a whole number of cells, there are non-negative lines that get a negative value in one step. -/
theorem c99_negative {D N : ℕ} (hD : D % 2 = 1) (h3 : 3 ≤ D) (hDN : D < N) (x0 dx δ : ℝ) (hdx : 0 < dx) (hδ : ∀ z : ℤ, δ ≠ z * dx) : ∃ c : ZMod N → ℝ, (∀ i, 0 ≤ c i) ∧ ∃ i, exactStep D N x0 dx δ c i < 0 := by
  have : NeZero N := ⟨by omega⟩
  obtain ⟨p, hp⟩ : ∃ p : ℝ, p = ((0 : ZMod N).val : ℝ) - δ / dx := ⟨_, rfl⟩
  obtain ⟨t, ht⟩ : ∃ t : ℝ, t = p - ⌊p⌋ + (D / 2 : ℕ) := ⟨_, rfl⟩
  have hint : ∀ k : ℕ, t ≠ k := by
    intro k hk
    have e : p = ((k : ℤ) - (D / 2 : ℕ) + ⌊p⌋ : ℤ) := by
      simp only [Int.cast_add, Int.cast_sub, Int.cast_natCast]
      linarith
    have e2 : δ = ((-((k : ℤ) - (D / 2 : ℕ) + ⌊p⌋) : ℤ) : ℝ) * dx := by
      rw [Int.cast_neg, ← e, hp]
      simp only [ZMod.val_zero, Nat.cast_zero]
      field_simp
      ring
    exact hδ _ e2
  have ht1 : 1 < t := by
    have h1 : (1 : ℝ) ≤ (D / 2 : ℕ) := by exact_mod_cast (by omega : 1 ≤ D / 2)
    have := Int.floor_le p
    exact lt_of_le_of_ne (by linarith) fun h => hint 1 (by rw [Nat.cast_one]; exact h.symm)
  have hprod : weight D t 0 * weight D t 1 < 0 := by
    have s0 : (range (D + 1)).erase 0 = insert 1 (Finset.Ico 2 (D + 1)) := by ext k; simp; omega
    have s1 : (range (D + 1)).erase 1 = insert 0 (Finset.Ico 2 (D + 1)) := by ext k; simp; omega
    rw [weight_eq, weight_eq, s0, s1, prod_insert (by simp), prod_insert (by simp), prod_insert (by simp), prod_insert (by simp)]
    obtain ⟨A, hA⟩ : ∃ A, A = ∏ k ∈ Finset.Ico 2 (D + 1), (t - k) := ⟨_, rfl⟩
    obtain ⟨B0, hB0⟩ : ∃ B, B = ∏ k ∈ Finset.Ico 2 (D + 1), (((0 : ℕ) : ℝ) - k) := ⟨_, rfl⟩
    obtain ⟨B1, hB1⟩ : ∃ B, B = ∏ k ∈ Finset.Ico 2 (D + 1), (((1 : ℕ) : ℝ) - k) := ⟨_, rfl⟩
    have hA0 : A ≠ 0 := by rw [hA]; exact prod_ne_zero_iff.2 fun k _ => sub_ne_zero.2 (hint k)
    have hB : 0 < B0 * B1 := by
      rw [hB0, hB1, ← prod_mul_distrib]
      refine prod_pos fun k hk => ?_
      have : (2 : ℝ) ≤ k := by exact_mod_cast (mem_Ico.1 hk).1
      push_cast
      exact mul_pos_of_neg_of_neg (by linarith) (by linarith)
    rw [← hA, ← hB0, ← hB1, div_mul_div_comm]
    refine div_neg_of_pos_of_neg ?_ ?_
    · have : 0 < A ^ 2 := by positivity
      have h2 := mul_pos (mul_pos (sub_pos.2 ht1) (zero_lt_one.trans ht1)) this
      push_cast
      rw [show (t - 1) * A * ((t - 0) * A) = (t - 1) * t * A ^ 2 by ring]
      exact h2
    · push_cast
      rw [show (0 - 1) * B0 * ((1 - 0) * B1) = -(B0 * B1) by ring]
      linarith
  obtain ⟨j, hj, hw⟩ : ∃ j ≤ 1, weight D t j < 0 := by
    rcases mul_neg_iff.1 hprod with ⟨-, h⟩ | ⟨h, -⟩
    · exact ⟨1, le_rfl, h⟩
    · exact ⟨0, zero_le_one, h⟩
  refine ⟨fun i => if i = ((⌊p⌋ - (D / 2 : ℕ) + j : ℤ) : ZMod N) then 1 else 0, fun i => by beta_reduce; split_ifs <;> norm_num, 0, ?_⟩
  rw [exactStep_piece hD hDN x0 dx δ hdx, ← hp]
  unfold piece
  rw [← ht, sum_eq_single j]
  · simpa using hw
  · intro k hk hkj
    beta_reduce
    rw [if_neg, mul_zero]
    intro h
    refine hkj ?_
    have h' : ((k : ℕ) : ZMod N) = (j : ℕ) := by
      push_cast at h
      exact add_left_cancel h
    have := (ZMod.natCast_eq_natCast_iff' k j N).1 h'
    rwa [Nat.mod_eq_of_lt (by have := mem_range.1 hk; omega), Nat.mod_eq_of_lt (by omega)] at this
  · intro h
    exact absurd (mem_range.2 (by omega)) h

/-- The hypothesis on the displacement is met by half a cell. -/
example : ∃ c : ZMod 8 → ℝ, (∀ i, 0 ≤ c i) ∧ ∃ i, exactStep 3 8 0 1 (1 / 2) c i < 0 :=
  c99_negative (by norm_num) le_rfl (by norm_num) 0 1 (1 / 2) one_pos fun z h => by
    have h2 : ((1 : ℤ) : ℝ) = ((2 * z : ℤ) : ℝ) := by push_cast; linarith
    have := Int.cast_injective h2
    omega

/-- The hypotheses on the sizes: the rounding errors of all positions are below a quarter of a cell, the rounding errors of the basis functions are small. -/
structure Sizes (u eps x0 τ dx δ : ℝ) (D N : ℕ) : Prop where
  u0 : 0 ≤ u
  u1 : u ≤ 1 / 16
  dx0 : 0 < dx
  τ0 : 0 ≤ τ
  eps0 : 0 ≤ eps
  eps1 : eps ≤ 1 / 16
  odd : D % 2 = 1
  points : D < N
  pos : 44 * u * reach x0 τ dx δ N + 12 * (reach x0 τ dx δ N / (N * dx)) * τ ≤ dx / 4
  basis : gam u 3 * (D + 1) ≤ 1 / 16
  values : gam u (2 * D + 5) * (1 + (D + 1) * 2 ^ D) ≤ 1 / 2

variable {eps τ dx me ms dt vel : ℝ} {D N : ℕ} [NeZero N] {w : ℕ → ℝ} {kn : ℤ → ℝ}

/-- **C109, one step.** -/
theorem c109_one_step (hS : Sizes u eps (kn 0) τ dx (Real.sqrt (me / ms) * dt * vel) D N) (hw : ∀ i ≤ D, WeightU u D i (w i))
    (hkn : ∀ k : ℤ, 0 ≤ k → k ≤ N + D → |kn k - (kn 0 + k * dx)| ≤ τ) {c c' : ZMod N → ℝ} {M : ℝ} (hM : ∀ i, |c i| ≤ M) {disp : ℝ} (hd : DispFl u me ms dt vel disp)
    (h : AdvLineFl u eps D N w kn dx disp c c') (i : ZMod N) :
    |c' i - exactStep D N (kn 0) dx (Real.sqrt (me / ms) * dt * vel) c i| ≤ stepErr u eps (kn 0) τ dx (Real.sqrt (me / ms) * dt * vel) D N * M := by
  rw [exactStep_piece hS.odd hS.points _ _ _ hS.dx0]
  exact piece_step hS.u0 hS.u1 hS.dx0 hS.τ0 hS.eps0 hS.eps1 hS.odd hS.points hw hkn hS.pos hS.basis hS.values hM (disp_err hS.u0 hS.u1 hd) h i

theorem stepErr_nonneg {x0 δ : ℝ} (hS : Sizes u eps x0 τ dx δ D N) : 0 ≤ stepErr u eps x0 τ dx δ D N := by
  have hu1 : u < 1 := by linarith [hS.u1]
  have h1 := gam_nonneg hS.u0 hu1 (2 * D + 5)
  have h2 := gam_nonneg hS.u0 hu1 3
  have h3 := hS.u0; have h4 := hS.dx0; have h5 := hS.τ0; have h6 := hS.eps0
  have hr : 0 ≤ reach x0 τ dx δ N := by unfold reach; positivity
  have hp : 0 ≤ posErr u eps x0 τ dx δ D N := by unfold posErr; positivity
  have := lip_nonneg D
  unfold stepErr
  positivity

/-- One step in the mean-square norm. -/
theorem step_l2 (hS : Sizes u eps (kn 0) τ dx (Real.sqrt (me / ms) * dt * vel) D N) (hw : ∀ i ≤ D, WeightU u D i (w i))
    (hkn : ∀ k : ℤ, 0 ≤ k → k ≤ N + D → |kn k - (kn 0 + k * dx)| ≤ τ) {c c' : ZMod N → ℝ} {disp : ℝ} (hd : DispFl u me ms dt vel disp)
    (h : AdvLineFl u eps D N w kn dx disp c c') :
    Real.sqrt (∑ i, (c' i - exactStep D N (kn 0) dx (Real.sqrt (me / ms) * dt * vel) c i) ^ 2) ≤
      Real.sqrt N * stepErr u eps (kn 0) τ dx (Real.sqrt (me / ms) * dt * vel) D N * Real.sqrt (∑ i, c i ^ 2) := by
  have hM : ∀ i, |c i| ≤ Real.sqrt (∑ i, c i ^ 2) := by
    intro i
    rw [← Real.sqrt_sq_eq_abs]
    exact Real.sqrt_le_sqrt (single_le_sum (f := fun i => c i ^ 2) (fun i _ => sq_nonneg _) (mem_univ i))
  have h1 := c109_one_step hS hw hkn hM hd h
  obtain ⟨K, hK⟩ : ∃ K, K = stepErr u eps (kn 0) τ dx (Real.sqrt (me / ms) * dt * vel) D N * Real.sqrt (∑ i, c i ^ 2) := ⟨_, rfl⟩
  rw [mul_assoc (Real.sqrt N), ← hK]
  simp only [← hK] at h1
  have hK0 : 0 ≤ K := (abs_nonneg _).trans (h1 0)
  have h2 : ∑ i, (c' i - exactStep D N (kn 0) dx (Real.sqrt (me / ms) * dt * vel) c i) ^ 2 ≤ ∑ _i : ZMod N, K ^ 2 :=
    sum_le_sum fun i _ => sq_le_sq' (by linarith [abs_le.1 (h1 i)]) (abs_le.1 (h1 i)).2
  rw [sum_const, card_univ, ZMod.card, nsmul_eq_mul] at h2
  refine (Real.sqrt_le_sqrt h2).trans (le_of_eq ?_)
  rw [Real.sqrt_mul (Nat.cast_nonneg N), Real.sqrt_sq hK0]

/-- **C109, stability.** The mean square of a line grows at most by a factor close to one in each step, whatever the time step, the velocity and the values. -/
theorem c109_stable (hS : Sizes u eps (kn 0) τ dx (Real.sqrt (me / ms) * dt * vel) D N) (hw : ∀ i ≤ D, WeightU u D i (w i))
    (hkn : ∀ k : ℤ, 0 ≤ k → k ≤ N + D → |kn k - (kn 0 + k * dx)| ≤ τ) {c : ℕ → ZMod N → ℝ} {n : ℕ} (h : RunFl u eps D N w kn dx me ms dt vel c n) :
    Real.sqrt (∑ i, c n i ^ 2) ≤ (1 + Real.sqrt N * stepErr u eps (kn 0) τ dx (Real.sqrt (me / ms) * dt * vel) D N) ^ n * Real.sqrt (∑ i, c 0 i ^ 2) := by
  induction n with
  | zero => simp
  | succ n ih =>
    have ih := ih fun k hk => h k (by omega)
    obtain ⟨disp, hd, ha⟩ := h n (by omega)
    have h1 := step_l2 hS hw hkn hd ha
    have h2 := exactStep_stable hS.odd hS.points (kn 0) dx (Real.sqrt (me / ms) * dt * vel) hS.dx0 (c n)
    have h3 := minkowski (fun i => c (n + 1) i - exactStep D N (kn 0) dx (Real.sqrt (me / ms) * dt * vel) (c n) i) (exactStep D N (kn 0) dx (Real.sqrt (me / ms) * dt * vel) (c n))
    simp only [sub_add_cancel] at h3
    have hκ := mul_nonneg (Real.sqrt_nonneg N) (stepErr_nonneg hS)
    have h4 := mul_le_mul_of_nonneg_left ih (by linarith : 0 ≤ 1 + Real.sqrt N * stepErr u eps (kn 0) τ dx (Real.sqrt (me / ms) * dt * vel) D N)
    rw [pow_succ]
    linarith

/-- **C109, many steps.** After any number of steps the computed line differs from the line of the exact scheme, started with the same values, by a multiple of the rounding errors. -/
theorem c109_many_steps (hS : Sizes u eps (kn 0) τ dx (Real.sqrt (me / ms) * dt * vel) D N) (hw : ∀ i ≤ D, WeightU u D i (w i))
    (hkn : ∀ k : ℤ, 0 ≤ k → k ≤ N + D → |kn k - (kn 0 + k * dx)| ≤ τ) {c : ℕ → ZMod N → ℝ} {n : ℕ} (h : RunFl u eps D N w kn dx me ms dt vel c n) :
    Real.sqrt (∑ i, (c n i - (exactStep D N (kn 0) dx (Real.sqrt (me / ms) * dt * vel))^[n] (c 0) i) ^ 2) ≤
      ((1 + Real.sqrt N * stepErr u eps (kn 0) τ dx (Real.sqrt (me / ms) * dt * vel) D N) ^ n - 1) * Real.sqrt (∑ i, c 0 i ^ 2) := by
  induction n with
  | zero => simp
  | succ n ih =>
    have hn : RunFl u eps D N w kn dx me ms dt vel c n := fun k hk => h k (by omega)
    have ih := ih hn
    have hst := c109_stable hS hw hkn hn
    obtain ⟨disp, hd, ha⟩ := h n (by omega)
    have h1 := step_l2 hS hw hkn hd ha
    obtain ⟨S, hSd⟩ : ∃ S, S = exactStep D N (kn 0) dx (Real.sqrt (me / ms) * dt * vel) := ⟨_, rfl⟩
    rw [← hSd] at h1 ih ⊢
    have h2 := exactStep_stable hS.odd hS.points (kn 0) dx (Real.sqrt (me / ms) * dt * vel) hS.dx0 (fun i => c n i - S^[n] (c 0) i)
    simp only [exactStep_sub hS.odd hS.points (kn 0) dx _ hS.dx0, ← hSd] at h2
    have h3 := minkowski (fun i => c (n + 1) i - S (c n) i) (fun i => S (c n) i - S (S^[n] (c 0)) i)
    simp only [sub_add_sub_cancel] at h3
    rw [Function.iterate_succ']
    simp only [Function.comp]
    have hκ := mul_nonneg (Real.sqrt_nonneg N) (stepErr_nonneg hS)
    have h4 := mul_le_mul_of_nonneg_left hst hκ
    rw [pow_succ]
    linarith

/-- **C109, mass.** After any number of steps the sum of the values (the mass, up to the factor `dx`) has changed by rounding errors only. -/
theorem c109_mass (hS : Sizes u eps (kn 0) τ dx (Real.sqrt (me / ms) * dt * vel) D N) (hw : ∀ i ≤ D, WeightU u D i (w i))
    (hkn : ∀ k : ℤ, 0 ≤ k → k ≤ N + D → |kn k - (kn 0 + k * dx)| ≤ τ) {c : ℕ → ZMod N → ℝ} {n : ℕ} (h : RunFl u eps D N w kn dx me ms dt vel c n) :
    |∑ i, c n i - ∑ i, c 0 i| ≤
      Real.sqrt N * (((1 + Real.sqrt N * stepErr u eps (kn 0) τ dx (Real.sqrt (me / ms) * dt * vel) D N) ^ n - 1) * Real.sqrt (∑ i, c 0 i ^ 2)) := by
  have h1 := c109_many_steps hS hw hkn h
  obtain ⟨S, hSd⟩ : ∃ S, S = exactStep D N (kn 0) dx (Real.sqrt (me / ms) * dt * vel) := ⟨_, rfl⟩
  have hsum : ∀ n : ℕ, ∑ i, S^[n] (c 0) i = ∑ i, c 0 i := by
    intro n
    induction n with
    | zero => rfl
    | succ n ih =>
      rw [Function.iterate_succ']
      simp only [Function.comp]
      rw [← ih, hSd, exactStep_sum hS.odd hS.points _ _ _ hS.dx0]
  rw [← hSd] at h1
  refine le_trans ?_ (mul_le_mul_of_nonneg_left h1 (Real.sqrt_nonneg _))
  rw [← hsum n, ← sum_sub_distrib, ← Real.sqrt_mul (Nat.cast_nonneg N), ← Real.sqrt_sq_eq_abs]
  refine Real.sqrt_le_sqrt ?_
  have := sq_sum_le_card_mul_sum_sq (s := univ) (f := fun i : ZMod N => c n i - S^[n] (c 0) i)
  rwa [card_univ, ZMod.card] at this

/-- **C109, total error.** Starting with the values of a smooth periodic function at the grid points, the computed line is, after any number of steps, close to the translated function. -/
theorem c109_total_error (hS : Sizes u eps (kn 0) τ dx (Real.sqrt (me / ms) * dt * vel) D N) (hw : ∀ i ≤ D, WeightU u D i (w i))
    (hkn : ∀ k : ℤ, 0 ≤ k → k ≤ N + D → |kn k - (kn 0 + k * dx)| ≤ τ) (g : ℝ → ℝ) (hg : ContDiff ℝ (D + 1 : ℕ) g) (hgp : ∀ t, g (t + N * dx) = g t) (M : ℝ)
    (hM : ∀ t, |iteratedDeriv (D + 1) g t| ≤ M) {c : ℕ → ZMod N → ℝ} (hc : ∀ i : ZMod N, c 0 i = g (kn 0 + i.val * dx)) {n : ℕ} (h : RunFl u eps D N w kn dx me ms dt vel c n) :
    Real.sqrt (∑ i : ZMod N, (c n i - g (kn 0 + i.val * dx - n * (Real.sqrt (me / ms) * dt * vel))) ^ 2) ≤
      n * (Real.sqrt N * (M / (4 * (D + 1)) * dx ^ (D + 1)))
        + ((1 + Real.sqrt N * stepErr u eps (kn 0) τ dx (Real.sqrt (me / ms) * dt * vel) D N) ^ n - 1) * Real.sqrt (∑ i : ZMod N, g (kn 0 + i.val * dx) ^ 2) := by
  have h1 := c109_many_steps hS hw hkn h
  obtain ⟨δ, hδ⟩ : ∃ δ, δ = Real.sqrt (me / ms) * dt * vel := ⟨_, rfl⟩
  obtain ⟨S, hSd⟩ : ∃ S, S = exactStep D N (kn 0) dx δ := ⟨_, rfl⟩
  rw [← hδ, ← hSd] at h1
  rw [← hδ]
  have hM0 : 0 ≤ M / (4 * (D + 1)) * dx ^ (D + 1) := by
    have := (abs_nonneg _).trans (hM 0)
    have := hS.dx0
    positivity
  obtain ⟨B, hB⟩ : ∃ B, B = M / (4 * (D + 1)) * dx ^ (D + 1) := ⟨_, rfl⟩
  rw [← hB] at hM0 ⊢
  have hD0 : 0 < D := by have := hS.odd; omega
  -- the derivative of a periodic function is bounded
  have hex : ∃ M1, ∀ t, |deriv g t| ≤ M1 := by
    have hdc : Continuous (deriv g) := hg.continuous_deriv (by exact_mod_cast (by omega : 1 ≤ D + 1))
    have hdp : Function.Periodic (deriv g) (N * dx) := fun t => by
      rw [← deriv_comp_add_const, show (fun t => g (t + N * dx)) = g from funext hgp]
    obtain ⟨M1, hM1⟩ := (hdp.isBounded_of_continuous (mul_ne_zero (NeZero.ne _) hS.dx0.ne') hdc).exists_norm_le
    exact ⟨M1, fun t => hM1 _ ⟨t, rfl⟩⟩
  obtain ⟨M1, hM1⟩ := hex
  have hconv : ∀ n : ℕ, Real.sqrt (∑ i : ZMod N, (S^[n] (c 0) i - g (periodicCoord N (kn 0) dx i - n * δ)) ^ 2) ≤ n * (Real.sqrt N * B) := by
    intro n
    induction n with
    | zero => simp [hc, periodicCoord]
    | succ n ih =>
      have hloc : ∀ i, |S (fun i => g (periodicCoord N (kn 0) dx i - n * δ)) i - g (periodicCoord N (kn 0) dx i - ((n + 1 : ℕ) : ℝ) * δ)| ≤ B := by
        intro i
        have := line_error 0 le_rfl (by norm_num) N (kn 0) dx hS.dx0 D hD0 hS.points (fun t => g (t - n * δ)) (shift_contDiff hg _)
          (fun t => by rw [← hgp (t - n * δ)]; congr 1; ring) M M1 (fun t => by rw [shift_iteratedDeriv]; exact hM _) (fun t => by rw [shift_deriv]; exact hM1 _)
          (periodicCoord N (kn 0) dx i - δ)
        rw [show oneStepError D 0 dx M M1 = B by unfold oneStepError; rw [← hB, zero_mul, mul_zero, max_eq_left hM0]] at this
        rw [hSd, show periodicCoord N (kn 0) dx i - ((n + 1 : ℕ) : ℝ) * δ = periodicCoord N (kn 0) dx i - δ - n * δ by push_cast; ring]
        exact this
      have h2 := exactStep_stable hS.odd hS.points (kn 0) dx δ hS.dx0 (fun i => S^[n] (c 0) i - g (periodicCoord N (kn 0) dx i - n * δ))
      simp only [exactStep_sub hS.odd hS.points (kn 0) dx _ hS.dx0, ← hSd] at h2
      have h3 := minkowski (fun i => S (S^[n] (c 0)) i - S (fun i => g (periodicCoord N (kn 0) dx i - n * δ)) i)
        (fun i => S (fun i => g (periodicCoord N (kn 0) dx i - n * δ)) i - g (periodicCoord N (kn 0) dx i - ((n + 1 : ℕ) : ℝ) * δ))
      simp only [sub_add_sub_cancel] at h3
      have h4 : Real.sqrt (∑ i, (S (fun i => g (periodicCoord N (kn 0) dx i - n * δ)) i - g (periodicCoord N (kn 0) dx i - ((n + 1 : ℕ) : ℝ) * δ)) ^ 2) ≤ Real.sqrt N * B := by
        have : ∑ i, (S (fun i => g (periodicCoord N (kn 0) dx i - n * δ)) i - g (periodicCoord N (kn 0) dx i - ((n + 1 : ℕ) : ℝ) * δ)) ^ 2 ≤ ∑ _i : ZMod N, B ^ 2 :=
          sum_le_sum fun i _ => sq_le_sq' (abs_le.1 (hloc i)).1 (abs_le.1 (hloc i)).2
        rw [sum_const, card_univ, ZMod.card, nsmul_eq_mul] at this
        refine (Real.sqrt_le_sqrt this).trans (le_of_eq ?_)
        rw [Real.sqrt_mul (Nat.cast_nonneg N), Real.sqrt_sq hM0]
      rw [Function.iterate_succ']
      simp only [Function.comp]
      have e : ((n + 1 : ℕ) : ℝ) * (Real.sqrt N * B) = n * (Real.sqrt N * B) + Real.sqrt N * B := by push_cast; ring
      rw [e]
      linarith
  have h2 := hconv n
  have h3 := minkowski (fun i => c n i - S^[n] (c 0) i) (fun i => S^[n] (c 0) i - g (periodicCoord N (kn 0) dx i - n * δ))
  simp only [sub_add_sub_cancel] at h3
  unfold periodicCoord at h2 h3
  have e : ∑ i : ZMod N, g (kn 0 + i.val * dx) ^ 2 = ∑ i, c 0 i ^ 2 := sum_congr rfl fun i _ => by rw [hc]
  rw [e]
  linarith

end

/-! ## Runs exist, and the bounds are small for `double` -/

theorem exists_run {u : ℝ} (hu0 : 0 ≤ u) (eps : ℝ) (D N : ℕ) (w : ℕ → ℝ) (kn : ℤ → ℝ) (dx me ms dt vel : ℝ) (c0 : ZMod N → ℝ) :
    ∃ c : ℕ → ZMod N → ℝ, c 0 = c0 ∧ ∀ n, RunFl u eps D N w kn dx me ms dt vel c n := by
  have hstep : ∀ c : ZMod N → ℝ, ∃ c', AdvLineFl u eps D N w kn dx (Real.sqrt (me / ms) * dt * vel) c c' := by
    intro c
    choose c' hc' using fun i : ZMod N => exists_eval hu0 eps D N w kn dx (coefs D N c) (kn i.val - Real.sqrt (me / ms) * dt * vel)
    exact ⟨c', fun i => ⟨_, fl_self hu0 _, hc' i⟩⟩
  choose F hF using hstep
  exact ⟨fun n => F^[n] c0, rfl, fun n k _ => ⟨_, ⟨_, _, _, fl_self hu0 _, fl_self hu0 _, fl_self hu0 _, fl_self hu0 _⟩, by
    simp only [Function.iterate_succ', Function.comp]; exact hF _⟩⟩

theorem sizes_binary64 : Sizes (2⁻¹ ^ 53) (2⁻¹ ^ 52) 0 0 1 (Real.sqrt (1 / 1) * 0.1 * 3) 3 100 where
  u0 := by positivity
  u1 := by norm_num
  dx0 := one_pos
  τ0 := le_rfl
  eps0 := by positivity
  eps1 := by norm_num
  odd := rfl
  points := by norm_num
  pos := by unfold reach; norm_num
  basis := by
    have := gam_le (u := 2⁻¹ ^ 53) (by positivity) (by norm_num) 3 (by norm_num)
    norm_num at this ⊢
    linarith
  values := by
    have := gam_le (u := 2⁻¹ ^ 53) (by positivity) (by norm_num) (2 * 3 + 5) (by norm_num)
    norm_num at this ⊢
    linarith

theorem stepErr_binary64 : stepErr (2⁻¹ ^ 53) (2⁻¹ ^ 52) 0 0 1 (Real.sqrt (1 / 1) * 0.1 * 3) 3 100 ≤ 1 / 1000000000 := by
  have h3 := gam_le (u := 2⁻¹ ^ 53) (by positivity) (by norm_num) 3 (by norm_num)
  have h11 := gam_le (u := 2⁻¹ ^ 53) (by positivity) (by norm_num) (2 * 3 + 5) (by norm_num)
  unfold stepErr posErr reach lip
  norm_num at h3 h11 ⊢
  linarith

/-- Up to ten thousand steps of the cubic advection in binary64 arithmetic on a grid of hundred points, with alternating values (`±1`, the least favourable ones): a run exists, and every run stays within `0.01` (in the sum of squares) of the exact scheme. -/
example : ∃ (w : ℕ → ℝ) (c : ℕ → ZMod 100 → ℝ), (∀ i ≤ 3, WeightU (2⁻¹ ^ 53) 3 i (w i)) ∧ (∀ i, c 0 i = (-1) ^ i.val) ∧ ∀ n ≤ 10000, RunFl (2⁻¹ ^ 53) (2⁻¹ ^ 52) 3 100 w (fun k => k) 1 1 1 0.1 3 c n ∧
    Real.sqrt (∑ i, (c n i - (exactStep 3 100 0 1 (Real.sqrt (1 / 1) * 0.1 * 3))^[n] (c 0) i) ^ 2) ≤ 1 / 100 := by
  have hu0 : (0 : ℝ) ≤ 2⁻¹ ^ 53 := by positivity
  obtain ⟨w, hw⟩ := exists_weights hu0 3
  obtain ⟨c, hc0, hc⟩ := exists_run hu0 (2⁻¹ ^ 52) 3 100 w (fun k => (k : ℝ)) 1 1 1 0.1 3 fun i : ZMod 100 => (-1) ^ i.val
  refine ⟨w, c, hw, fun i => by rw [hc0], fun n hn => ⟨hc n, ?_⟩⟩
  have hn' : (n : ℝ) ≤ 10000 := by exact_mod_cast hn
  have hS : Sizes (2⁻¹ ^ 53) (2⁻¹ ^ 52) (((0 : ℤ) : ℝ)) 0 1 (Real.sqrt (1 / 1) * 0.1 * 3) 3 100 := by rw [Int.cast_zero]; exact sizes_binary64
  have h := c109_many_steps (kn := fun k : ℤ => (k : ℝ)) hS hw (fun k _ _ => by simp) (hc n)
  simp only [Int.cast_zero] at h
  have hsum : ∑ i, c 0 i ^ 2 = 100 := by
    have : ∀ i : ZMod 100, c 0 i ^ 2 = 1 := fun i => by rw [hc0, ← pow_mul, mul_comm, pow_mul]; simp
    simp only [this, sum_const, card_univ, ZMod.card]
    norm_num
  have hs10 : Real.sqrt 100 = 10 := by rw [show (100 : ℝ) = 10 ^ 2 by norm_num, Real.sqrt_sq (by norm_num)]
  rw [hsum, show ((100 : ℕ) : ℝ) = 100 by norm_num, hs10] at h
  obtain ⟨κ, hκ⟩ : ∃ κ, κ = stepErr (2⁻¹ ^ 53) (2⁻¹ ^ 52) 0 0 1 (Real.sqrt (1 / 1) * 0.1 * 3) 3 100 := ⟨_, rfl⟩
  have hκ0 : 0 ≤ κ := by rw [hκ]; exact stepErr_nonneg sizes_binary64
  have hκ1 : κ ≤ 1 / 1000000000 := by rw [hκ]; exact stepErr_binary64
  rw [← hκ] at h
  have he : ∀ n : ℕ, (n : ℝ) * (10 * κ) ≤ 1 / 10000 → (1 + 10 * κ) ^ n - 1 ≤ 1 / 5000 := by
    intro n hn
    have h1 : 1 + 10 * κ ≤ Real.exp (10 * κ) := by linarith [Real.add_one_le_exp (10 * κ)]
    have h2 := pow_le_pow_left₀ (by linarith) h1 n
    rw [← Real.exp_nat_mul] at h2
    have h0 : 0 ≤ (n : ℝ) * (10 * κ) := by positivity
    have h3 : |(n : ℝ) * (10 * κ)| ≤ 1 := by rw [abs_of_nonneg h0]; linarith
    have h4 := Real.abs_exp_sub_one_le h3
    rw [abs_of_nonneg h0] at h4
    have h5 := (abs_le.1 h4).2
    linarith
  refine h.trans ((mul_le_mul_of_nonneg_right (he n ?_) (by norm_num)).trans (by norm_num))
  have := mul_le_mul hn' hκ1 hκ0 (by norm_num)
  linarith

end Verif.FloatAdvection
