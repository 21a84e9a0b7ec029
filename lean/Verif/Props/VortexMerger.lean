import Verif.Model.Initial
import Mathlib.Logic.Function.Iterate
import Mathlib.Tactic.Linarith
import Mathlib.Tactic.FieldSimp
import Mathlib.Tactic.Ring
import Mathlib.Tactic.NormNum

/-! C67: equilibrium of the vortex merger simulation. -/

namespace Verif.Initial
open Real

variable {I : Type*}

theorem foldl_if_max (g : I → ℝ) (l : List I) (m : ℝ) :
    m ≤ l.foldl (fun m i => if m > g i then m else g i) m ∧
    (∀ i ∈ l, g i ≤ l.foldl (fun m i => if m > g i then m else g i) m) ∧
    (l.foldl (fun m i => if m > g i then m else g i) m = m ∨ ∃ i ∈ l, l.foldl (fun m i => if m > g i then m else g i) m = g i) := by
  induction l generalizing m with
  | nil => simp
  | cons a l ih =>
    simp only [List.foldl_cons]
    obtain ⟨h1, h2, h3⟩ := ih (if m > g a then m else g a)
    have hm : m ≤ (if m > g a then m else g a) ∧ g a ≤ (if m > g a then m else g a) := by
      split_ifs with h
      · exact ⟨le_refl _, le_of_lt h⟩
      · exact ⟨not_lt.1 h, le_refl _⟩
    refine ⟨hm.1.trans h1, ?_, ?_⟩
    · intro i hi
      rcases List.mem_cons.1 hi with rfl | hi
      · exact hm.2.trans h1
      · exact h2 i hi
    · rcases h3 with h3 | ⟨i, hi, h3⟩
      · by_cases h : m > g a
        · left; rw [h3, if_pos h]
        · right; exact ⟨a, List.mem_cons_self .., by rw [h3, if_neg h]⟩
      · right; exact ⟨i, List.mem_cons_of_mem _ hi, h3⟩

/-- The computed norm is the maximum of `|phi|` over the grid (0 on an empty grid). -/
theorem c67_norm_is_max (grid : List I) (phi : I → ℝ) (hne : grid ≠ []) :
    (∀ i ∈ grid, |phi i| ≤ normLinf grid phi) ∧ ∃ i ∈ grid, |phi i| = normLinf grid phi := by
  obtain ⟨h1, h2, h3⟩ := foldl_if_max (fun i => |phi i|) grid 0
  refine ⟨h2, ?_⟩
  rcases h3 with h3 | ⟨i, hi, h3⟩
  · obtain ⟨i, hi⟩ := List.exists_mem_of_ne_nil _ hne
    refine ⟨i, hi, ?_⟩
    have e : normLinf grid phi = 0 := h3
    have := h2 i hi
    rw [e]
    exact le_antisymm (by simpa only [h3] using this) (abs_nonneg _)
  · exact ⟨i, hi, h3.symm⟩

/-- **C67**: one iteration normalises the potential: the maximum of `|phi|` over the grid is `phi_max`, as long as the solved potential is not identically zero. -/
theorem c67_normalised (grid : List I) (poisson : (I → ℝ) → I → ℝ) (f : ℝ → ℝ) (phiMax : ℝ) (s : VMState I) (hp : 0 ≤ phiMax)
    (hz : ∃ i ∈ grid, poisson (fun i => s.sigma i * f (s.phi i)) i ≠ 0) :
    (∀ i ∈ grid, |(vmStep grid poisson f phiMax s).1.phi i| ≤ phiMax) ∧
    ∃ i ∈ grid, |(vmStep grid poisson f phiMax s).1.phi i| = phiMax := by
  obtain ⟨j, hj, hz⟩ := hz
  have hne : grid ≠ [] := List.ne_nil_of_mem hj
  obtain ⟨h1, i, hi, h2⟩ := c67_norm_is_max grid (poisson fun i => s.sigma i * f (s.phi i)) hne
  have hpos : 0 < normLinf grid (poisson fun i => s.sigma i * f (s.phi i)) := (abs_pos.2 hz).trans_le (h1 j hj)
  have e : ∀ i, |(vmStep grid poisson f phiMax s).1.phi i| =
      phiMax / normLinf grid (poisson fun i => s.sigma i * f (s.phi i)) * |poisson (fun i => s.sigma i * f (s.phi i)) i| := by
    intro i
    simp only [vmStep]
    rw [abs_mul, abs_of_nonneg (div_nonneg hp hpos.le)]
  refine ⟨fun i hi => ?_, i, hi, ?_⟩
  · rw [e]
    calc _ ≤ phiMax / normLinf grid (poisson fun i => s.sigma i * f (s.phi i)) * normLinf grid (poisson fun i => s.sigma i * f (s.phi i)) := by
          exact mul_le_mul_of_nonneg_left (h1 i hi) (div_nonneg hp hpos.le)
      _ = phiMax := by field_simp
  · rw [e, h2]; field_simp

/-- **C67**: if the solver is linear, each iteration produces a potential which solves the Poisson equation for the new sigma and the previous potential; sigma is multiplied
by the same factor everywhere, and `difference_sigma` bounds its change at each grid point. -/
theorem c67_step (grid : List I) (poisson : (I → ℝ) → I → ℝ) (f : ℝ → ℝ) (phiMax : ℝ) (s : VMState I)
    (hlin : ∀ (c : ℝ) (g : I → ℝ), poisson (fun i => c * g i) = fun i => c * poisson g i) :
    let s' := (vmStep grid poisson f phiMax s).1
    s'.phi = poisson (fun i => s'.sigma i * f (s.phi i)) ∧
    (∃ c, ∀ i, s'.sigma i = c * s.sigma i) ∧
    (∀ i ∈ grid, |s.sigma i - s'.sigma i| ≤ (vmStep grid poisson f phiMax s).2) := by
  refine ⟨?_, ⟨_, fun _ => rfl⟩, ?_⟩
  · simp only [vmStep, mul_assoc]
    rw [hlin]
  · intro i hi
    exact (foldl_if_max (fun i => |s.sigma i - phiMax / normLinf grid (poisson fun i => s.sigma i * f (s.phi i)) * s.sigma i|) grid 0).2.1 i hi

theorem vmLoop_spec (grid : List I) (poisson : (I → ℝ) → I → ℝ) (f : ℝ → ℝ) (phiMax tau : ℝ) (countMax count : ℕ) (s : VMState I) :
    ∃ k, 0 < k ∧
      let step := fun s : VMState I => (vmStep grid poisson f phiMax s).1
      vmLoop grid poisson f phiMax tau countMax count s = (step^[k] s, count + k, (vmStep grid poisson f phiMax (step^[k - 1] s)).2) ∧
      (count + k ≤ max countMax (count + 1)) ∧
      ((vmStep grid poisson f phiMax (step^[k - 1] s)).2 ≤ tau ∨ countMax ≤ count + k) := by
  induction hm : countMax - count generalizing count s with
  | zero =>
    rw [vmLoop]
    have h : ¬ ((vmStep grid poisson f phiMax s).2 > tau ∧ count + 1 < countMax) := by rintro ⟨_, h⟩; omega
    simp only [h, dif_neg, not_false_eq_true]
    exact ⟨1, by omega, rfl, le_max_right _ _, Or.inr (by omega)⟩
  | succ m ih =>
    rw [vmLoop]
    by_cases h : (vmStep grid poisson f phiMax s).2 > tau ∧ count + 1 < countMax
    · simp only [h, and_self, dif_pos]
      obtain ⟨k, hk, h1, h2, h3⟩ := ih (count + 1) (vmStep grid poisson f phiMax s).1 (by omega)
      obtain ⟨j, rfl⟩ : ∃ j, k = j + 1 := ⟨k - 1, by omega⟩
      refine ⟨j + 2, by omega, ?_, ?_, ?_⟩
      · simp only [Nat.add_sub_cancel] at h1
        rw [h1]
        simp only [Function.iterate_succ_apply, show j + 2 - 1 = j + 1 by omega]
        rw [show count + 1 + (j + 1) = count + (j + 2) by ring]
      · rw [max_def] at h2 ⊢; split_ifs at h2 ⊢ <;> omega
      · simp only [Nat.add_sub_cancel] at h3
        simp only [show j + 2 - 1 = j + 1 by omega, Function.iterate_succ_apply (n := j)]
        rcases h3 with h3 | h3
        · exact Or.inl h3
        · right; omega
    · simp only [h, dif_neg, not_false_eq_true]
      refine ⟨1, by omega, rfl, le_max_right _ _, ?_⟩
      rw [not_and_or, not_lt, not_lt] at h
      rcases h with h | h
      · exact Or.inl h
      · exact Or.inr h

/-- A solver with a maximum principle: a source that is non-negative, and positive at some grid point, gives such a potential. -/
def PositiveSolver (grid : List I) (poisson : (I → ℝ) → I → ℝ) : Prop :=
  ∀ g : I → ℝ, (∀ i, 0 ≤ g i) → (∃ i ∈ grid, 0 < g i) → (∀ i, 0 ≤ poisson g i) ∧ ∃ i ∈ grid, 0 < poisson g i

/-- Initial data of the iteration: sigma positive, potential non-negative and positive at some grid point. -/
def PositiveState (grid : List I) (s : VMState I) : Prop :=
  (∀ i, 0 < s.sigma i) ∧ (∀ i, 0 ≤ s.phi i) ∧ ∃ i ∈ grid, 0 < s.phi i

theorem PositiveState.step {grid : List I} {poisson : (I → ℝ) → I → ℝ} {f : ℝ → ℝ} {phiMax : ℝ} {s : VMState I} (h : PositiveState grid s)
    (hp : 0 < phiMax) (hps : PositiveSolver grid poisson) (hf0 : ∀ x, 0 ≤ x → 0 ≤ f x) (hf : ∀ x, 0 < x → 0 < f x) :
    (∃ i ∈ grid, poisson (fun i => s.sigma i * f (s.phi i)) i ≠ 0) ∧ PositiveState grid (vmStep grid poisson f phiMax s).1 := by
  obtain ⟨h1, h2, j, hj, h3⟩ := h
  obtain ⟨a1, i, hi, a2⟩ := hps (fun i => s.sigma i * f (s.phi i)) (fun i => mul_nonneg (h1 i).le (hf0 _ (h2 i)))
    ⟨j, hj, mul_pos (h1 j) (hf _ h3)⟩
  have hn : 0 < normLinf grid (poisson fun i => s.sigma i * f (s.phi i)) :=
    (abs_pos.2 a2.ne').trans_le ((c67_norm_is_max grid _ (List.ne_nil_of_mem hj)).1 i hi)
  have hc := div_pos hp hn
  exact ⟨⟨i, hi, a2.ne'⟩, fun i => mul_pos hc (h1 i), fun i => mul_nonneg hc.le (a1 i), i, hi, mul_pos hc a2⟩

/-- **C67** (whole algorithm): `find_equilibrium` always ends; with a linear solver that has a maximum principle, the potential it returns has maximum `phi_max` on the grid and
solves the Poisson equation `phi = L^-1 (sigma f(phi_prev))`, where `(sigma_prev, phi_prev)` is the previous iterate; sigma is proportional to the initial one;
unless all `count_max` iterations were used, `|sigma - sigma_prev| ≤ tau` on the grid. -/
theorem c67_find_equilibrium (grid : List I) (poisson : (I → ℝ) → I → ℝ) (f : ℝ → ℝ) (phiMax tau : ℝ) (countMax : ℕ) (centre : I → Option I)
    (s : VMState I) (hs : PositiveState grid s) (hp : 0 < phiMax) (hps : PositiveSolver grid poisson)
    (hlin : ∀ (c : ℝ) (g : I → ℝ), poisson (fun i => c * g i) = fun i => c * poisson g i)
    (hf0 : ∀ x, 0 ≤ x → 0 ≤ f x) (hf : ∀ x, 0 < x → 0 < f x) :
    let s' := (findEquilibrium grid poisson f phiMax tau countMax centre s).1
    ∃ (k : ℕ) (p : VMState I), 1 ≤ k ∧ k ≤ max countMax 1 ∧
      s'.phi = poisson (fun i => s'.sigma i * f (p.phi i)) ∧
      (∀ i ∈ grid, |s'.phi i| ≤ phiMax) ∧ (∃ i ∈ grid, |s'.phi i| = phiMax) ∧
      (∃ c, ∀ i, s'.sigma i = c * s.sigma i) ∧
      (k < countMax → ∀ i ∈ grid, |p.sigma i - s'.sigma i| ≤ tau) := by
  intro s'
  obtain ⟨k, hk, h1, h2, h3⟩ := vmLoop_spec grid poisson f phiMax tau countMax 0 s
  obtain ⟨j, rfl⟩ : ∃ j, k = j + 1 := ⟨k - 1, by omega⟩
  simp only [Nat.add_sub_cancel, zero_add] at h1 h2 h3
  set step := fun s : VMState I => (vmStep grid poisson f phiMax s).1 with hstep
  have hs' : s' = (vmStep grid poisson f phiMax (step^[j] s)).1 := by
    simp only [s', findEquilibrium, h1]
    rw [Function.iterate_succ_apply']
  obtain ⟨a1, _, a3⟩ := c67_step grid poisson f phiMax (step^[j] s) hlin
  have hpos : ∀ n, PositiveState grid (step^[n] s) := by
    intro n
    induction n with
    | zero => exact hs
    | succ n ih => rw [Function.iterate_succ_apply']; exact (ih.step hp hps hf0 hf).2
  obtain ⟨b1, b2⟩ := c67_normalised grid poisson f phiMax (step^[j] s) hp.le ((hpos j).step hp hps hf0 hf).1
  refine ⟨j + 1, step^[j] s, by omega, h2, by rw [hs']; exact a1, by rw [hs']; exact b1, by rw [hs']; exact b2, ?_, ?_⟩
  · rw [hs']
    have : ∀ n (s : VMState I), ∃ c, ∀ i, (step^[n] s).sigma i = c * s.sigma i := by
      intro n
      induction n with
      | zero => exact fun s => ⟨1, fun i => by simp⟩
      | succ n ih =>
        intro s
        obtain ⟨c, hc⟩ := ih (step s)
        refine ⟨c * (phiMax / normLinf grid (poisson fun i => s.sigma i * f (s.phi i))), fun i => ?_⟩
        rw [Function.iterate_succ_apply, hc]
        simp only [hstep, vmStep]; ring
    obtain ⟨c, hc⟩ := this (j + 1) s
    rw [Function.iterate_succ_apply'] at hc
    exact ⟨c, hc⟩
  · intro hlt i hi
    rw [hs']
    rcases h3 with h3 | h3
    · exact (a3 i hi).trans h3
    · omega

/-- **C67**: the density is `sigma f(phi)`, with a single value at the O-point. -/
theorem c67_density (grid : List I) (poisson : (I → ℝ) → I → ℝ) (f : ℝ → ℝ) (phiMax tau : ℝ) (countMax : ℕ) (centre : I → Option I)
    (s : VMState I) :
    let r := findEquilibrium grid poisson f phiMax tau countMax centre s
    (∀ i, centre i = none → r.2 i = r.1.sigma i * f (r.1.phi i)) ∧
    (∀ i j, centre i = some j → r.2 i = r.1.sigma j * f (r.1.phi j)) := by
  refine ⟨fun i h => ?_, fun i j h => ?_⟩ <;> simp only [findEquilibrium, h]

/-- The hypotheses of `c67_find_equilibrium` are met by a two-point problem, `f(phi) = phi^2` as in the simulation, and the initial data of `set_equilibrium`
(`sigma = 0.3`, Gaussian potential). -/
example : PositiveSolver [true, false] (fun g : Bool → ℝ => fun i => 2 * g i + g (!i)) ∧
    PositiveState [true, false] ⟨fun _ => 0.3, fun b => if b then 1 else exp (-2)⟩ ∧
    (∀ x : ℝ, 0 ≤ x → 0 ≤ x ^ 2) ∧ (∀ x : ℝ, 0 < x → 0 < x ^ 2) := by
  refine ⟨fun g h0 _ => ⟨fun i => ?_, ?_⟩, ⟨fun _ => by norm_num, fun b => ?_, true, by simp, by simp⟩, fun x _ => sq_nonneg x, fun x hx => pow_pos hx 2⟩
  · have := h0 i; have := h0 (!i); linarith
  · rename_i h
    obtain ⟨i, _, hi⟩ := h
    have := h0 (!i)
    exact ⟨i, by cases i <;> simp, by linarith⟩
  · simp only; split_ifs
    · exact zero_le_one
    · exact (exp_pos _).le

/-- **C67** (initial condition): with a non-negative amplitude the initial density is the equilibrium plus something between 0 and twice the amplitude; exchanging the two vortices
does not change it; at the centre of the first vortex at least `eps` is added. -/
theorem c67_init (rhoEq eps sigma x1 y1 x2 y2 x y : ℝ) (he : 0 ≤ eps) :
    rhoEq ≤ vortexMergerInit rhoEq eps sigma x1 y1 x2 y2 x y ∧
    vortexMergerInit rhoEq eps sigma x1 y1 x2 y2 x y ≤ rhoEq + 2 * eps ∧
    vortexMergerInit rhoEq eps sigma x1 y1 x2 y2 x y = vortexMergerInit rhoEq eps sigma x2 y2 x1 y1 x y ∧
    rhoEq + eps ≤ vortexMergerInit rhoEq eps sigma x1 y1 x2 y2 x1 y1 := by
  have ex : ∀ a b : ℝ, exp (-(a * a + b * b) / (2 * sigma * sigma)) ≤ 1 := by
    intro a b
    rw [exp_le_one_iff, neg_div, neg_nonpos]
    exact div_nonneg (by nlinarith [mul_self_nonneg a, mul_self_nonneg b]) (by nlinarith [mul_self_nonneg sigma])
  unfold vortexMergerInit
  refine ⟨?_, ?_, by ring, ?_⟩
  · have := mul_nonneg he (add_pos (exp_pos (-((x - x1) * (x - x1) + (y - y1) * (y - y1)) / (2 * sigma * sigma)))
      (exp_pos (-((x - x2) * (x - x2) + (y - y2) * (y - y2)) / (2 * sigma * sigma)))).le
    linarith
  · have := mul_le_mul_of_nonneg_left (add_le_add (ex (x - x1) (y - y1)) (ex (x - x2) (y - y2))) he
    linarith
  · simp only [sub_self, mul_zero, add_zero, neg_zero, zero_div, exp_zero]
    have := mul_nonneg he (exp_pos (-((x1 - x2) * (x1 - x2) + (y1 - y2) * (y1 - y2)) / (2 * sigma * sigma))).le
    linarith

end Verif.Initial
