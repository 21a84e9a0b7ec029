import Verif.Model.Rounding
import Verif.Props.Norms
import Verif.Props.Tridiag
import Mathlib.Tactic.GCongr
import Mathlib.Tactic.FieldSimp
import Mathlib.Algebra.Order.BigOperators.Group.List

/-! # C97: floating-point reductions and tridiagonal solves -/

namespace Verif.Rounding

variable {ι : Type*}

/-! ## Reductions -/

theorem fl_exact {u : ℝ} (hu : 0 ≤ u) (x : ℝ) : Fl u x x := ⟨0, by simpa using hu, by ring⟩

theorem fl_err {u x y : ℝ} (h : Fl u x y) : |y - x| ≤ u * |x| := by
  obtain ⟨δ, hδ, rfl⟩ := h
  rw [show x * (1 + δ) - x = δ * x by ring, abs_mul]
  gcongr

theorem fl_nonneg {u x y : ℝ} (hu : u < 1) (h : Fl u x y) (hx : 0 ≤ x) : 0 ≤ y := by
  obtain ⟨δ, hδ, rfl⟩ := h
  have := (abs_le.1 hδ).1
  exact mul_nonneg hx (by linarith)

theorem fl_pos {u x y : ℝ} (hu : u < 1) (h : Fl u x y) (hx : 0 < x) : 0 < y := by
  obtain ⟨δ, hδ, rfl⟩ := h
  have := (abs_le.1 hδ).1
  exact mul_pos hx (by linarith)

theorem fl_zero {u y : ℝ} (h : Fl u 0 y) : y = 0 := by
  obtain ⟨δ, hδ, rfl⟩ := h
  ring

theorem err_step {u p x y z : ℝ} (hu : 0 ≤ u) (hp : 1 ≤ p) {S : ℝ} (hx : |x| ≤ S) (hy : |y - x| ≤ (p - 1) * S) (hz : |z - y| ≤ u * |y|) : |z - x| ≤ (p * (1 + u) - 1) * S := by
  have h1 : |y| ≤ p * S := by
    calc |y| = |(y - x) + x| := by ring_nf
      _ ≤ |y - x| + |x| := abs_add_le _ _
      _ ≤ (p - 1) * S + S := add_le_add hy hx
      _ = p * S := by ring
  calc |z - x| = |(z - y) + (y - x)| := by ring_nf
    _ ≤ |z - y| + |y - x| := abs_add_le _ _
    _ ≤ u * (p * S) + (p - 1) * S := by gcongr; exact hz.trans (by gcongr)
    _ = (p * (1 + u) - 1) * S := by ring

/-- The sum of rounded values along any tree, with rounded additions. -/
theorem sumFl_err {u : ℝ} (hu : 0 ≤ u) {f : ι → ℝ} {k : ℕ} {val : ι → ℝ → Prop} (hval : ∀ i a, val i a → |a - f i| ≤ ((1 + u) ^ k - 1) * |f i|) {t : Norms.Tree ι} {v : ℝ} (h : SumFl u val t v) :
    |v - (t.indices.map f).sum| ≤ ((1 + u) ^ (k + height t) - 1) * (t.indices.map fun i => |f i|).sum := by
  induction h with
  | idle => simp [Norms.Tree.indices]
  | leaf i a h => simpa [Norms.Tree.indices, height] using hval i a h
  | node l r a b v hl hr h ihl ihr =>
    simp only [Norms.Tree.indices, List.map_append, List.sum_append, height]
    obtain ⟨A, hA⟩ : ∃ A, A = (l.indices.map f).sum := ⟨_, rfl⟩
    obtain ⟨B, hB⟩ : ∃ B, B = (r.indices.map f).sum := ⟨_, rfl⟩
    obtain ⟨SA, hSA⟩ : ∃ A, A = (l.indices.map fun i => |f i|).sum := ⟨_, rfl⟩
    obtain ⟨SB, hSB⟩ : ∃ B, B = (r.indices.map fun i => |f i|).sum := ⟨_, rfl⟩
    rw [← hA, ← hSA] at ihl
    rw [← hB, ← hSB] at ihr
    rw [← hA, ← hB, ← hSA, ← hSB]
    have habs : ∀ s : List ι, |(s.map f).sum| ≤ (s.map fun i => |f i|).sum := by
      intro s
      induction s with
      | nil => simp
      | cons a s ih => simp only [List.map_cons, List.sum_cons]; exact (abs_add_le _ _).trans (add_le_add le_rfl ih)
    have hA' : |A| ≤ SA := by rw [hA, hSA]; exact habs _
    have hB' : |B| ≤ SB := by rw [hB, hSB]; exact habs _
    have hSA0 : 0 ≤ SA := (abs_nonneg _).trans hA'
    have hSB0 : 0 ≤ SB := (abs_nonneg _).trans hB'
    have h1 : (1 : ℝ) ≤ 1 + u := by linarith
    have p1 : (1 + u) ^ (k + height l) ≤ (1 + u) ^ (k + max (height l) (height r)) := pow_le_pow_right₀ h1 (by omega)
    have p2 : (1 + u) ^ (k + height r) ≤ (1 + u) ^ (k + max (height l) (height r)) := pow_le_pow_right₀ h1 (by omega)
    rw [← add_assoc, pow_succ]
    refine err_step hu (one_le_pow₀ h1) ((abs_add_le _ _).trans (add_le_add hA' hB')) ?_ (fl_err h)
    calc |a + b - (A + B)| = |(a - A) + (b - B)| := by ring_nf
      _ ≤ |a - A| + |b - B| := abs_add_le _ _
      _ ≤ ((1 + u) ^ (k + max (height l) (height r)) - 1) * SA + ((1 + u) ^ (k + max (height l) (height r)) - 1) * SB := by
        refine add_le_add (ihl.trans ?_) (ihr.trans ?_)
        · gcongr
        · gcongr
      _ = _ := by ring

/-- C97. The floating-point integral, for every reduction tree and every rounding: error at most `((1+u)^(h+2) - 1) Σ |q f|` with `h` the height of the tree. -/
theorem c97_quadrature {u : ℝ} (hu : 0 ≤ u) (q f : ι → ℝ) (t : Norms.Tree ι) (v : ℝ) (h : QuadFl u q f t v) :
    |v - (t.indices.map fun i => q i * f i).sum| ≤ ((1 + u) ^ (height t + 2) - 1) * (t.indices.map fun i => |q i * f i|).sum := by
  obtain ⟨s, hs, hv⟩ := h
  have e := sumFl_err hu (f := fun i => q i * f i) (k := 1) (fun i a ha => by simpa using fl_err ha) hs
  rw [show height t + 2 = 1 + height t + 1 by ring, pow_succ]
  rw [zero_add] at hv
  refine err_step hu (one_le_pow₀ (by linarith)) ?_ e (fl_err hv)
  generalize t.indices = L
  induction L with
  | nil => simp
  | cons a s ih => simp only [List.map_cons, List.sum_cons]; exact (abs_add_le _ _).trans (add_le_add le_rfl ih)

/-- C97. Two schedules (other tree, other order of the indices) give integrals that differ by at most twice this bound. -/
theorem c97_quadrature_schedules {u : ℝ} (hu : 0 ≤ u) (q f : ι → ℝ) (t t' : Norms.Tree ι) (hp : t.indices.Perm t'.indices) (v v' : ℝ) (h : QuadFl u q f t v) (h' : QuadFl u q f t' v') (H : ℕ)
    (hH : height t ≤ H) (hH' : height t' ≤ H) : |v - v'| ≤ 2 * (((1 + u) ^ (H + 2) - 1) * (t.indices.map fun i => |q i * f i|).sum) := by
  have h1 := c97_quadrature hu q f t v h
  have h2 := c97_quadrature hu q f t' v' h'
  rw [← (hp.map fun i => q i * f i).sum_eq, ← (hp.map fun i => |q i * f i|).sum_eq] at h2
  obtain ⟨S, hS⟩ : ∃ S, S = (t.indices.map fun i => |q i * f i|).sum := ⟨_, rfl⟩
  have hS0 : 0 ≤ S := by rw [hS]; exact List.sum_nonneg (by simp only [List.mem_map]; rintro _ ⟨i, -, rfl⟩; exact abs_nonneg _)
  rw [← hS] at h1 h2 ⊢
  have h3 : (1 : ℝ) ≤ 1 + u := by linarith
  have p1 : ((1 + u) ^ (height t + 2) - 1) * S ≤ ((1 + u) ^ (H + 2) - 1) * S := by gcongr
  have p2 : ((1 + u) ^ (height t' + 2) - 1) * S ≤ ((1 + u) ^ (H + 2) - 1) * S := by gcongr
  rw [abs_le] at h1 h2 ⊢
  constructor <;> linarith [h1.1, h1.2, h2.1, h2.2]

theorem sumFl_nonneg {u : ℝ} (hu1 : u < 1) {val : ι → ℝ → Prop} {t : Norms.Tree ι} {v : ℝ} (h : SumFl u val t v) (hval : ∀ i ∈ t.indices, ∀ a, val i a → 0 ≤ a) : 0 ≤ v := by
  induction h with
  | idle => exact le_rfl
  | leaf i a h => exact hval i (by simp [Norms.Tree.indices]) a h
  | node l r a b v hl hr h ihl ihr =>
    exact fl_nonneg hu1 h (add_nonneg (ihl fun i hi => hval i (by simp [Norms.Tree.indices, hi])) (ihr fun i hi => hval i (by simp [Norms.Tree.indices, hi])))

theorem sumFl_pos {u : ℝ} (hu1 : u < 1) {val : ι → ℝ → Prop} {t : Norms.Tree ι} {v : ℝ} (h : SumFl u val t v) (hval : ∀ i ∈ t.indices, ∀ a, val i a → 0 ≤ a)
    (hpos : ∃ i ∈ t.indices, ∀ a, val i a → 0 < a) : 0 < v := by
  induction h with
  | idle => obtain ⟨i, hi, -⟩ := hpos; simp [Norms.Tree.indices] at hi
  | leaf i a h =>
    obtain ⟨j, hj, hj'⟩ := hpos
    simp only [Norms.Tree.indices, List.mem_singleton] at hj
    exact hj' a (hj ▸ h)
  | node l r a b v hl hr h ihl ihr =>
    have nl := fun i (hi : i ∈ l.indices) => hval i (by simp [Norms.Tree.indices, hi])
    have nr := fun i (hi : i ∈ r.indices) => hval i (by simp [Norms.Tree.indices, hi])
    obtain ⟨j, hj, hj'⟩ := hpos
    simp only [Norms.Tree.indices, List.mem_append] at hj
    refine fl_pos hu1 h ?_
    rcases hj with hj | hj
    · exact add_pos_of_pos_of_nonneg (ihl nl ⟨j, hj, hj'⟩) (sumFl_nonneg hu1 hr nr)
    · exact add_pos_of_nonneg_of_pos (sumFl_nonneg hu1 hl nl) (ihr nr ⟨j, hj, hj'⟩)

/-- C97. With non-negative coefficients the computed integral of a non-negative function is non-negative, and it is zero only if the function vanishes where the coefficients do not: no rounding can change the sign. -/
theorem c97_quadrature_sign {u : ℝ} (hu1 : u < 1) (q f : ι → ℝ) (t : Norms.Tree ι) (v : ℝ) (h : QuadFl u q f t v) (hq : ∀ i ∈ t.indices, 0 ≤ q i * f i) :
    0 ≤ v ∧ (v = 0 ↔ ∀ i ∈ t.indices, q i * f i = 0) := by
  obtain ⟨s, hs, hv⟩ := h
  rw [zero_add] at hv
  have nn : ∀ i ∈ t.indices, ∀ a, Fl u (q i * f i) a → 0 ≤ a := fun i hi a ha => fl_nonneg hu1 ha (hq i hi)
  refine ⟨fl_nonneg hu1 hv (sumFl_nonneg hu1 hs nn), fun h0 i hi => ?_, fun h0 => ?_⟩
  · by_contra hne
    have : 0 < q i * f i := lt_of_le_of_ne (hq i hi) (Ne.symm hne)
    have := fl_pos hu1 hv (sumFl_pos hu1 hs nn ⟨i, hi, fun a ha => fl_pos hu1 ha this⟩)
    linarith
  · have : s = 0 := by
      clear hv nn hq
      induction hs with
      | idle => rfl
      | leaf i a h => rw [h0 i (by simp [Norms.Tree.indices])] at h; exact fl_zero h
      | node l r a b v hl hr h ihl ihr =>
        rw [ihl fun i hi => h0 i (by simp [Norms.Tree.indices, hi]), ihr fun i hi => h0 i (by simp [Norms.Tree.indices, hi]), add_zero] at h
        exact fl_zero h
    rw [this] at hv
    exact fl_zero hv

/-- C97. With non-negative coefficients the computed L1 norm has a relative error of at most `(1+u)^(h+2) - 1`, whatever the schedule. -/
theorem c97_norm_L1 {u : ℝ} (hu : 0 ≤ u) (q f : ι → ℝ) (t : Norms.Tree ι) (hq : ∀ i ∈ t.indices, 0 ≤ q i) (v : ℝ) (h : NormL1Fl u q f t v) :
    |v - Norms.normL1 t q f| ≤ ((1 + u) ^ (height t + 2) - 1) * Norms.normL1 t q f := by
  have e := c97_quadrature hu q (fun i => |f i|) t v h
  rw [Norms.c29_norm_L1 t (List.Perm.refl _) q f]
  have : (t.indices.map fun i => abs (q i * abs (f i))) = t.indices.map fun i => q i * |f i| := List.map_congr_left fun i hi => abs_of_nonneg (mul_nonneg (hq i hi) (abs_nonneg _))
  rwa [this] at e

/-- The sequential loop is one of the trees. -/
def comb : List ι → Norms.Tree ι
  | [] => .idle
  | i :: s => .node (comb s) (.leaf i)

theorem comb_indices (s : List ι) : (comb s).indices = s.reverse := by
  induction s with
  | nil => rfl
  | cons a s ih => simp [comb, Norms.Tree.indices, ih]

/-- C97. Exact arithmetic is the case `u = 0`, and for every `u` there is a run: the relation is neither empty nor weaker than the model with real numbers. -/
theorem c97_quadrature_exact (q f : ι → ℝ) (t : Norms.Tree ι) : (∀ v, QuadFl 0 q f t v ↔ v = (t.indices.map fun i => q i * f i).sum) ∧ ∀ u, 0 ≤ u → QuadFl u q f t (t.indices.map fun i => q i * f i).sum := by
  have ex : ∀ u, 0 ≤ u → QuadFl u q f t (t.indices.map fun i => q i * f i).sum := by
    intro u hu
    have : ∀ t : Norms.Tree ι, SumFl u (fun i a => Fl u (q i * f i) a) t (t.indices.map fun i => q i * f i).sum := by
      intro t
      induction t with
      | idle => exact .idle
      | leaf i => simpa [Norms.Tree.indices] using SumFl.leaf (u := u) (val := fun i a => Fl u (q i * f i) a) i _ (fl_exact hu (q i * f i))
      | node l r ihl ihr =>
        refine .node l r _ _ _ ihl ihr ?_
        simp only [Norms.Tree.indices, List.map_append, List.sum_append]
        exact fl_exact hu _
    exact ⟨_, this t, by rw [zero_add]; exact fl_exact hu _⟩
  refine ⟨fun v => ⟨fun h => ?_, fun h => h ▸ ex 0 le_rfl⟩, ex⟩
  have := c97_quadrature le_rfl q f t v h
  simp only [add_zero, one_pow, sub_self, zero_mul] at this
  exact sub_eq_zero.1 (abs_eq_zero.1 (le_antisymm this (abs_nonneg _)))

theorem sumFl_between {u : ℝ} (hu : 0 ≤ u) (hu1 : u ≤ 1) {f : ι → ℝ} {k : ℕ} {val : ι → ℝ → Prop} {t : Norms.Tree ι} {v : ℝ} (h : SumFl u val t v) (hf : ∀ i ∈ t.indices, 0 ≤ f i)
    (hval : ∀ i ∈ t.indices, ∀ a, val i a → (1 - u) ^ k * f i ≤ a ∧ a ≤ (1 + u) ^ k * f i) :
    (1 - u) ^ (k + height t) * (t.indices.map f).sum ≤ v ∧ v ≤ (1 + u) ^ (k + height t) * (t.indices.map f).sum := by
  induction h with
  | idle => simp [Norms.Tree.indices]
  | leaf i a h => simpa [Norms.Tree.indices, height] using hval i (by simp [Norms.Tree.indices]) a h
  | node l r a b v hl hr h ihl ihr =>
    obtain ⟨l1, l2⟩ := ihl (fun i hi => hf i (by simp [Norms.Tree.indices, hi])) (fun i hi => hval i (by simp [Norms.Tree.indices, hi]))
    obtain ⟨r1, r2⟩ := ihr (fun i hi => hf i (by simp [Norms.Tree.indices, hi])) (fun i hi => hval i (by simp [Norms.Tree.indices, hi]))
    have hA : 0 ≤ (l.indices.map f).sum := List.sum_nonneg (by simp only [List.mem_map]; rintro _ ⟨i, hi, rfl⟩; exact hf i (by simp [Norms.Tree.indices, hi]))
    have hB : 0 ≤ (r.indices.map f).sum := List.sum_nonneg (by simp only [List.mem_map]; rintro _ ⟨i, hi, rfl⟩; exact hf i (by simp [Norms.Tree.indices, hi]))
    simp only [Norms.Tree.indices, List.map_append, List.sum_append, height]
    obtain ⟨A, eA⟩ : ∃ A, A = (l.indices.map f).sum := ⟨_, rfl⟩
    obtain ⟨B, eB⟩ : ∃ B, B = (r.indices.map f).sum := ⟨_, rfl⟩
    rw [← eA] at l1 l2 hA ⊢
    rw [← eB] at r1 r2 hB ⊢
    have h0 : 0 ≤ 1 - u := by linarith
    have h1 : (1 : ℝ) ≤ 1 + u := by linarith
    obtain ⟨K, hK⟩ : ∃ K, K = k + max (height l) (height r) := ⟨_, rfl⟩
    have a1 : (1 - u) ^ K * A ≤ a := le_trans (mul_le_mul_of_nonneg_right (pow_le_pow_of_le_one h0 (by linarith) (by omega)) hA) l1
    have b1 : (1 - u) ^ K * B ≤ b := le_trans (mul_le_mul_of_nonneg_right (pow_le_pow_of_le_one h0 (by linarith) (by omega)) hB) r1
    have a2 : a ≤ (1 + u) ^ K * A := le_trans l2 (mul_le_mul_of_nonneg_right (pow_le_pow_right₀ h1 (by omega)) hA)
    have b2 : b ≤ (1 + u) ^ K * B := le_trans r2 (mul_le_mul_of_nonneg_right (pow_le_pow_right₀ h1 (by omega)) hB)
    rw [← add_assoc, ← hK, pow_succ, pow_succ]
    obtain ⟨δ, hδ, rfl⟩ := h
    obtain ⟨d1, d2⟩ := abs_le.1 hδ
    have n0 : 0 ≤ (1 - u) ^ K * (A + B) := mul_nonneg (pow_nonneg h0 _) (add_nonneg hA hB)
    have m1 : (1 - u) ^ K * (A + B) ≤ a + b := by linarith
    have m2 : a + b ≤ (1 + u) ^ K * (A + B) := by linarith
    constructor
    · calc (1 - u) ^ K * (1 - u) * (A + B) = (1 - u) ^ K * (A + B) * (1 - u) := by ring
        _ ≤ (a + b) * (1 + δ) := mul_le_mul m1 (by linarith) h0 (n0.trans m1)
    · calc (a + b) * (1 + δ) ≤ (1 + u) ^ K * (A + B) * (1 + u) := mul_le_mul m2 (by linarith) (by linarith) ((n0.trans m1).trans m2)
        _ = _ := by ring

theorem fl_between {u x y : ℝ} (h : Fl u x y) (hx : 0 ≤ x) : (1 - u) * x ≤ y ∧ y ≤ (1 + u) * x := by
  obtain ⟨δ, hδ, rfl⟩ := h
  obtain ⟨d1, d2⟩ := abs_le.1 hδ
  constructor <;> nlinarith

/-- C97. The computed L2 norm, with non-negative coefficients and for every schedule: its square is the square of the exact norm up to a factor between `(1-u)^(h+5)` and `(1+u)^(h+5)`. -/
theorem c97_norm_L2 {u : ℝ} (hu : 0 ≤ u) (hu1 : u ≤ 1) (q f : ι → ℝ) (t : Norms.Tree ι) (hq : ∀ i ∈ t.indices, 0 ≤ q i) (v : ℝ) (h : NormL2Fl u q f t v) :
    (1 - u) ^ (height t + 5) * Norms.normL2 t q f ^ 2 ≤ v ^ 2 ∧ v ^ 2 ≤ (1 + u) ^ (height t + 5) * Norms.normL2 t q f ^ 2 ∧ 0 ≤ v := by
  obtain ⟨g, hg, s, ⟨s', hs', hs⟩, hv⟩ := h
  have h0 : 0 ≤ 1 - u := by linarith
  have h1 : 0 ≤ 1 + u := by linarith
  have hgb := fun i => fl_between (hg i) (mul_self_nonneg (f i))
  have hg0 : ∀ i, 0 ≤ g i := fun i => le_trans (mul_nonneg h0 (mul_self_nonneg _)) (hgb i).1
  obtain ⟨b1, b2⟩ := sumFl_between hu hu1 (f := fun i => q i * (f i * f i)) (k := 2) hs' (fun i hi => mul_nonneg (hq i hi) (mul_self_nonneg _)) fun i hi a ha => by
    obtain ⟨c1, c2⟩ := fl_between ha (mul_nonneg (hq i hi) (hg0 i))
    obtain ⟨e1, e2⟩ := hgb i
    constructor
    · calc (1 - u) ^ 2 * (q i * (f i * f i)) = (1 - u) * (q i * ((1 - u) * (f i * f i))) := by ring
        _ ≤ (1 - u) * (q i * g i) := by gcongr; exact hq i hi
        _ ≤ a := c1
    · calc a ≤ (1 + u) * (q i * g i) := c2
        _ ≤ (1 + u) * (q i * ((1 + u) * (f i * f i))) := by gcongr; exact hq i hi
        _ = (1 + u) ^ 2 * (q i * (f i * f i)) := by ring
  have hN : Norms.normL2 t q f ^ 2 = (t.indices.map fun i => q i * (f i * f i)).sum := by
    rw [Norms.c29_norm_L2 t (List.Perm.refl _) q f]
    simp only [pow_two (f _)]
    rw [Real.sq_sqrt]
    exact List.sum_nonneg (by simp only [List.mem_map]; rintro _ ⟨i, hi, rfl⟩; exact mul_nonneg (hq i hi) (mul_self_nonneg _))
  rw [← hN] at b1 b2
  obtain ⟨N, eN⟩ : ∃ N, N = Norms.normL2 t q f ^ 2 := ⟨_, rfl⟩
  have hN0 : 0 ≤ N := eN ▸ sq_nonneg _
  rw [← eN] at b1 b2 ⊢
  have hs0 : 0 ≤ s' := le_trans (mul_nonneg (pow_nonneg h0 _) hN0) b1
  rw [zero_add] at hs
  obtain ⟨c1, c2⟩ := fl_between hs hs0
  have hs1 : 0 ≤ s := le_trans (mul_nonneg h0 hs0) c1
  obtain ⟨d1, d2⟩ := fl_between hv (Real.sqrt_nonneg s)
  have hv0 : 0 ≤ v := le_trans (mul_nonneg h0 (Real.sqrt_nonneg s)) d1
  have sq := Real.sq_sqrt hs1
  refine ⟨?_, ?_, hv0⟩
  · calc (1 - u) ^ (height t + 5) * N = (1 - u) ^ 2 * ((1 - u) * ((1 - u) ^ (2 + height t) * N)) := by ring
      _ ≤ (1 - u) ^ 2 * ((1 - u) * s') := by gcongr
      _ ≤ (1 - u) ^ 2 * s := by gcongr
      _ = ((1 - u) * Real.sqrt s) ^ 2 := by rw [mul_pow, sq]
      _ ≤ v ^ 2 := pow_le_pow_left₀ (mul_nonneg h0 (Real.sqrt_nonneg s)) d1 2
  · calc v ^ 2 ≤ ((1 + u) * Real.sqrt s) ^ 2 := pow_le_pow_left₀ hv0 d2 2
      _ = (1 + u) ^ 2 * s := by rw [mul_pow, sq]
      _ ≤ (1 + u) ^ 2 * ((1 + u) * s') := by gcongr
      _ ≤ (1 + u) ^ 2 * ((1 + u) * ((1 + u) ^ (2 + height t) * N)) := by gcongr
      _ = _ := by ring

/-- C97. The computed maximum error has a relative error of at most `u`, and the schedule plays no role: the possible results are the same for every tree over the same points. -/
theorem c97_error_norm_inf {u : ℝ} (hu : 0 ≤ u) (hu1 : u ≤ 1) (f g : ι → ℝ) (t : Norms.Tree ι) (v : ℝ) (h : ErrorNormInfFl u f g t v) :
    (1 - u) * Norms.errorNormInf t f g ≤ v ∧ v ≤ (1 + u) * Norms.errorNormInf t f g ∧ ∀ t' : Norms.Tree ι, (∀ i, i ∈ t.indices ↔ i ∈ t'.indices) → ErrorNormInfFl u f g t' v := by
  obtain ⟨d, hd, rfl⟩ := h
  have hdb : ∀ i, |(1 - u) * (f i - g i)| ≤ |d i| ∧ |d i| ≤ |(1 + u) * (f i - g i)| := by
    intro i
    obtain ⟨δ, hδ, e⟩ := hd i
    obtain ⟨d1, d2⟩ := abs_le.1 hδ
    rw [e, abs_mul, abs_mul, abs_mul, abs_of_nonneg (by linarith : 0 ≤ 1 + δ), abs_of_nonneg (by linarith : 0 ≤ 1 - u), abs_of_nonneg (by linarith : 0 ≤ 1 + u)]
    have := abs_nonneg (f i - g i)
    constructor <;> nlinarith
  have e1 := Norms.c29_norm_inf_smul t (fun i => f i - g i) (1 - u)
  have e2 := Norms.c29_norm_inf_smul t (fun i => f i - g i) (1 + u)
  rw [abs_of_nonneg (by linarith : 0 ≤ 1 - u)] at e1
  rw [abs_of_nonneg (by linarith : 0 ≤ 1 + u)] at e2
  rw [(Norms.c29_error_norm_inf t f g).1, ← e1, ← e2]
  refine ⟨?_, ?_, fun t' ht => ⟨d, hd, Norms.c29_norm_inf_schedule t t' ht d⟩⟩
  · rw [Norms.c29_norm_inf_le_iff _ _ (Norms.c29_norm_inf_nonneg _ _)]
    exact fun i hi => (hdb i).1.trans (Norms.c29_norm_inf_bounds t d hi)
  · rw [Norms.c29_norm_inf_le_iff _ _ (Norms.c29_norm_inf_nonneg _ _)]
    exact fun i hi => (hdb i).2.trans (Norms.c29_norm_inf_bounds t (fun i => (1 + u) * (f i - g i)) hi)

/-- The hypotheses are met: a sum of three terms along two different trees, with a rounding error in one of them. -/
example : ∃ (t t' : Norms.Tree ℕ) (v v' : ℝ), t.indices.Perm t'.indices ∧ QuadFl (1 / 1000) (fun _ => 1) (fun i : ℕ => (i : ℝ) + 1) t v ∧ QuadFl (1 / 1000) (fun _ => 1) (fun i : ℕ => (i : ℝ) + 1) t' v' ∧ v ≠ v' := by
  refine ⟨comb [0, 1, 2], .node (.leaf 0) (.node (.leaf 1) (.leaf 2)), 6, 6.006, ?_, ?_, ?_, by norm_num⟩
  · rw [comb_indices]
    decide
  · have := (c97_quadrature_exact (fun _ : ℕ => (1 : ℝ)) (fun i => (i : ℝ) + 1) (comb [0, 1, 2])).2 (1 / 1000) (by norm_num)
    rw [comb_indices] at this
    norm_num at this
    norm_num
    exact this
  · have hl : ∀ i : ℕ, SumFl (1 / 1000) (fun (i : ℕ) a => Fl (1 / 1000) (1 * ((i : ℝ) + 1)) a) (.leaf i) ((i : ℝ) + 1) := fun i => .leaf i _ ⟨0, by norm_num, by ring⟩
    have h23 : SumFl (1 / 1000) (fun (i : ℕ) a => Fl (1 / 1000) (1 * ((i : ℝ) + 1)) a) (.node (.leaf 1) (.leaf 2)) 5 := .node _ _ _ _ _ (hl 1) (hl 2) ⟨0, by norm_num, by norm_num⟩
    have h123 : SumFl (1 / 1000) (fun (i : ℕ) a => Fl (1 / 1000) (1 * ((i : ℝ) + 1)) a) (.node (.leaf 0) (.node (.leaf 1) (.leaf 2))) 6.006 :=
      .node _ _ _ _ _ (hl 0) h23 ⟨1 / 1000, by rw [abs_of_pos (by norm_num)], by norm_num⟩
    exact ⟨6.006, h123, ⟨0, by norm_num, by norm_num⟩⟩

end Verif.Rounding
