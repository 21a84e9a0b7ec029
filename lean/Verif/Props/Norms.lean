import Verif.Model.Norms
import Mathlib.Algebra.BigOperators.Group.List.Basic
import Mathlib.Algebra.Order.BigOperators.Ring.Finset
import Mathlib.Algebra.BigOperators.Fin
import Mathlib.Tactic.Linarith
import Mathlib.Tactic.LinearCombination
import Mathlib.Tactic.NormNum
import Mathlib.Tactic.Positivity
import Mathlib.Tactic.Ring

/-!
# C29: discrete norms are norms, whatever the order of the parallel reduction

`L.Perm t.indices` below means that the reduction tree visits the index range `L` (each index once).
-/

namespace Verif.Norms

variable {ι : Type*}

theorem reduce_sum (t : Tree ι) (f : ι → ℝ) : t.reduce (· + ·) 0 f = (t.indices.map f).sum := by
  induction t with
  | idle => rfl
  | leaf b => simp [Tree.reduce, Tree.indices]
  | node l r hl hr => simp [Tree.reduce, Tree.indices, hl, hr]

theorem reduce_max_le (t : Tree ι) (f : ι → ℝ) {B : ℝ} (hB : 0 ≤ B) :
    t.reduce max 0 f ≤ B ↔ ∀ i ∈ t.indices, f i ≤ B := by
  induction t with
  | idle => simp [Tree.reduce, Tree.indices, hB]
  | leaf b => simp [Tree.reduce, Tree.indices]
  | node l r hl hr =>
      simp only [Tree.reduce, Tree.indices, max_le_iff, hl, hr, List.mem_append]
      constructor
      · rintro ⟨a, b⟩ i (hi | hi)
        · exact a i hi
        · exact b i hi
      · intro h
        exact ⟨fun i hi => h i (Or.inl hi), fun i hi => h i (Or.inr hi)⟩

/-- **C29** Characterisation of `norm_inf`: it is the least non-negative number bounding the absolute values (for every
reduction order). -/
theorem c29_norm_inf_le_iff (t : Tree ι) (f : ι → ℝ) {B : ℝ} (hB : 0 ≤ B) :
    normInf t f ≤ B ↔ ∀ i ∈ t.indices, |f i| ≤ B := by
  unfold normInf
  rw [max_le_iff, reduce_max_le t _ hB]
  exact ⟨fun h => h.2, fun h => ⟨hB, h⟩⟩

theorem c29_norm_inf_nonneg (t : Tree ι) (f : ι → ℝ) : 0 ≤ normInf t f := le_max_left _ _

/-- **C29** Every entry is bounded by the norm. -/
theorem c29_norm_inf_bounds (t : Tree ι) (f : ι → ℝ) {i : ι} (hi : i ∈ t.indices) : |f i| ≤ normInf t f :=
  (c29_norm_inf_le_iff t f (c29_norm_inf_nonneg t f)).1 le_rfl i hi

/-- **C29** The norm is attained (unless the range is empty, where it is zero). -/
theorem c29_norm_inf_attained (t : Tree ι) (f : ι → ℝ) (h : normInf t f ≠ 0) :
    ∃ i ∈ t.indices, normInf t f = |f i| := by
  by_contra hc
  have hc : ∀ i ∈ t.indices, |f i| < normInf t f := fun i hi =>
    lt_of_le_of_ne (c29_norm_inf_bounds t f hi) (fun e => hc ⟨i, hi, e.symm⟩)
  have hpos := lt_of_le_of_ne (c29_norm_inf_nonneg t f) (Ne.symm h)
  -- a strictly smaller bound for finitely many values
  have key : ∀ L : List ι, (∀ i ∈ L, |f i| < normInf t f) → ∃ B, 0 ≤ B ∧ B < normInf t f ∧ ∀ i ∈ L, |f i| ≤ B := by
    intro L
    induction L with
    | nil => intro _; exact ⟨0, le_rfl, hpos, by simp⟩
    | cons a L ih =>
        intro hL
        obtain ⟨B, h0, h1, h2⟩ := ih (fun i hi => hL i (List.mem_cons_of_mem _ hi))
        refine ⟨max B |f a|, le_max_of_le_left h0, max_lt h1 (hL a List.mem_cons_self), fun i hi => ?_⟩
        rcases List.mem_cons.1 hi with rfl | hi
        · exact le_max_right _ _
        · exact (h2 i hi).trans (le_max_left _ _)
  obtain ⟨B, h0, h1, h2⟩ := key _ hc
  exact absurd ((c29_norm_inf_le_iff t f h0).2 h2) (not_le.2 h1)

/-- **C29** Homogeneity. -/
theorem c29_norm_inf_smul (t : Tree ι) (f : ι → ℝ) (c : ℝ) :
    normInf t (fun i => c * f i) = |c| * normInf t f := by
  apply le_antisymm
  · rw [c29_norm_inf_le_iff _ _ (mul_nonneg (abs_nonneg _) (c29_norm_inf_nonneg _ _))]
    intro i hi
    rw [abs_mul]
    exact mul_le_mul_of_nonneg_left (c29_norm_inf_bounds t f hi) (abs_nonneg _)
  · by_cases h : normInf t f = 0
    · rw [h, mul_zero]; exact c29_norm_inf_nonneg _ _
    · obtain ⟨i, hi, e⟩ := c29_norm_inf_attained t f h
      rw [e, ← abs_mul]
      exact c29_norm_inf_bounds t (fun i => c * f i) hi

/-- **C29** Triangle inequality. -/
theorem c29_norm_inf_add (t : Tree ι) (f g : ι → ℝ) :
    normInf t (fun i => f i + g i) ≤ normInf t f + normInf t g := by
  rw [c29_norm_inf_le_iff _ _ (add_nonneg (c29_norm_inf_nonneg _ _) (c29_norm_inf_nonneg _ _))]
  intro i hi
  exact (abs_add_le _ _).trans (add_le_add (c29_norm_inf_bounds t f hi) (c29_norm_inf_bounds t g hi))

/-- **C29** Schedule independence: two reductions over the same index range return the same norm. -/
theorem c29_norm_inf_schedule (t t' : Tree ι) (h : ∀ i, i ∈ t.indices ↔ i ∈ t'.indices) (f : ι → ℝ) :
    normInf t f = normInf t' f := by
  apply le_antisymm
  · rw [c29_norm_inf_le_iff _ _ (c29_norm_inf_nonneg _ _)]
    exact fun i hi => c29_norm_inf_bounds t' f ((h i).1 hi)
  · rw [c29_norm_inf_le_iff _ _ (c29_norm_inf_nonneg _ _)]
    exact fun i hi => c29_norm_inf_bounds t f ((h i).2 hi)

/-- **C29** `error_norm_inf` is the norm of the difference; it vanishes exactly when the two fields agree on the range. -/
theorem c29_error_norm_inf (t : Tree ι) (f g : ι → ℝ) :
    errorNormInf t f g = normInf t (fun i => f i - g i) ∧
    (errorNormInf t f g = 0 ↔ ∀ i ∈ t.indices, f i = g i) := by
  refine ⟨rfl, ?_⟩
  have : errorNormInf t f g = normInf t (fun i => f i - g i) := rfl
  rw [this]
  constructor
  · intro h i hi
    have := c29_norm_inf_bounds t (fun i => f i - g i) hi
    rw [h] at this
    have := abs_nonpos_iff.1 this
    linarith
  · intro h
    apply le_antisymm _ (c29_norm_inf_nonneg _ _)
    rw [c29_norm_inf_le_iff _ _ le_rfl]
    intro i hi
    rw [h i hi]; simp

theorem vec_foldl (v : List ℝ) (s : ℝ) : ∀ {B : ℝ},
    v.foldl (fun result c => max result |c|) s ≤ B ↔ s ≤ B ∧ ∀ c ∈ v, |c| ≤ B := by
  induction v generalizing s with
  | nil => intro B; simp
  | cons a v ih =>
      intro B
      rw [List.foldl_cons, ih, max_le_iff]
      simp only [List.mem_cons, forall_eq_or_imp]
      tauto

/-- **C29** For vector-valued fields the norm is the largest absolute value of a component over the whole range. -/
theorem c29_norm_inf_vector (t : Tree ι) (f : ι → List ℝ) {B : ℝ} (hB : 0 ≤ B) :
    normInfField t f ≤ B ↔ ∀ i ∈ t.indices, ∀ c ∈ f i, |c| ≤ B := by
  unfold normInfField
  rw [max_le_iff, reduce_max_le t _ hB]
  constructor
  · intro h i hi; exact ((vec_foldl _ _).1 (h.2 i hi)).2
  · intro h; exact ⟨hB, fun i hi => (vec_foldl _ _).2 ⟨hB, h i hi⟩⟩

/-- **C29** `norm_L1` is the weighted sum of absolute values over the index range, whatever the reduction order. -/
theorem c29_norm_L1 (t : Tree ι) {L : List ι} (hL : L.Perm t.indices) (q f : ι → ℝ) :
    normL1 t q f = (L.map fun i => q i * |f i|).sum := by
  unfold normL1
  rw [zero_add, reduce_sum, (hL.map _).sum_eq]

/-- **C29** `norm_L1` with non-negative coefficients is a semi-norm. -/
theorem c29_norm_L1_seminorm (t : Tree ι) (q f g : ι → ℝ) (hq : ∀ i ∈ t.indices, 0 ≤ q i) (c : ℝ) :
    0 ≤ normL1 t q f ∧ normL1 t q (fun i => c * f i) = |c| * normL1 t q f ∧
      normL1 t q (fun i => f i + g i) ≤ normL1 t q f + normL1 t q g := by
  rw [c29_norm_L1 t (List.Perm.refl _), c29_norm_L1 t (List.Perm.refl _), c29_norm_L1 t (List.Perm.refl _),
    c29_norm_L1 t (List.Perm.refl _)]
  generalize t.indices = L at hq
  induction L with
  | nil => simp
  | cons a L ih =>
      obtain ⟨h1, h2, h3⟩ := ih (fun i hi => hq i (List.mem_cons_of_mem _ hi))
      have ha := hq a List.mem_cons_self
      simp only [List.map_cons, List.sum_cons]
      refine ⟨add_nonneg (mul_nonneg ha (abs_nonneg _)) h1, ?_, ?_⟩
      · rw [h2, abs_mul]; ring
      · have := mul_le_mul_of_nonneg_left (abs_add_le (f a) (g a)) ha
        linarith [mul_add (q a) |f a| |g a|]

/-- With positive coefficients `norm_L1` vanishes only for the zero field. -/
theorem c29_norm_L1_definite (t : Tree ι) (q f : ι → ℝ) (hq : ∀ i ∈ t.indices, 0 < q i)
    (h : normL1 t q f = 0) : ∀ i ∈ t.indices, f i = 0 := by
  rw [c29_norm_L1 t (List.Perm.refl _)] at h
  generalize t.indices = L at hq h
  induction L with
  | nil => simp
  | cons a L ih =>
      simp only [List.map_cons, List.sum_cons] at h
      have ha := hq a List.mem_cons_self
      have h1 : 0 ≤ q a * |f a| := mul_nonneg ha.le (abs_nonneg _)
      have h2 : 0 ≤ (L.map fun i => q i * |f i|).sum := by
        apply List.sum_nonneg
        intro x hx
        obtain ⟨i, hi, rfl⟩ := List.mem_map.1 hx
        exact mul_nonneg (hq i (List.mem_cons_of_mem _ hi)).le (abs_nonneg _)
      intro i hi
      rcases List.mem_cons.1 hi with rfl | hi
      · have : q i * |f i| = 0 := by linarith
        rcases mul_eq_zero.1 this with h | h
        · linarith
        · exact abs_eq_zero.1 h
      · exact ih (fun i hi => hq i (List.mem_cons_of_mem _ hi)) (by linarith) i hi

/-- **C29** `norm_L2` is the square root of the weighted sum of squares, whatever the reduction order. -/
theorem c29_norm_L2 (t : Tree ι) {L : List ι} (hL : L.Perm t.indices) (q f : ι → ℝ) :
    normL2 t q f = Real.sqrt (L.map fun i => q i * f i ^ 2).sum := by
  unfold normL2
  rw [zero_add, reduce_sum, ← (hL.map _).sum_eq]
  simp only [pow_two]

theorem cauchy_schwarz (L : List ι) (q f g : ι → ℝ) (hq : ∀ i ∈ L, 0 ≤ q i) :
    (L.map fun i => q i * (f i * g i)).sum ^ 2
      ≤ (L.map fun i => q i * f i ^ 2).sum * (L.map fun i => q i * g i ^ 2).sum := by
  have conv : ∀ u : ι → ℝ, (L.map u).sum = ∑ k : Fin L.length, u (L[k]) := by
    intro u
    rw [← List.sum_ofFn]
    congr 1
    apply List.ext_getElem <;> simp
  rw [conv, conv, conv]
  have := Finset.sum_mul_sq_le_sq_mul_sq (Finset.univ : Finset (Fin L.length))
    (fun k => Real.sqrt (q L[k]) * f L[k]) (fun k => Real.sqrt (q L[k]) * g L[k])
  have e : ∀ k : Fin L.length, Real.sqrt (q L[k]) * Real.sqrt (q L[k]) = q L[k] := fun k =>
    Real.mul_self_sqrt (hq _ (List.getElem_mem _))
  have e1 : ∀ k : Fin L.length, Real.sqrt (q L[k]) * f L[k] * (Real.sqrt (q L[k]) * g L[k])
      = q L[k] * (f L[k] * g L[k]) := fun k => by
    linear_combination (f L[k] * g L[k]) * e k
  have e2 : ∀ (h : ι → ℝ) (k : Fin L.length), (Real.sqrt (q L[k]) * h L[k]) ^ 2 = q L[k] * h L[k] ^ 2 := fun h k => by
    linear_combination (h L[k] ^ 2) * e k
  simp only [e1, e2 f, e2 g] at this
  exact this

/-- **C29** `norm_L2` with non-negative coefficients is a semi-norm. -/
theorem c29_norm_L2_seminorm (t : Tree ι) (q f g : ι → ℝ) (hq : ∀ i ∈ t.indices, 0 ≤ q i) (c : ℝ) :
    0 ≤ normL2 t q f ∧ normL2 t q (fun i => c * f i) = |c| * normL2 t q f ∧
      normL2 t q (fun i => f i + g i) ≤ normL2 t q f + normL2 t q g := by
  rw [c29_norm_L2 t (List.Perm.refl _), c29_norm_L2 t (List.Perm.refl _), c29_norm_L2 t (List.Perm.refl _),
    c29_norm_L2 t (List.Perm.refl _)]
  generalize t.indices = L at hq
  have nn : ∀ u : ι → ℝ, 0 ≤ (L.map fun i => q i * u i ^ 2).sum := by
    intro u
    apply List.sum_nonneg
    intro x hx
    obtain ⟨i, hi, rfl⟩ := List.mem_map.1 hx
    exact mul_nonneg (hq i hi) (sq_nonneg _)
  refine ⟨Real.sqrt_nonneg _, ?_, ?_⟩
  · have : (L.map fun i => q i * (c * f i) ^ 2).sum = c ^ 2 * (L.map fun i => q i * f i ^ 2).sum := by
      rw [← List.sum_map_mul_left]
      congr 1
      refine List.map_congr_left fun i _ => by ring
    rw [this, Real.sqrt_mul (sq_nonneg c), Real.sqrt_sq_eq_abs]
  · rw [Real.sqrt_le_left (add_nonneg (Real.sqrt_nonneg _) (Real.sqrt_nonneg _)), add_sq, Real.sq_sqrt (nn f),
      Real.sq_sqrt (nn g)]
    have ex : (L.map fun i => q i * (f i + g i) ^ 2).sum
        = (L.map fun i => q i * f i ^ 2).sum + 2 * (L.map fun i => q i * (f i * g i)).sum
          + (L.map fun i => q i * g i ^ 2).sum := by
      clear nn hq
      induction L with
      | nil => simp
      | cons a L ih => simp only [List.map_cons, List.sum_cons, ih]; ring
    rw [ex]
    have cs := cauchy_schwarz L q f g hq
    have : (L.map fun i => q i * (f i * g i)).sum
        ≤ Real.sqrt (L.map fun i => q i * f i ^ 2).sum * Real.sqrt (L.map fun i => q i * g i ^ 2).sum := by
      rw [← Real.sqrt_mul (nn f)]
      exact Real.le_sqrt_of_sq_le cs
    linarith

/-- `error_norm_L1` and `error_norm_L2` are the norms of the difference. -/
theorem c29_error_norms (t : Tree ι) (q f g : ι → ℝ) :
    errorNormL1 t q f g = normL1 t q (fun i => f i - g i) ∧
    errorNormL2 t q f g = normL2 t q (fun i => f i - g i) := ⟨rfl, rfl⟩

/-- Non-vacuity: two different reduction trees over the range `{0, 1, 2}`. -/
example : normInf (.node (.leaf 0) (.node (.leaf 1) (.leaf 2))) (fun i : ℕ => (i : ℝ) - 2) = 2 ∧
    ∀ i, i ∈ (Tree.node (.leaf 0) (.node (.leaf 1) (.leaf 2))).indices ↔
      i ∈ (Tree.node (.node (.leaf 2) .idle) (.node (.leaf 1) (.leaf 0))).indices := by
  refine ⟨by norm_num [normInf, Tree.reduce], fun i => by simp [Tree.indices]; tauto⟩

end Verif.Norms
