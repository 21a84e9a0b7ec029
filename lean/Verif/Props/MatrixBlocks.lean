import Verif.Props.MatrixCorner
import Verif.Props.MatrixStorage
import Mathlib.Tactic.Push

/-!
# C21, C22: periodic banded and centre block matrices
-/

namespace Verif.MatrixTools

open Verif.LinearSystem Finset

variable {α : Type*} [CommRing α]

/-! ### Corner: set law -/

/-- The shape invariant of a corner block matrix. -/
structure Corner.Shape (c : Corner α) (n k : ℕ) : Prop where
  n_eq : c.n = n
  k_eq : c.k = k
  k_le : k ≤ n
  q_size : c.q.size = n - k
  d_size : c.delta.n = k

theorem Corner.Shape.nb_eq {c : Corner α} {n k : ℕ} (h : c.Shape n k) : c.nb = n - k := by
  unfold Corner.nb; rw [h.n_eq, h.k_eq]

theorem corner_set_shape {c : Corner α} {n k : ℕ} (h : c.Shape n k) (i j : ℕ) (v : α) :
    (c.set i j v).Shape n k := by
  unfold Corner.set
  split_ifs
  · exact ⟨h.n_eq, h.k_eq, h.k_le, by rw [leaf_set_size]; exact h.q_size, h.d_size⟩
  · exact ⟨h.n_eq, h.k_eq, h.k_le, h.q_size, h.d_size⟩
  · exact ⟨h.n_eq, h.k_eq, h.k_le, h.q_size, h.d_size⟩
  · exact ⟨h.n_eq, h.k_eq, h.k_le, h.q_size, h.d_size⟩

theorem corner_set_fits (c : Corner α) (i j : ℕ) (v : α) (A : ℕ → ℕ → α) :
    (c.set i j v).q.Fits A ↔ c.q.Fits A := by
  unfold Corner.set
  split_ifs
  · exact leaf_set_fits _ _ _ _ _
  all_goals exact Iff.rfl

theorem corner_set_law {c : Corner α} {n k : ℕ} (h : c.Shape n k) (A : ℕ → ℕ → α) (hA : c.q.Fits A)
    {i j : ℕ} (hi : i < n) (hj : j < n) :
    (c.set i j (A i j)).get i j = A i j ∧
      ∀ i' < n, ∀ j' < n, (c.set i j (A i j)).get i' j' = c.get i' j' ∨
        (c.set i j (A i j)).get i' j' = A i' j' := by
  have hnb := h.nb_eq
  have hnb' : (c.set i j (A i j)).nb = n - k := (corner_set_shape h i j _).nb_eq
  have hk := h.k_le
  have hqs := h.q_size
  by_cases c1 : i < c.nb ∧ j < c.nb
  · have hset : c.set i j (A i j) = { c with q := c.q.set i j (A i j) } := if_pos c1
    have hlaw := leaf_set_law c.q A hA (i := i) (j := j) (by omega) (by omega)
    have hget : ∀ i' j', (c.set i j (A i j)).get i' j'
        = if i' < n - k ∧ j' < n - k then (c.q.set i j (A i j)).get i' j' else c.get i' j' := by
      intro i' j'
      unfold Corner.get
      rw [hnb', hnb, hset]
      split_ifs <;> rfl
    refine ⟨?_, fun i' hi' j' hj' => ?_⟩
    · rw [hget, if_pos (by omega)]; exact hlaw.1
    · rw [hget]
      split_ifs with hc
      · have hg : c.get i' j' = c.q.get i' j' := by
          unfold Corner.get; rw [if_pos (by omega)]
        rw [hg]; exact hlaw.2 i' (by omega) j' (by omega)
      · left; rfl
  · by_cases c2 : i ≥ c.nb ∧ j ≥ c.nb
    · have hset : c.set i j (A i j)
          = { c with delta := c.delta.set (i - c.nb) (j - c.nb) (A i j) } := by
        unfold Corner.set; rw [if_neg c1, if_pos c2]
      have hd := h.d_size
      have hget : ∀ i' < n, ∀ j', (c.set i j (A i j)).get i' j'
          = if i' = i ∧ j' = j then A i j else c.get i' j' := by
        intro i' hi' j'
        unfold Corner.get
        rw [hnb', hnb, hset]
        by_cases hc : i' < n - k ∧ j' < n - k
        · rw [if_pos hc, if_pos hc, if_neg (by omega)]
        · rw [if_neg hc, if_neg hc]
          by_cases hc2 : i' ≥ n - k ∧ j' ≥ n - k
          · rw [if_pos hc2, if_pos hc2]
            change (c.delta.set (i - c.nb) (j - c.nb) (A i j)).get _ _ = _
            rw [c24_dense_get_set c.delta (by omega) (by omega)]
            have : (i' - (n - k) = i - c.nb ∧ j' - (n - k) = j - c.nb) ↔ (i' = i ∧ j' = j) := by
              omega
            simp only [this]
          · rw [if_neg hc2, if_neg hc2, if_neg (by omega : ¬ (i' = i ∧ j' = j))]
      refine ⟨by rw [hget i hi, if_pos ⟨rfl, rfl⟩], fun i' hi' j' hj' => ?_⟩
      rw [hget i' hi']
      split_ifs with hc
      · right; rw [hc.1, hc.2]
      · left; rfl
    · by_cases c3 : j ≥ c.nb
      · have hset : c.set i j (A i j)
            = { c with gamma := update2 c.gamma (j - c.nb) i (A i j) } := by
          unfold Corner.set; rw [if_neg c1, if_neg c2, if_pos c3]
        have hget : ∀ i' j', (c.set i j (A i j)).get i' j'
            = if i' = i ∧ j' = j then A i j else c.get i' j' := by
          intro i' j'
          unfold Corner.get
          rw [hnb', hnb, hset]
          by_cases hc : i' < n - k ∧ j' < n - k
          · rw [if_pos hc, if_pos hc, if_neg (by omega)]
          · rw [if_neg hc, if_neg hc]
            by_cases hc2 : i' ≥ n - k ∧ j' ≥ n - k
            · rw [if_pos hc2, if_pos hc2, if_neg (by omega : ¬ (i' = i ∧ j' = j))]
            · rw [if_neg hc2, if_neg hc2]
              by_cases hc3 : j' ≥ n - k
              · rw [if_pos hc3, if_pos hc3]
                change update2 c.gamma (j - c.nb) i (A i j) _ _ = _
                unfold update2
                have : (j' - (n - k) = j - c.nb ∧ i' = i) ↔ (i' = i ∧ j' = j) := by omega
                simp only [this]
              · rw [if_neg hc3, if_neg hc3, if_neg (by omega : ¬ (i' = i ∧ j' = j))]
        refine ⟨by rw [hget, if_pos ⟨rfl, rfl⟩], fun i' hi' j' hj' => ?_⟩
        rw [hget]
        split_ifs with hc
        · right; rw [hc.1, hc.2]
        · left; rfl
      · have hset : c.set i j (A i j)
            = { c with lam := update2 c.lam j (i - c.nb) (A i j) } := by
          unfold Corner.set; rw [if_neg c1, if_neg c2, if_neg c3]
        have hget : ∀ i' j', (c.set i j (A i j)).get i' j'
            = if i' = i ∧ j' = j then A i j else c.get i' j' := by
          intro i' j'
          unfold Corner.get
          rw [hnb', hnb, hset]
          by_cases hc : i' < n - k ∧ j' < n - k
          · rw [if_pos hc, if_pos hc, if_neg (by omega)]
          · rw [if_neg hc, if_neg hc]
            by_cases hc2 : i' ≥ n - k ∧ j' ≥ n - k
            · rw [if_pos hc2, if_pos hc2, if_neg (by omega : ¬ (i' = i ∧ j' = j))]
            · rw [if_neg hc2, if_neg hc2]
              by_cases hc3 : j' ≥ n - k
              · rw [if_pos hc3, if_pos hc3, if_neg (by omega : ¬ (i' = i ∧ j' = j))]
              · rw [if_neg hc3, if_neg hc3]
                change update2 c.lam j (i - c.nb) (A i j) _ _ = _
                unfold update2
                have : (j' = j ∧ i' - (n - k) = i - c.nb) ↔ (i' = i ∧ j' = j) := by omega
                simp only [this]
        refine ⟨by rw [hget, if_pos ⟨rfl, rfl⟩], fun i' hi' j' hj' => ?_⟩
        rw [hget]
        split_ifs with hc
        · right; rw [hc.1, hc.2]
        · left; rfl

theorem corner_new_get (n k : ℕ) (q : Leaf α) (hq : ∀ i j, q.get i j = 0) (i j : ℕ) :
    (Corner.new n k q).get i j = 0 := by
  unfold Corner.get Corner.new
  simp [hq, Dense.new, Dense.get]

/-! ### Periodic -/

/-- The sizes for which the class is usable: `n ≥ 2 max(kl, ku) + 1`, or the boundary case
`n = 2 kl = 2 ku`. -/
def PeriodicSizes (n kl ku : ℕ) : Prop := 2 * max kl ku + 1 ≤ n ∨ (kl = ku ∧ n = 2 * kl)

/-- Specification of the periodic band: the column is at a cyclic distance at most `ku` to the right or `kl` to
the left of the diagonal. -/
def InPeriodicBand (n kl ku i j : ℕ) : Prop :=
  (j ≤ i + ku ∧ i ≤ j + kl) ∨ j + n ≤ i + ku ∨ i + n ≤ j + kl

/-- What `periodicSlot` computes for row `nb + i` and column `j < nb`. -/
theorem periodicSlot_eq {n kl ku i j : ℕ} (hs : PeriodicSizes n kl ku) (hi : i < max kl ku)
    (hj : j < n - max kl ku) :
    periodicSlot n (n - max kl ku) (max kl ku) kl ku (n - max kl ku + i) j =
      if n - max kl ku + i ≤ j + kl then some (j + max kl ku + 1 - (n - max kl ku))
      else if j + max kl ku ≤ i + ku then some j else none := by
  have hn : 2 * max kl ku ≤ n := by rcases hs with h | h <;> omega
  have hdiv : 2 * (n / 2) ≤ n ∧ n < 2 * (n / 2) + 2 := by omega
  unfold periodicSlot
  generalize hD : ((n / 2 : ℕ) : ℤ) = D
  have hD1 : 2 * D ≤ n := by omega
  have hD2 : (n : ℤ) < 2 * D + 2 := by omega
  have hcast : ((n - max kl ku + i : ℕ) : ℤ) = n - (max kl ku : ℕ) + i := by omega
  simp only [hcast]
  have h0 : ¬ ((j : ℤ) - (n - (max kl ku : ℕ) + i) > D) := by omega
  rw [if_neg h0]
  unfold PeriodicSizes at hs
  by_cases h1 : (j : ℤ) - (n - (max kl ku : ℕ) + i) < -D
  · rw [if_pos h1]
    have e1 : ¬ (n - max kl ku + i ≤ j + kl) := by omega
    rw [if_neg e1]
    by_cases h2 : j + max kl ku ≤ i + ku
    · rw [if_neg (by omega), if_pos (by omega), if_pos h2]
    · rw [if_pos (by omega), if_neg h2]
  · rw [if_neg h1]
    by_cases h2 : n - max kl ku + i ≤ j + kl
    · rw [if_pos h2, if_neg (by omega), if_neg (by omega)]
    · rw [if_neg h2, if_pos (by omega), if_neg (by omega)]

/-- A slot of the compressed `lambda` that no matrix entry is mapped to. -/
def UnusedSlot (n kl ku l i : ℕ) : Prop :=
  ∀ j < n - max kl ku,
    periodicSlot n (n - max kl ku) (max kl ku) kl ku (n - max kl ku + i) j ≠ some l

/-- Invariant: unused slots are zero (they are zero-filled by the constructor and never written). -/
def Clean (n kl ku : ℕ) (lam : ℕ → ℕ → α) : Prop :=
  ∀ i < max kl ku, ∀ l, UnusedSlot n kl ku l i → lam l i = 0

/-- The lower-left block as seen through `get_element`. -/
def periodicLam (n kl ku : ℕ) (lam : ℕ → ℕ → α) : ℕ → ℕ → α := fun i j =>
  match periodicSlot n (n - max kl ku) (max kl ku) kl ku (n - max kl ku + i) j with
  | none => 0
  | some s => lam s i

/-- The block seen through `get_element` is the sum of the two triangles stored in `lambda`. -/
theorem periodicLam_eq {n kl ku : ℕ} (hs : PeriodicSizes n kl ku) {lam : ℕ → ℕ → α}
    (hc : Clean n kl ku lam) {i j : ℕ} (hi : i < max kl ku) (hj : j < n - max kl ku) :
    periodicLam n kl ku lam i j = (if j ≤ i then lam j i else 0) +
      (if n - max kl ku + i ≤ j + max kl ku then lam (j + max kl ku + 1 - (n - max kl ku)) i else 0) := by
  have hn : 2 * max kl ku ≤ n := by rcases hs with h | h <;> omega
  have hunused : ∀ l, (∀ j < n - max kl ku,
      (if n - max kl ku + i ≤ j + kl then some (j + max kl ku + 1 - (n - max kl ku))
      else if j + max kl ku ≤ i + ku then some j else none) ≠ some l) → lam l i = 0 := by
    intro l hl
    refine hc i hi l fun j' hj' => ?_
    rw [periodicSlot_eq hs hi hj']
    exact hl j' hj'
  unfold periodicLam
  rw [periodicSlot_eq hs hi hj]
  have hs' := hs
  unfold PeriodicSizes at hs'
  by_cases h1 : n - max kl ku + i ≤ j + kl
  · rw [if_pos h1, if_pos (by omega : n - max kl ku + i ≤ j + max kl ku)]
    have hz : (if j ≤ i then lam j i else 0) = 0 := by
      split_ifs with h2
      · refine hunused j fun j' hj' => ?_
        split_ifs with h3 h4
        · intro h; injection h with h; omega
        · intro h; injection h with h; omega
        · intro h; cases h
      · rfl
    rw [hz, zero_add]
  · rw [if_neg h1]
    by_cases h2 : j + max kl ku ≤ i + ku
    · rw [if_pos h2, if_pos (by omega)]
      have hz : (if n - max kl ku + i ≤ j + max kl ku
          then lam (j + max kl ku + 1 - (n - max kl ku)) i else 0) = 0 := by
        rw [if_neg]; omega
      rw [hz, add_zero]
    · rw [if_neg h2]
      have hz1 : (if j ≤ i then lam j i else 0) = 0 := by
        split_ifs with h4
        · refine hunused j fun j' hj' => ?_
          split_ifs with h3 h5
          · intro h; injection h with h; omega
          · intro h; injection h with h; omega
          · intro h; cases h
        · rfl
      have hz2 : (if n - max kl ku + i ≤ j + max kl ku
          then lam (j + max kl ku + 1 - (n - max kl ku)) i else 0) = 0 := by
        split_ifs with h4
        · refine hunused _ fun j' hj' => ?_
          split_ifs with h3 h5
          · intro h; injection h with h; omega
          · intro h; injection h with h; omega
          · intro h; cases h
        · rfl
      rw [hz1, hz2, add_zero]

/-- Both triangles summed against a vector: the loops of the class. -/
theorem periodicLam_sum {n kl ku : ℕ} (hs : PeriodicSizes n kl ku) {lam : ℕ → ℕ → α}
    (hc : Clean n kl ku lam) {i : ℕ} (hi : i < max kl ku) (u : ℕ → α) :
    ∑ j ∈ range (n - max kl ku), periodicLam n kl ku lam i j * u j =
      ∑ l ∈ range (i + 1), lam l i * u l +
        ∑ t ∈ range (max kl ku - i), lam (i + 1 + t) i *
          u (n - max kl ku + (i + 1 + t) - 1 - max kl ku) := by
  have hn : 2 * max kl ku ≤ n := by rcases hs with h | h <;> omega
  set k := max kl ku with hk
  have e : ∀ j ∈ range (n - k), periodicLam n kl ku lam i j * u j
      = (if j ≤ i then lam j i * u j else 0) +
        (if n - k + i ≤ j + k then lam (j + k + 1 - (n - k)) i * u j else 0) := by
    intro j hj
    rw [periodicLam_eq hs hc hi (mem_range.1 hj), add_mul, ite_mul, ite_mul, zero_mul]
  rw [sum_congr rfl e, sum_add_distrib]
  congr 1
  · obtain ⟨r, hr⟩ : ∃ r, n - k = (i + 1) + r := ⟨n - k - (i + 1), by omega⟩
    rw [hr, sum_range_add]
    rw [sum_congr rfl (fun j hj => if_pos (by have := mem_range.1 hj; omega)),
      sum_congr rfl (fun j _ => if_neg (by omega : ¬ i + 1 + j ≤ i))]
    simp
  · obtain ⟨r, hr⟩ : ∃ r, r + k = n - k + i := ⟨n - k + i - k, by omega⟩
    have hsplit : n - k = r + (k - i) := by omega
    rw [← hr]
    conv_lhs => rw [show range (n - k) = range (r + (k - i)) by rw [hsplit]]
    rw [sum_range_add]
    rw [sum_congr rfl (fun j hj => if_neg (by have := mem_range.1 hj; omega : ¬ r + k ≤ j + k)),
      sum_const_zero, zero_add]
    refine sum_congr rfl fun t ht => ?_
    rw [if_pos (by omega)]
    have h1 : r + t + k + 1 - (n - k) = i + 1 + t := by omega
    have h2 : n - k + (i + 1 + t) - 1 - k = r + t := by omega
    rw [h1, h2]

/-- A sequence of scattered subtractions. -/
theorem foldl_scatter (g : ℕ → ℕ) (w : ℕ → α) (L : List ℕ) (u : ℕ → α) (p : ℕ) :
    (L.foldl (fun u j => Function.update u (g j) (u (g j) - w j)) u) p
      = u p - (L.map (fun j => if g j = p then w j else 0)).sum := by
  induction L generalizing u with
  | nil => simp
  | cons a L ih =>
      rw [List.foldl_cons, ih]
      by_cases h : g a = p
      · subst h; simp; ring
      · rw [Function.update_of_ne (Ne.symm h)]; simp [h]

theorem list_range_map_sum (f : ℕ → α) (n : ℕ) : ((List.range n).map f).sum = ∑ j ∈ range n, f j := by
  induction n with
  | zero => simp
  | succ n ih => rw [List.range_succ, List.map_append, List.sum_append, ih, sum_range_succ]; simp

theorem list_range'_map_sum (f : ℕ → α) (s n : ℕ) :
    ((List.range' s n).map f).sum = ∑ j ∈ range n, f (s + j) := by
  rw [← list_range_map_sum, List.range'_eq_map_range, List.map_map]
  rfl

/-- The overridden operations of `Matrix_Periodic_Banded` are those of the block it stores. -/
theorem periodicOps_spec {n kl ku : ℕ} (hs : PeriodicSizes n kl ku) {lam : ℕ → ℕ → α}
    (hc : Clean n kl ku lam) :
    LamSpec periodicOps (n - max kl ku) (max kl ku) lam (periodicLam n kl ku lam) := by
  have hn : 2 * max kl ku ≤ n := by rcases hs with h | h <;> omega
  refine ⟨?_, ?_, ?_⟩
  · intro beta delta i hi j _
    rw [periodicLam_sum hs hc hi]
    simp only [periodicOps, periodicDelta, foldl_range'_add, foldl_range_add, zero_add]
  · intro v u i hi
    rw [periodicLam_sum hs hc hi]
    simp only [periodicOps, periodicSec, foldl_range'_sub, foldl_range_sub]
    ring
  · intro u v p hp
    set k := max kl ku with hk
    have key : ∀ m ≤ k, ((List.range m).foldl (fun u i =>
        let u := (List.range (i + 1)).foldl
          (fun u j => Function.update u j (u j - lam j i * v i)) u
        (List.range' (i + 1) (k - i)).foldl
          (fun u j => Function.update u (n - k + j - 1 - k) (u (n - k + j - 1 - k) - lam j i * v i)) u) u) p
        = u p - ∑ j ∈ range m, periodicLam n kl ku lam j p * v j := by
      intro m
      induction m with
      | zero => intro _; simp
      | succ m ih =>
          intro hm
          rw [List.range_succ, List.foldl_append, sum_range_succ]
          simp only [List.foldl_cons, List.foldl_nil]
          rw [foldl_scatter (fun j => n - k + j - 1 - k) (fun j => lam j m * v m),
            foldl_scatter (fun j => j) (fun j => lam j m * v m), ih (by omega),
            list_range_map_sum, list_range'_map_sum]
          rw [periodicLam_eq hs hc (by omega) hp, add_mul, ite_mul, ite_mul, zero_mul]
          have e1 : ∑ j ∈ range (m + 1), (if j = p then lam j m * v m else 0)
              = if p ≤ m then lam p m * v m else 0 := by
            rw [Finset.sum_ite_eq' (range (m + 1)) p (fun j => lam j m * v m)]
            simp [Nat.lt_succ_iff]
          have e2 : ∑ t ∈ range (k - m), (if n - k + (m + 1 + t) - 1 - k = p
                then lam (m + 1 + t) m * v m else 0)
              = if n - k + m ≤ p + k then lam (p + k + 1 - (n - k)) m * v m else 0 := by
            split_ifs with h
            · rw [Finset.sum_eq_single (p + k - (n - k + m))]
              · rw [if_pos (by omega)]
                congr 2; omega
              · intro t _ ht
                rw [if_neg]; omega
              · intro ht
                exfalso; apply ht; rw [mem_range]; omega
            · refine Finset.sum_eq_zero fun t _ => ?_
              rw [if_neg]; omega
          rw [e1, e2]; ring
    exact key k le_rfl

/-- The shape invariant of a periodic banded matrix. -/
structure Periodic.Shape (m : Periodic α) (n kl ku : ℕ) : Prop where
  kl_eq : m.kl = kl
  ku_eq : m.ku = ku
  base : m.base.Shape n (max kl ku)
  clean : Clean n kl ku m.base.lam

theorem periodic_get_eq {m : Periodic α} {n kl ku : ℕ} (h : m.Shape n kl ku) {i j : ℕ} :
    m.get i j = blocks (n - max kl ku) m.base.q.get (fun i j => m.base.gamma j i)
      (periodicLam n kl ku m.base.lam) m.base.delta.get i j := by
  have hnb := h.base.nb_eq
  unfold Periodic.get
  rw [corner_get_eq, hnb, h.base.n_eq, h.base.k_eq, h.kl_eq, h.ku_eq]
  unfold blocks
  by_cases h1 : i < n - max kl ku
  · rw [if_neg (by omega), if_pos h1, if_pos h1]
  · rw [if_neg h1, if_neg h1]
    by_cases h2 : j < n - max kl ku
    · rw [if_pos ⟨by omega, h2⟩, if_pos h2]
      unfold periodicLam
      rw [Nat.add_sub_cancel' (by omega)]
      rcases periodicSlot n (n - max kl ku) (max kl ku) kl ku i j with _ | s <;> rfl
    · rw [if_neg (by omega), if_neg h2, if_neg h2]

/-- `A` has the sparsity a periodic banded matrix can hold. -/
def PeriodicFits (n kl ku : ℕ) (A : ℕ → ℕ → α) : Prop :=
  ∀ i < n, ∀ j < n, ¬ InPeriodicBand n kl ku i j → A i j = 0

theorem periodic_set_law {m : Periodic α} {n kl ku : ℕ} (hs : PeriodicSizes n kl ku)
    (h : m.Shape n kl ku) (A : ℕ → ℕ → α) (hq : m.base.q.Fits A)
    (hA : PeriodicFits n kl ku A) {i j : ℕ} (hi : i < n) (hj : j < n) :
    (m.set i j (A i j)).Shape n kl ku ∧ (m.set i j (A i j)).base.q.Fits A ∧
    (m.set i j (A i j)).get i j = A i j ∧
      ∀ i' < n, ∀ j' < n, (m.set i j (A i j)).get i' j' = m.get i' j' ∨
        (m.set i j (A i j)).get i' j' = A i' j' := by
  have hnb := h.base.nb_eq
  have hn := h.base.n_eq
  have hk := h.base.k_eq
  have hkl := h.kl_eq
  have hku := h.ku_eq
  have hle := h.base.k_le
  by_cases c1 : i ≥ m.base.nb ∧ j < m.base.nb
  · -- lower-left block
    have hi2 : i - (n - max kl ku) < max kl ku := by omega
    have hrow : n - max kl ku + (i - (n - max kl ku)) = i := by omega
    have hslot := periodicSlot_eq hs hi2 (j := j) (by omega)
    rw [hrow] at hslot
    by_cases hb : n - max kl ku + (i - (n - max kl ku)) ≤ j + kl ∨ j + max kl ku ≤ (i - (n - max kl ku)) + ku
    · -- stored
      obtain ⟨s, hsl⟩ : ∃ s, periodicSlot n (n - max kl ku) (max kl ku) kl ku i j = some s := by
        rw [hslot]; split_ifs with a b
        · exact ⟨_, rfl⟩
        · exact ⟨_, rfl⟩
        · exfalso; omega
      have hset : m.set i j (A i j) = { m with base := { m.base with
          lam := update2 m.base.lam s (i - m.base.nb) (A i j) } } := by
        unfold Periodic.set
        rw [if_pos c1, hn, hnb, hk, hkl, hku, hsl]
      have hshape : (m.set i j (A i j)).Shape n kl ku := by
        rw [hset]
        refine ⟨hkl, hku, ⟨hn, hk, hle, h.base.q_size, h.base.d_size⟩, ?_⟩
        intro i' hi' l hl
        change update2 m.base.lam s (i - m.base.nb) (A i j) l i' = 0
        unfold update2
        rw [if_neg]
        · exact h.clean i' hi' l hl
        · rintro ⟨rfl, rfl⟩
          refine hl j (by omega) ?_
          rw [hnb, hrow]; exact hsl
      refine ⟨hshape, by rw [hset]; exact hq, ?_, fun i' hi' j' hj' => ?_⟩
      · unfold Periodic.get
        rw [hshape.base.nb_eq, hshape.base.n_eq, hshape.base.k_eq, hshape.kl_eq, hshape.ku_eq,
          if_pos (by omega), hsl, hset]
        simp [update2, hnb]
      · unfold Periodic.get
        rw [hshape.base.nb_eq, hshape.base.n_eq, hshape.base.k_eq, hshape.kl_eq, hshape.ku_eq,
          hnb, hn, hk, hkl, hku]
        by_cases c2 : i' ≥ n - max kl ku ∧ j' < n - max kl ku
        · rw [if_pos c2, if_pos c2]
          have hi2' : i' - (n - max kl ku) < max kl ku := by omega
          have hrow' : n - max kl ku + (i' - (n - max kl ku)) = i' := by omega
          have hslot' := periodicSlot_eq hs hi2' (j := j') (by omega)
          rw [hrow'] at hslot'
          rcases hsl' : periodicSlot n (n - max kl ku) (max kl ku) kl ku i' j' with _ | s'
          · left; rfl
          · rw [hset]
            simp only [update2]
            split_ifs with he
            · right
              have hii : i' = i := by omega
              subst hii
              have hjj : j' = j := by
                rw [hslot'] at hsl'; rw [hslot] at hsl
                have hss : s' = s := he.1
                subst hss
                unfold PeriodicSizes at hs
                split_ifs at hsl hsl' with a b c d e <;>
                  (injection hsl with x1; injection hsl' with x2; omega)
              rw [hjj]
            · left; rfl
        · rw [if_neg c2, if_neg c2]
          left
          rw [corner_get_eq, corner_get_eq, hshape.base.nb_eq, hnb, hset]
          unfold blocks
          by_cases c3 : i' < n - max kl ku
          · simp only [c3, if_true]
          · have c4 : ¬ j' < n - max kl ku := fun x => c2 ⟨by omega, x⟩
            simp only [c3, c4, if_false]
    · -- outside the band
      have hsl : periodicSlot n (n - max kl ku) (max kl ku) kl ku i j = none := by
        rw [hslot, if_neg (by omega), if_neg (by omega)]
      have hset : m.set i j (A i j) = m := by
        unfold Periodic.set
        rw [if_pos c1, hn, hnb, hk, hkl, hku, hsl]
      rw [hset]
      refine ⟨h, hq, ?_, fun _ _ _ _ => Or.inl rfl⟩
      unfold Periodic.get
      rw [if_pos c1, hn, hnb, hk, hkl, hku, hsl]
      refine (hA i hi j hj ?_).symm
      unfold InPeriodicBand
      unfold PeriodicSizes at hs
      omega
  · have hset : m.set i j (A i j) = { m with base := m.base.set i j (A i j) } := by
      unfold Periodic.set; rw [if_neg c1]
    have hlam : (m.base.set i j (A i j)).lam = m.base.lam := by
      unfold Corner.set
      split_ifs
      · rfl
      · rfl
      · rfl
      · exfalso; omega
    have hshape : (m.set i j (A i j)).Shape n kl ku := by
      rw [hset]
      exact ⟨hkl, hku, corner_set_shape h.base i j _, by rw [hlam]; exact h.clean⟩
    obtain ⟨l1, l2⟩ := corner_set_law h.base A hq hi hj
    refine ⟨hshape, by rw [hset]; exact (corner_set_fits _ _ _ _ _).2 hq, ?_, fun i' hi' j' hj' => ?_⟩
    · unfold Periodic.get
      rw [hshape.base.nb_eq, if_neg (by omega), hset]
      exact l1
    · unfold Periodic.get
      rw [hshape.base.nb_eq, hshape.base.n_eq, hshape.base.k_eq, hshape.kl_eq, hshape.ku_eq,
          hnb, hn, hk, hkl, hku]
      by_cases c2 : i' ≥ n - max kl ku ∧ j' < n - max kl ku
      · rw [if_pos c2, if_pos c2, hset]
        left
        simp only [hlam]
      · rw [if_neg c2, if_neg c2, hset]
        exact l2 i' hi' j' hj'

end Verif.MatrixTools
