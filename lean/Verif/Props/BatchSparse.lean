import Verif.Model.BatchSparse
import Mathlib.Algebra.Order.BigOperators.Group.Finset
import Mathlib.Tactic.Linarith
import Mathlib.Tactic.Ring
import Mathlib.Tactic.NormNum
import Mathlib.Tactic.FieldSimp

/-!
# C79: batched sparse matrices and convergence checks
-/

namespace Verif.BatchSparse
open Verif

/-! ## Specification -/

/-- The entry `(i, j)` of system `b` that an ELL structure of Ginkgo stands for: the values of the item start at `b n nnz`, the
`k`-th stored element of row `i` is at `i + k n`, and a negative column index is padding. -/
noncomputable def ellEntry (A : Ell) (b i j : ℕ) : ℝ :=
  ∑ k ∈ Finset.range A.nnz, if A.cols (i + k * A.n) = (j : ℤ) then A.vals (b * (A.n * A.nnz) + (i + k * A.n)) else 0

/-- The entry `(i, j)` of system `b` of a CSR structure. -/
noncomputable def csrEntry (A : Csr) (b i j : ℕ) : ℝ :=
  ∑ k ∈ Finset.Ico (A.ptr i) (A.ptr (i + 1)), if A.cols k = j then A.vals b k else 0

/-- `v` is the infinity norm of the `n × n` matrix `M`: the largest sum of absolute values of a row. -/
def IsInfNorm (n : ℕ) (M : ℕ → ℕ → ℝ) (v : ℝ) : Prop :=
  (∀ i < n, ∑ j ∈ Finset.range n, |M i j| ≤ v) ∧ ∃ i < n, ∑ j ∈ Finset.range n, |M i j| = v

/-- A schedule treats every index below `n`. -/
def Covers (t : Norms.Tree (List ℕ)) (n : ℕ) : Prop := ∀ i, (∃ L ∈ t.indices, i ∈ L) ↔ i < n

/-! ## Storage -/

theorem mixed {n m b i k b' i' k' : ℕ} (hi : i < n) (hi' : i' < n) (hk : k < m) (hk' : k' < m)
    (h : b * (n * m) + k * n + i = b' * (n * m) + k' * n + i') : b = b' ∧ i = i' ∧ k = k' := by
  have hn : 0 < n := by omega
  have hm : 0 < m := by omega
  have e1 : b * (n * m) + k * n + i = i + n * (k + m * b) := by ring
  have e2 : b' * (n * m) + k' * n + i' = i' + n * (k' + m * b') := by ring
  rw [e1, e2] at h
  have a1 := congrArg (· % n) h
  simp only [Nat.add_mul_mod_self_left, Nat.mod_eq_of_lt hi, Nat.mod_eq_of_lt hi'] at a1
  have a2 := congrArg (· / n) h
  simp only [Nat.add_mul_div_left _ _ hn, Nat.div_eq_of_lt hi, Nat.div_eq_of_lt hi', Nat.zero_add] at a2
  have a3 := congrArg (· % m) a2
  simp only [Nat.add_mul_mod_self_left, Nat.mod_eq_of_lt hk, Nat.mod_eq_of_lt hk'] at a3
  have a4 := congrArg (· / m) a2
  simp only [Nat.add_mul_div_left _ _ hm, Nat.div_eq_of_lt hk, Nat.div_eq_of_lt hk', Nat.zero_add] at a4
  exact ⟨a4, a1, a3⟩

theorem addr_eq (A : Ell) (b i k : ℕ) : A.addr b i k = b * (A.n * A.nnz) + k * A.n + i := by
  simp only [Ell.addr]; ring

theorem addr_lt (A : Ell) {b i k : ℕ} (hb : b < A.batch) (hi : i < A.n) (hk : k < A.nnz) : A.addr b i k < A.alloc := by
  rw [addr_eq]; simp only [Ell.alloc]
  have h1 : k * A.n + i < A.n * A.nnz := by
    have : (k + 1) * A.n ≤ A.nnz * A.n := Nat.mul_le_mul_right _ hk
    nlinarith
  have h2 : (b + 1) * (A.n * A.nnz) ≤ A.batch * (A.n * A.nnz) := Nat.mul_le_mul_right _ hb
  nlinarith

/-- **C79** For every element of every system: access by `get_ell_element`, by the view of `get_batch_ell` and by Ginkgo agree and are
inside the allocation; `set_ell_element` changes that element and no other one. -/
theorem c79_storage (A : Ell) {b i k : ℕ} (hb : b < A.batch) (hi : i < A.n) (hk : k < A.nnz) :
    A.get b i k = .ok (A.view b i k) ∧ A.view b i k = A.vals (b * (A.n * A.nnz) + (i + k * A.n)) ∧
    (∀ a : ℝ, ∃ A' : Ell, A.set b i k a = .ok A' ∧ A'.batch = A.batch ∧ A'.n = A.n ∧ A'.nnz = A.nnz ∧ A'.cols = A.cols ∧
      A'.view b i k = a ∧ ∀ b' i' k', i' < A.n → k' < A.nnz → (b', i', k') ≠ (b, i, k) → A'.view b' i' k' = A.view b' i' k') := by
  have hv : ∀ (B : Ell) (b i k : ℕ), B.view b i k = B.vals (b * (B.n * B.nnz) + k * B.n + i) := by
    intro B b i k; simp only [Ell.view]; congr 1; ring
  refine ⟨?_, ?_, ?_⟩
  · simp only [Ell.get, Int.toNat_natCast]
    rw [if_pos ⟨by omega, by omega⟩, if_pos (addr_lt A hb hi hk), hv, addr_eq]
  · rw [hv]; congr 1; ring
  · intro a
    refine ⟨{ A with vals := fun p => if p = A.addr b i k then a else A.vals p }, ?_, rfl, rfl, rfl, rfl, ?_, ?_⟩
    · simp only [Ell.set, Int.toNat_natCast]
      rw [if_pos ⟨by omega, by omega⟩, if_pos (addr_lt A hb hi hk)]
    · rw [hv]; simp only [addr_eq]; rw [if_pos trivial]
    · intro b' i' k' hi' hk' hne
      rw [hv, hv]; simp only [addr_eq]
      rw [if_neg]
      intro h
      obtain ⟨h1, h2, h3⟩ := mixed hi' hi hk' hk h
      exact hne (by rw [h1, h2, h3])

example : ∃ A : Ell, 1 < A.batch ∧ 2 < A.n ∧ 1 < A.nnz := ⟨⟨2, 3, 2, fun p => p, fun p => p⟩, by norm_num, by norm_num, by norm_num⟩

/-- **C79, finding** The assertion accepts the index `nnz` of an element that does not exist: the access is that of another system,
or out of range in the last one. -/
theorem c79_assert_off_by_one (A : Ell) {b i : ℕ} (hi : i < A.n) (hz : 0 < A.nnz) :
    (b + 1 < A.batch → A.get b i A.nnz = .ok (A.view (b + 1) i 0)) ∧ (b + 1 = A.batch → A.get b i A.nnz = .outOfRange) := by
  have e : A.addr b i A.nnz = A.addr (b + 1) i 0 := by simp only [Ell.addr]; ring
  constructor
  · intro h
    simp only [Ell.get, Int.toNat_natCast]
    rw [if_pos ⟨by omega, by omega⟩, e, if_pos (addr_lt A h hi hz), addr_eq]
    simp only [Ell.view]; congr 2; ring
  · intro h
    simp only [Ell.get, Int.toNat_natCast]
    rw [if_pos ⟨by omega, by omega⟩, if_neg]
    simp only [Ell.addr, Ell.alloc, ← h]
    have : (b + 1) * A.n * A.nnz = b * A.n * A.nnz + A.nnz * A.n := by ring
    omega

/-- **C79** With the strides of `get_batch_ell` the constructor gives the matrix of the view. -/
theorem c79_constructor (batch n nnz : ℕ) (data : ℕ → ℝ) (cols : ℕ → ℤ) (b i k : ℕ) :
    (Ell.ofViews batch n nnz data cols).view b i k = strided data (n * nnz) 1 n b i k := by
  simp only [Ell.ofViews, Ell.view, strided]; congr 1; ring

/-- **C79, finding** Other strides, e.g. those of layout right, are accepted by the constructor and give another matrix. -/
theorem c79_constructor_strides : ∃ (n nnz : ℕ) (data : ℕ → ℝ) (cols : ℕ → ℤ),
    (Ell.ofViews 1 n nnz data cols).view 0 0 1 ≠ strided data (n * nnz) nnz 1 0 0 1 :=
  ⟨2, 2, fun p => p, fun _ => 0, by norm_num [Ell.ofViews, Ell.view, strided]⟩

/-! ## Norms -/

theorem chunk_fold (r : ℕ → ℝ) (L : List ℕ) (e : ℝ) :
    L.foldl (fun res i => if r i > res then r i else res) e = L.foldl (fun res i => max res (r i)) e := by
  congr 1; funext res i
  split_ifs with h
  · exact (max_eq_right (le_of_lt h)).symm
  · exact (max_eq_left (not_lt.1 h)).symm

theorem foldl_max_le (r : ℕ → ℝ) (L : List ℕ) (e v : ℝ) :
    L.foldl (fun res i => max res (r i)) e ≤ v ↔ e ≤ v ∧ ∀ i ∈ L, r i ≤ v := by
  induction L generalizing e with
  | nil => simp
  | cons a L ih =>
    simp only [List.foldl_cons, ih, List.mem_cons, forall_eq_or_imp, max_le_iff]; tauto

theorem maxReduce_le (t : Norms.Tree (List ℕ)) (lo : ℝ) (r : ℕ → ℝ) (v : ℝ) (hv : lo ≤ v) :
    maxReduce t lo r ≤ v ↔ ∀ L ∈ t.indices, ∀ i ∈ L, r i ≤ v := by
  simp only [maxReduce]
  induction t with
  | idle => simp [Norms.Tree.reduce, Norms.Tree.indices, hv]
  | leaf L => simp only [Norms.Tree.reduce, Norms.Tree.indices, chunk_fold, foldl_max_le, List.mem_singleton, forall_eq]; tauto
  | node l r ihl ihr =>
    simp only [Norms.Tree.reduce, Norms.Tree.indices, max_le_iff, ihl, ihr, List.mem_append]
    constructor
    · rintro ⟨h1, h2⟩ L (h | h)
      · exact h1 L h
      · exact h2 L h
    · exact fun h => ⟨fun L hL => h L (.inl hL), fun L hL => h L (.inr hL)⟩

theorem maxReduce_spec (t : Norms.Tree (List ℕ)) (lo : ℝ) (r : ℕ → ℝ) {n : ℕ} (ht : Covers t n) (hn : 0 < n) (hlo : lo ≤ 0)
    (hr : ∀ i, 0 ≤ r i) : (∀ i < n, r i ≤ maxReduce t lo r) ∧ ∃ i < n, r i = maxReduce t lo r := by
  have hle : lo ≤ maxReduce t lo r := by
    by_contra h
    rw [not_le] at h
    have h2 : maxReduce t lo r ≤ lo := le_of_lt h
    rw [maxReduce_le t lo r lo le_rfl] at h2
    obtain ⟨L, hL, h0⟩ := (ht 0).2 hn
    have h3 : lo = 0 := le_antisymm hlo ((hr 0).trans (h2 L hL 0 h0))
    have key : ∀ s : Norms.Tree (List ℕ), lo ≤ maxReduce s lo r := by
      intro s
      simp only [maxReduce]
      induction s with
      | idle => exact le_rfl
      | leaf L => simp only [Norms.Tree.reduce, chunk_fold]; exact ((foldl_max_le r L lo _).1 le_rfl).1
      | node a b iha ihb => exact le_max_of_le_left iha
    exact absurd (key t) (not_le.2 h)
  have hup : ∀ i < n, r i ≤ maxReduce t lo r := by
    intro i hi
    obtain ⟨L, hL, h0⟩ := (ht i).2 hi
    exact (maxReduce_le t lo r _ hle).1 le_rfl L hL i h0
  refine ⟨hup, ?_⟩
  by_contra hno
  push Not at hno
  obtain ⟨m, hm, hmax⟩ := Finset.exists_max_image (Finset.range n) r ⟨0, Finset.mem_range.2 hn⟩
  have : maxReduce t lo r ≤ r m := by
    rw [maxReduce_le t lo r _ (hlo.trans (hr m))]
    intro L hL i hi
    exact hmax i (Finset.mem_range.2 ((ht i).1 ⟨L, hL, hi⟩))
  exact hno m (Finset.mem_range.1 hm) (le_antisymm (hup m (Finset.mem_range.1 hm)) this)

theorem foldl_add (L : List ℕ) (f : ℕ → ℝ) (s : ℝ) : L.foldl (fun s k => s + f k) s = s + (L.map f).sum := by
  induction L generalizing s with
  | nil => simp
  | cons a L ih => simp only [List.foldl_cons, ih, List.map_cons, List.sum_cons]; ring

theorem sum_range_list (n : ℕ) (f : ℕ → ℝ) : ((List.range n).map f).sum = ∑ k ∈ Finset.range n, f k := by
  induction n with
  | zero => simp
  | succ n ih => rw [List.range_succ, List.map_append, List.sum_append, ih, Finset.sum_range_succ]; simp

theorem ell_rowSum (A : Ell) (b i : ℕ) : A.rowSum b i = ∑ k ∈ Finset.range A.nnz, |A.vals (b * (A.n * A.nnz) + (i + k * A.n))| := by
  simp only [Ell.rowSum, foldl_add, zero_add, sum_range_list]
  refine Finset.sum_congr rfl fun k _ => ?_
  simp only [Ell.view]; congr 2; ring

theorem csr_rowSum (A : Csr) (b i : ℕ) : A.rowSum b i = ∑ k ∈ Finset.Ico (A.ptr i) (A.ptr (i + 1)), |A.vals b k| := by
  simp only [Csr.rowSum, foldl_add, zero_add, List.range'_eq_map_range, List.map_map, sum_range_list, Finset.sum_Ico_eq_sum_range,
    Function.comp]

theorem rows_le {κ : Type*} [DecidableEq κ] (S : Finset ℕ) (col : ℕ → κ) (v : ℕ → ℝ) (e : ℕ → κ) (he : Function.Injective e) (n : ℕ) :
    ∑ j ∈ Finset.range n, |∑ k ∈ S, if col k = e j then v k else 0| ≤ ∑ k ∈ S, |v k| := by
  calc ∑ j ∈ Finset.range n, |∑ k ∈ S, if col k = e j then v k else 0|
      ≤ ∑ j ∈ Finset.range n, ∑ k ∈ S, (if col k = e j then |v k| else 0) := by
        refine Finset.sum_le_sum fun j _ => (Finset.abs_sum_le_sum_abs _ _).trans (Finset.sum_le_sum fun k _ => ?_)
        split_ifs <;> simp
    _ = ∑ k ∈ S, ∑ j ∈ Finset.range n, (if col k = e j then |v k| else 0) := Finset.sum_comm
    _ ≤ ∑ k ∈ S, |v k| := by
        refine Finset.sum_le_sum fun k _ => ?_
        by_cases h : ∃ j, col k = e j
        · obtain ⟨j, hj⟩ := h
          simp only [hj, he.eq_iff]
          rw [Finset.sum_ite_eq]
          split_ifs
          · exact le_rfl
          · exact abs_nonneg _
        · push Not at h
          simp only [h, if_false, Finset.sum_const_zero]; exact abs_nonneg _

theorem rows_eq {κ : Type*} [DecidableEq κ] (S : Finset ℕ) (col : ℕ → κ) (v : ℕ → ℝ) (e : ℕ → κ) (he : Function.Injective e) (n : ℕ)
    (hin : ∀ k ∈ S, v k ≠ 0 → ∃ j < n, col k = e j) (hd : ∀ k ∈ S, ∀ k' ∈ S, v k ≠ 0 → v k' ≠ 0 → col k = col k' → k = k') :
    ∑ j ∈ Finset.range n, |∑ k ∈ S, if col k = e j then v k else 0| = ∑ k ∈ S, |v k| := by
  have h1 : ∀ j, |∑ k ∈ S, if col k = e j then v k else 0| = ∑ k ∈ S, (if col k = e j then |v k| else 0) := by
    intro j
    by_cases h : ∃ k ∈ S, v k ≠ 0 ∧ col k = e j
    · obtain ⟨k, hk, hv, hc⟩ := h
      rw [Finset.sum_eq_single_of_mem k hk, Finset.sum_eq_single_of_mem k hk]
      · simp [hc]
      · intro k' hk' hne
        by_cases hv' : v k' = 0
        · simp [hv']
        · rw [if_neg]; intro hc'; exact hne (hd k' hk' k hk hv' hv (hc'.trans hc.symm))
      · intro k' hk' hne
        by_cases hv' : v k' = 0
        · simp [hv']
        · rw [if_neg]; intro hc'; exact hne (hd k' hk' k hk hv' hv (hc'.trans hc.symm))
    · push Not at h
      rw [Finset.sum_eq_zero, Finset.sum_eq_zero, abs_zero]
      · intro k hk
        by_cases hv : v k = 0
        · simp [hv]
        · rw [if_neg (h k hk hv)]
      · intro k hk
        by_cases hv : v k = 0
        · simp [hv]
        · rw [if_neg (h k hk hv)]
  simp only [h1]
  rw [Finset.sum_comm]
  refine Finset.sum_congr rfl fun k hk => ?_
  by_cases hv : v k = 0
  · simp [hv]
  · obtain ⟨j, hj, hc⟩ := hin k hk hv
    simp only [hc, he.eq_iff]
    rw [Finset.sum_ite_eq, if_pos (Finset.mem_range.2 hj)]

/-- **C79** `MatrixBatchEll::norm` is the infinity norm of the matrix of the system, whatever the schedule of the reduction, if each
row has its non-zero values in distinct existing columns. -/
theorem c79_ell_norm (A : Ell) (b : ℕ) (t : Norms.Tree (List ℕ)) (ht : Covers t A.n) (hn : 0 < A.n) (lo : ℝ) (hlo : lo ≤ 0)
    (hin : ∀ i < A.n, ∀ k < A.nnz, A.view b i k ≠ 0 → ∃ j < A.n, A.viewCols i k = (j : ℤ))
    (hd : ∀ i < A.n, ∀ k < A.nnz, ∀ k' < A.nnz, A.view b i k ≠ 0 → A.view b i k' ≠ 0 → A.viewCols i k = A.viewCols i k' → k = k') :
    IsInfNorm A.n (ellEntry A b) (A.norm t lo b) := by
  have hv : ∀ i k, A.vals (b * (A.n * A.nnz) + (i + k * A.n)) = A.view b i k := by
    intro i k; simp only [Ell.view]; congr 1; ring
  have hr : ∀ i < A.n, ∑ j ∈ Finset.range A.n, |ellEntry A b i j| = A.rowSum b i := by
    intro i hi
    rw [ell_rowSum]
    refine rows_eq (Finset.range A.nnz) (fun k => A.cols (i + k * A.n)) _ (fun j => (j : ℤ)) (fun _ _ h => Int.ofNat_inj.1 h) A.n ?_ ?_
    · intro k hk h; exact hin i hi k (Finset.mem_range.1 hk) (by rwa [← hv])
    · intro k hk k' hk' h h'; exact hd i hi k (Finset.mem_range.1 hk) k' (Finset.mem_range.1 hk') (by rwa [← hv]) (by rwa [← hv])
  obtain ⟨h1, i, hi, h2⟩ := maxReduce_spec t lo (A.rowSum b) ht hn hlo (fun i => by rw [ell_rowSum]; exact Finset.sum_nonneg fun _ _ => abs_nonneg _)
  exact ⟨fun i hi => by rw [hr i hi]; exact h1 i hi, i, hi, by rw [hr i hi]; exact h2⟩

/-- **C79** `MatrixBatchCsr::norm` likewise. -/
theorem c79_csr_norm (A : Csr) (b : ℕ) (t : Norms.Tree (List ℕ)) (ht : Covers t A.n) (hn : 0 < A.n) (lo : ℝ) (hlo : lo ≤ 0)
    (hin : ∀ i < A.n, ∀ k, A.ptr i ≤ k → k < A.ptr (i + 1) → A.cols k < A.n)
    (hd : ∀ i < A.n, ∀ k k', A.ptr i ≤ k → k < k' → k' < A.ptr (i + 1) → A.cols k ≠ A.cols k') :
    IsInfNorm A.n (csrEntry A b) (A.norm t lo b) := by
  have hr : ∀ i < A.n, ∑ j ∈ Finset.range A.n, |csrEntry A b i j| = A.rowSum b i := by
    intro i hi
    rw [csr_rowSum]
    refine rows_eq (Finset.Ico (A.ptr i) (A.ptr (i + 1))) A.cols _ (fun j => j) (fun a b h => h) A.n ?_ ?_
    · intro k hk _
      rw [Finset.mem_Ico] at hk
      exact ⟨_, hin i hi k hk.1 hk.2, rfl⟩
    · intro k hk k' hk' _ _ hc
      rw [Finset.mem_Ico] at hk hk'
      rcases lt_trichotomy k k' with h | h | h
      · exact absurd hc (hd i hi k k' hk.1 h hk'.2)
      · exact h
      · exact absurd hc.symm (hd i hi k' k hk'.1 h hk.2)
  obtain ⟨h1, i, hi, h2⟩ := maxReduce_spec t lo (A.rowSum b) ht hn hlo (fun i => by rw [csr_rowSum]; exact Finset.sum_nonneg fun _ _ => abs_nonneg _)
  exact ⟨fun i hi => by rw [hr i hi]; exact h1 i hi, i, hi, by rw [hr i hi]; exact h2⟩

/-- **C79** With any column indices, both are upper bounds of the infinity norm. -/
theorem c79_norm_bound (t : Norms.Tree (List ℕ)) (lo : ℝ) (hlo : lo ≤ 0) (b i : ℕ) :
    (∀ A : Ell, Covers t A.n → i < A.n → ∑ j ∈ Finset.range A.n, |ellEntry A b i j| ≤ A.norm t lo b) ∧
    (∀ A : Csr, Covers t A.n → i < A.n → ∑ j ∈ Finset.range A.n, |csrEntry A b i j| ≤ A.norm t lo b) := by
  constructor
  · intro A ht hi
    refine le_trans ?_ ((maxReduce_spec t lo (A.rowSum b) ht (by omega) hlo (fun i => by rw [ell_rowSum]; exact Finset.sum_nonneg fun _ _ => abs_nonneg _)).1 i hi)
    rw [ell_rowSum]
    exact rows_le _ _ _ (fun j => (j : ℤ)) (fun _ _ h => Int.ofNat_inj.1 h) A.n
  · intro A ht hi
    refine le_trans ?_ ((maxReduce_spec t lo (A.rowSum b) ht (by omega) hlo (fun i => by rw [csr_rowSum]; exact Finset.sum_nonneg fun _ _ => abs_nonneg _)).1 i hi)
    rw [csr_rowSum]
    exact rows_le _ _ _ (fun j => j) (fun a b h => h) A.n

/-- The hypotheses of the norm theorems are met by a tridiagonal ELL matrix with padding, and a schedule with two threads. -/
example : ∃ (A : Ell) (t : Norms.Tree (List ℕ)), A.n = 2 ∧ Covers t A.n ∧ (∃ i k, A.viewCols i k = -1) ∧
    (∀ i < A.n, ∀ k < A.nnz, A.view 0 i k ≠ 0 → ∃ j < A.n, A.viewCols i k = (j : ℤ)) ∧
    (∀ i < A.n, ∀ k < A.nnz, ∀ k' < A.nnz, A.view 0 i k ≠ 0 → A.view 0 i k' ≠ 0 → A.viewCols i k = A.viewCols i k' → k = k') := by
  refine ⟨⟨1, 2, 2, fun p => if p = 3 then 0 else 1, fun p => if p = 3 then -1 else if p = 2 then 1 else 0⟩,
    .node (.leaf [0]) (.leaf [1]), rfl, ?_, ⟨1, 1, by simp [Ell.viewCols]⟩, ?_, ?_⟩
  · intro i; simp only [Norms.Tree.indices, List.mem_append, List.mem_singleton]
    constructor
    · rintro ⟨L, rfl | rfl, h⟩ <;> simp at h <;> omega
    · intro h
      have : i = 0 ∨ i = 1 := by simp at h; omega
      rcases this with rfl | rfl
      · exact ⟨[0], .inl rfl, by simp⟩
      · exact ⟨[1], .inr rfl, by simp⟩
  · intro i hi k hk
    simp only at hi hk
    have h1 : i = 0 ∨ i = 1 := by omega
    have h2 : k = 0 ∨ k = 1 := by omega
    rcases h1 with rfl | rfl <;> rcases h2 with rfl | rfl <;> simp [Ell.view, Ell.viewCols] <;>
      first | exact ⟨0, by norm_num, rfl⟩ | exact ⟨1, by norm_num, rfl⟩
  · intro i hi k hk k' hk'
    simp only at hi hk hk'
    have h1 : i = 0 ∨ i = 1 := by omega
    have h2 : k = 0 ∨ k = 1 := by omega
    have h3 : k' = 0 ∨ k' = 1 := by omega
    rcases h1 with rfl | rfl <;> rcases h2 with rfl | rfl <;> rcases h3 with rfl | rfl <;> simp [Ell.view, Ell.viewCols]

/-! ## Convergence checks -/

theorem checkConv_iff (t : Norms.Tree (List ℕ)) (tol : ℝ) (resid : ℕ → ℝ) :
    checkConv t tol resid = true ↔ ∀ L ∈ t.indices, ∀ i ∈ L, resid i ≤ tol := by
  have hf : ∀ (L : List ℕ) (c : Bool), L.foldl (fun check i => check && decide (resid i ≤ tol)) c = true ↔ c = true ∧ ∀ i ∈ L, resid i ≤ tol := by
    intro L
    induction L with
    | nil => intro c; simp
    | cons a L ih =>
      intro c
      simp only [List.foldl_cons, ih, List.mem_cons, forall_eq_or_imp, Bool.and_eq_true, decide_eq_true_eq]; tauto
  simp only [checkConv]
  induction t with
  | idle => simp [Norms.Tree.reduce, Norms.Tree.indices]
  | leaf L => simp only [Norms.Tree.reduce, Norms.Tree.indices, hf, List.mem_singleton, forall_eq]; tauto
  | node l r ihl ihr =>
    simp only [Norms.Tree.reduce, Norms.Tree.indices, Bool.and_eq_true, ihl, ihr, List.mem_append]
    constructor
    · rintro ⟨h1, h2⟩ L (h | h)
      · exact h1 L h
      · exact h2 L h
    · exact fun h => ⟨fun L hL => h L (.inl hL), fun L hL => h L (.inr hL)⟩

theorem checkConv_covers {t : Norms.Tree (List ℕ)} {m : ℕ} (ht : Covers t m) (tol : ℝ) (resid : ℕ → ℝ) :
    checkConv t tol resid = true ↔ ∀ i < m, resid i ≤ tol := by
  rw [checkConv_iff]
  exact ⟨fun h i hi => by obtain ⟨L, hL, hm⟩ := (ht i).2 hi; exact h L hL i hm, fun h L hL i hi => h i ((ht i).1 ⟨L, hL, hi⟩)⟩

/-- **C79** `MatrixBatchEll::solve` and `MatrixBatchCsr::solve` with a batched solver return exactly when the logged residual of every
system of the batch is at most the tolerance; the right-hand sides are then replaced by the solutions given by the solver, started from
the right-hand sides. Otherwise they throw and leave the right-hand sides as they were. -/
theorem c79_batched_solve (s : BatchSolver) {t : Norms.Tree (List ℕ)} {m : ℕ} (ht : Covers t m) (tol : ℝ) (b : Vecs) :
    ((∀ i < m, (s b b).2 i ≤ tol) → ellSolve s t tol b = (.returned, (s b b).1)) ∧
    ((¬ ∀ i < m, (s b b).2 i ≤ tol) → ellSolve s t tol b = (.threw, b)) ∧
    csrSolve (csrSolve2 s t tol) b = ellSolve s t tol b := by
  simp only [ellSolve, csrSolve, csrSolve2]
  refine ⟨fun h => ?_, fun h => ?_, ?_⟩
  · rw [if_pos ((checkConv_covers ht tol _).2 h)]
  · rw [if_neg (fun h' => h ((checkConv_covers ht tol _).1 h'))]
  · split_ifs <;> rfl

theorem csrLoop_spec (s : ℕ → Solver) (b : Vecs) (m i : ℕ) (x : Vecs) :
    ((∀ j, i ≤ j → j < i + m → (s j (b j) (x j)).2 = true) →
      csrLoop s b i m x = (.returned, fun j => if i ≤ j ∧ j < i + m then (s j (b j) (x j)).1 else x j)) ∧
    ((¬ ∀ j, i ≤ j → j < i + m → (s j (b j) (x j)).2 = true) → (csrLoop s b i m x).1 = .threw) := by
  induction m generalizing i x with
  | zero =>
    refine ⟨fun _ => ?_, fun h => absurd (fun j h1 h2 => by omega) h⟩
    simp only [csrLoop, Prod.mk.injEq, true_and]
    funext j; rw [if_neg (by omega)]
  | succ m ih =>
    simp only [csrLoop]
    obtain ⟨x', hx'⟩ : ∃ x' : Vecs, x' = fun j => if j = i then (s i (b i) (x i)).1 else x j := ⟨_, rfl⟩
    rw [← hx']
    have hne : ∀ j, j ≠ i → x' j = x j := fun j h => by rw [hx']; simp only [if_neg h]
    obtain ⟨ih1, ih2⟩ := ih (i + 1) x'
    constructor
    · intro h
      rw [if_pos (h i le_rfl (by omega)), ih1 (fun j h1 h2 => by rw [hne j (by omega)]; exact h j (by omega) (by omega))]
      simp only [Prod.mk.injEq, true_and]
      funext j
      by_cases hj : j = i
      · subst hj
        rw [if_neg (by omega), if_pos (by omega), hx']; simp only [if_true]
      · rw [hne j hj]
        by_cases h2 : i + 1 ≤ j ∧ j < i + 1 + m
        · rw [if_pos h2, if_pos (by omega)]
        · rw [if_neg h2, if_neg (by omega)]
    · intro h
      by_cases hi : (s i (b i) (x i)).2 = true
      · rw [if_pos hi]
        refine ih2 fun h' => h fun j h1 h2 => ?_
        by_cases hj : j = i
        · rw [hj]; exact hi
        · have := h' j (by omega) (by omega)
          rwa [hne j hj] at this
      · rw [if_neg hi]

/-- **C79** The same for the solvers which are not batched, with the convergence reported by Ginkgo for each system. -/
theorem c79_loop_solve (s : ℕ → Solver) (m : ℕ) (b : Vecs) :
    ((∀ j < m, (s j (b j) (b j)).2 = true) →
      (csrSolve (csrSolve2' s m) b).1 = .returned ∧ ∀ j < m, (csrSolve (csrSolve2' s m) b).2 j = (s j (b j) (b j)).1) ∧
    ((¬ ∀ j < m, (s j (b j) (b j)).2 = true) → csrSolve (csrSolve2' s m) b = (.threw, b)) := by
  obtain ⟨h1, h2⟩ := csrLoop_spec s b m 0 b
  constructor
  · intro h
    have e := h1 (fun j _ hj => h j (by omega))
    simp only [csrSolve, csrSolve2', e, true_and]
    intro j hj
    rw [if_pos (by omega)]
  · intro h
    have e := h2 (fun h' => h fun j hj => h' j (by omega) (by omega))
    simp only [csrSolve, csrSolve2', e]

/-- Euclidean norm of the first `n` components. -/
noncomputable def IsNormOf (n : ℕ) (v : ℕ → ℝ) (r : ℝ) : Prop := 0 ≤ r ∧ r ^ 2 = ∑ i ∈ Finset.range n, v i ^ 2

/-- **C79** `MatrixBatchEll` asks Ginkgo for a *relative* residual of at most the tolerance, then compares the logged (absolute) residual
with the tolerance. This is harmless when no right-hand side has a norm above one: if every system has converged, `solve` returns. -/
theorem c79_relative_small (s : BatchSolver) {t : Norms.Tree (List ℕ)} {m n : ℕ} (ht : Covers t m) (tol : ℝ) (htol : 0 ≤ tol) (b : Vecs)
    (nb : ℕ → ℝ) (_hnb : ∀ i < m, IsNormOf n (b i) (nb i)) (hconv : ∀ i < m, (s b b).2 i ≤ tol * nb i) (hsmall : ∀ i < m, nb i ≤ 1) :
    ellSolve s t tol b = (.returned, (s b b).1) := by
  refine (c79_batched_solve s ht tol b).1 fun i hi => (hconv i hi).trans ?_
  nlinarith [hsmall i hi]

/-- **C79, finding** For every solver that is homogeneous (multiplying the right-hand side and the initial guess by `c > 0` multiplies
solution and residual by `c`) and does not reach a zero residual for `b`, there is a multiple of `b` for which `MatrixBatchEll::solve`
throws "did not converge", although the relative residual, which is what the tolerance is documented to bound, is the same as for `b`. -/
theorem c79_relative_mismatch (s : BatchSolver) {t : Norms.Tree (List ℕ)} {m : ℕ} (ht : Covers t m) (tol : ℝ) (b : Vecs)
    (hs : ∀ c > 0, ∀ i, (s (fun i j => c * b i j) (fun i j => c * b i j)).2 i = c * (s b b).2 i) {i : ℕ} (hi : i < m) (hr : 0 < (s b b).2 i) :
    ∃ c > 0, (ellSolve s t tol (fun i j => c * b i j)).1 = .threw := by
  refine ⟨(|tol| + 1) / (s b b).2 i, by positivity, ?_⟩
  rw [(c79_batched_solve s ht tol _).2.1]
  intro h
  have h1 := h i hi
  rw [hs _ (by positivity), div_mul_cancel₀ _ (ne_of_gt hr)] at h1
  linarith [le_abs_self tol]

/-- **C79, finding** Conversely a system that has not reached the requested relative residual can be accepted. -/
theorem c79_relative_accepts (tol : ℝ) (htol : 0 < tol) : ∃ (s : BatchSolver) (t : Norms.Tree (List ℕ)) (b : Vecs) (nb : ℝ),
    Covers t 1 ∧ IsNormOf 1 (b 0) nb ∧ tol * nb < (s b b).2 0 ∧ ellSolve s t tol b = (.returned, (s b b).1) := by
  have ht : Covers (.leaf [0]) 1 := by
    intro i; simp only [Norms.Tree.indices, List.mem_singleton, exists_eq_left]; omega
  refine ⟨fun _ x0 => (x0, fun _ => tol), .leaf [0], fun _ _ => 1 / 2, 1 / 2, ht, ⟨by norm_num, by simp⟩, by linarith, ?_⟩
  exact (c79_batched_solve _ ht tol _).1 fun _ _ => le_rfl

/-- The hypotheses of `c79_relative_mismatch` can be met: a solver that stops at a relative residual of one half. -/
example : ∃ (s : BatchSolver) (b : Vecs), (∀ c > 0, ∀ i, (s (fun i j => c * b i j) (fun i j => c * b i j)).2 i = c * (s b b).2 i) ∧
    0 < (s b b).2 0 :=
  ⟨fun b _ => (fun i j => b i j / 2, fun i => |b i 0| / 2), fun _ _ => 1, fun c hc i => by simp [abs_of_pos hc]; ring, by norm_num⟩

end Verif.BatchSparse
