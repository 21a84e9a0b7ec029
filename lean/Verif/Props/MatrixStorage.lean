import Verif.Model.Matrix
import Verif.Spec.LinearSystem
import Mathlib.Tactic.Ring
import Mathlib.Tactic.Linarith
import Mathlib.Tactic.NormNum

/-!
# C24: banded, dense and symmetric storage behave as matrices
-/

namespace Verif.MatrixTools

variable {α : Type*}

/-! ### Dense -/

theorem dense_idx_inj {n i j i' j' : ℕ} (hi : i < n) (hi' : i' < n) (h : j * n + i = j' * n + i') :
    i = i' ∧ j = j' := by
  have h1 : (j * n + i) % n = i := by rw [Nat.mul_comm, Nat.mul_add_mod, Nat.mod_eq_of_lt hi]
  have h2 : (j' * n + i') % n = i' := by rw [Nat.mul_comm, Nat.mul_add_mod, Nat.mod_eq_of_lt hi']
  have e : i = i' := by rw [← h1, ← h2, h]
  subst e
  have hn : 0 < n := by omega
  exact ⟨rfl, Nat.eq_of_mul_eq_mul_right hn (by omega)⟩

/-- **C24 (dense)** A value written at `(i, j)` is read back there and no other entry changes; the array
position is in bounds. -/
theorem c24_dense_get_set (m : Dense α) {i j i' j' : ℕ} (hi : i < m.n) (hi' : i' < m.n) (v : α) :
    (m.set i j v).get i' j' = if i' = i ∧ j' = j then v else m.get i' j' := by
  by_cases h : i' = i ∧ j' = j
  · simp [Dense.get, Dense.set, h]
  · rw [if_neg h]
    simp only [Dense.get, Dense.set]
    rw [Function.update_of_ne]
    intro e
    have := dense_idx_inj hi' hi e
    exact h ⟨this.1, this.2⟩

/-- Dense accesses are within the `n * n` allocated doubles. -/
theorem c24_dense_in_bounds {n i j : ℕ} (hi : i < n) (hj : j < n) : j * n + i < n * n := by
  calc j * n + i < j * n + n := by omega
    _ = (j + 1) * n := by ring
    _ ≤ n * n := Nat.mul_le_mul_right _ hj

/-! ### Banded -/

/-- The stored entries are exactly those of the band: `j - i ≤ ku` and `i - j ≤ kl` (in range). -/
theorem banded_stored_iff (m : Banded α) (i j : ℕ) :
    m.stored i j ↔ i < m.n ∧ j ≤ i + m.ku ∧ i ≤ j + m.kl := by
  unfold Banded.stored
  omega

theorem banded_idx_eq (m : Banded α) {i j : ℕ} (h : m.stored i j) :
    ∃ r, r < m.c ∧ m.idx i j = j * m.c + r ∧ r + j = m.kl + m.ku + i := by
  rw [banded_stored_iff] at h
  refine ⟨m.kl + m.ku + i - j, ?_, ?_, ?_⟩
  · unfold Banded.c; omega
  · unfold Banded.idx; omega
  · omega

theorem banded_idx_inj (m : Banded α) {i j i' j' : ℕ} (h : m.stored i j) (h' : m.stored i' j')
    (e : m.idx i j = m.idx i' j') : i = i' ∧ j = j' := by
  obtain ⟨r, hr, e1, s1⟩ := banded_idx_eq m h
  obtain ⟨r', hr', e2, s2⟩ := banded_idx_eq m h'
  rw [e1, e2] at e
  obtain ⟨a, b⟩ := dense_idx_inj hr hr' e
  subst a b
  omega

/-- **C24 (banded)** Inside the band a value written is read back and no other entry changes; outside the
band every entry reads as zero and writing changes nothing. -/
theorem c24_banded_get_set [Zero α] (m : Banded α) {i j : ℕ} (i' j' : ℕ) (v : α) :
    (m.set i j v).get i' j' =
      if i' = i ∧ j' = j ∧ i < m.n ∧ j ≤ i + m.ku ∧ i ≤ j + m.kl then v else m.get i' j' := by
  have hst : ∀ a b, (m.set i j v).stored a b ↔ m.stored a b := by
    intro a b; unfold Banded.set; split <;> rfl
  by_cases hs : m.stored i j
  · have hset : m.set i j v = { m with q := Function.update m.q (m.idx i j) v } := if_pos hs
    have hs2 := (banded_stored_iff m i j).1 hs
    by_cases h : i' = i ∧ j' = j
    · obtain ⟨rfl, rfl⟩ := h
      rw [if_pos ⟨rfl, rfl, hs2⟩]
      unfold Banded.get
      rw [if_pos ((hst _ _).2 hs), hset]
      exact Function.update_self _ _ _
    · rw [if_neg (fun h' => h ⟨h'.1, h'.2.1⟩)]
      unfold Banded.get
      by_cases hs' : m.stored i' j'
      · rw [if_pos ((hst _ _).2 hs'), if_pos hs', hset]
        refine Function.update_of_ne ?_ _ _
        intro e
        exact h (banded_idx_inj m hs' hs e)
      · rw [if_neg (fun x => hs' ((hst _ _).1 x)), if_neg hs']
  · have hset : m.set i j v = m := if_neg hs
    rw [hset, if_neg]
    rintro ⟨-, -, h⟩
    exact hs ((banded_stored_iff m i j).2 h)

/-- Outside the band an entry reads as zero. -/
theorem c24_banded_zero [Zero α] (m : Banded α) {i j : ℕ} (h : i + m.ku < j ∨ j + m.kl < i) :
    m.get i j = 0 := by
  unfold Banded.get
  rw [if_neg]
  rw [banded_stored_iff]; omega

/-- Band accesses are within the `c * n` allocated doubles, in column `j` and row `kl + ku + i - j` of the
`c × n` column-major array: the layout required by LAPACK's `gbtrf` (`AB(kl+ku+1+i-j, j) = A(i,j)`). -/
theorem c24_banded_layout (m : Banded α) {i j : ℕ} (hj : j < m.n) (h : m.stored i j) :
    ∃ r, m.idx i j = j * m.c + r ∧ (r : ℤ) = m.kl + m.ku + i - j ∧ r < m.c ∧ m.idx i j < m.c * m.n := by
  obtain ⟨r, hr, e, s⟩ := banded_idx_eq m h
  refine ⟨r, e, by omega, hr, ?_⟩
  rw [e]
  calc j * m.c + r < j * m.c + m.c := by omega
    _ = m.c * (j + 1) := by ring
    _ ≤ m.c * m.n := Nat.mul_le_mul_left _ hj

/-! ### Symmetric tridiagonal -/

/-- Reading is symmetric. -/
theorem c24_pds_symmetric [Zero α] (m : Pds α) (i j : ℕ) : m.get i j = m.get j i := by
  unfold Pds.get
  rcases lt_trichotomy i j with h | h | h
  · have h1 : i ≠ j := by omega
    have h2 : ¬ i > j := by omega
    have h3 : j > i := h
    have h4 : j ≠ i := by omega
    simp [h1, h2, h3, h4]
  · subst h; rfl
  · have h1 : i ≠ j := by omega
    have h2 : ¬ j > i := by omega
    have h4 : j ≠ i := by omega
    simp [h1, h2, h, h4]

/-- **C24 (symmetric tridiagonal)** On the three diagonals, writing `(i, j)` sets both `(i, j)` and `(j, i)` and no
other entry; elsewhere writing changes nothing. -/
theorem c24_pds_get_set [Zero α] (m : Pds α) (i j i' j' : ℕ) (v : α) :
    (m.set i j v).get i' j' =
      if ((i' = i ∧ j' = j) ∨ (i' = j ∧ j' = i)) ∧ i ≤ j + 1 ∧ j ≤ i + 1 then v else m.get i' j' := by
  unfold Pds.set Pds.get
  rcases lt_trichotomy i j with h | h | h
  · have h1 : i ≠ j := by omega
    have h2 : ¬ i > j := by omega
    simp only [h1, h2, if_false]
    by_cases h3 : i + 1 = j
    · subst h3
      simp only [ne_eq, not_true_eq_false, if_false, Function.update_apply]
      split_ifs <;> first | rfl | (exfalso; omega)
    · simp only [ne_eq, h3, not_false_eq_true, if_true]
      rw [if_neg (by omega : ¬ (((i' = i ∧ j' = j) ∨ (i' = j ∧ j' = i)) ∧ i ≤ j + 1 ∧ j ≤ i + 1))]
  · subst h
    simp only [if_true, Function.update_apply]
    split_ifs <;> first | rfl | (exfalso; omega)
  · have h1 : i ≠ j := by omega
    simp only [h1, h, if_false, if_true]
    by_cases h3 : j + 1 = i
    · subst h3
      simp only [ne_eq, not_true_eq_false, if_false, Function.update_apply]
      split_ifs <;> first | rfl | (exfalso; omega)
    · simp only [ne_eq, h3, not_false_eq_true, if_true]
      rw [if_neg (by omega : ¬ (((i' = i ∧ j' = j) ∨ (i' = j ∧ j' = i)) ∧ i ≤ j + 1 ∧ j ≤ i + 1))]

/-- Outside the three diagonals every entry reads as zero. -/
theorem c24_pds_zero [Zero α] (m : Pds α) {i j : ℕ} (h : i + 1 < j ∨ j + 1 < i) : m.get i j = 0 := by
  unfold Pds.get
  split_ifs <;> first | rfl | (exfalso; omega) | skip
  all_goals simp only []
  all_goals split_ifs <;> first | rfl | (exfalso; omega)

/-! ### Filling a leaf matrix -/

/-- `A` has the sparsity (and symmetry) the class can hold. -/
def Leaf.Fits [Zero α] (m : Leaf α) (A : ℕ → ℕ → α) : Prop :=
  match m with
  | .dense _ => True
  | .banded m => ∀ i < m.n, ∀ j < m.n, i + m.ku < j ∨ j + m.kl < i → A i j = 0
  | .pds m => (∀ i < m.n, ∀ j < m.n, A i j = A j i) ∧
      ∀ i < m.n, ∀ j < m.n, i + 1 < j ∨ j + 1 < i → A i j = 0

/-- Writing an entry of a matrix that fits: it is then read back, and any other entry either is unchanged or
has its value in `A`. -/
theorem leaf_set_law [Zero α] (m : Leaf α) (A : ℕ → ℕ → α) (hA : m.Fits A) {i j : ℕ}
    (hi : i < m.size) (hj : j < m.size) :
    (m.set i j (A i j)).get i j = A i j ∧
      ∀ i' < m.size, ∀ j' < m.size, (m.set i j (A i j)).get i' j' = m.get i' j' ∨
        (m.set i j (A i j)).get i' j' = A i' j' := by
  cases m with
  | dense m =>
      simp only [Leaf.set, Leaf.get]
      refine ⟨by rw [c24_dense_get_set m hi hi, if_pos ⟨rfl, rfl⟩], fun i' hi' j' _ => ?_⟩
      rw [c24_dense_get_set m hi hi']
      split_ifs with h
      · right; rw [h.1, h.2]
      · left; rfl
  | banded m =>
      simp only [Leaf.set, Leaf.get]
      refine ⟨?_, fun i' _ j' _ => ?_⟩
      · rw [c24_banded_get_set]
        split_ifs with h
        · rfl
        · have hb : i + m.ku < j ∨ j + m.kl < i := by
            have : i < m.n := hi
            by_contra hc
            exact h ⟨rfl, rfl, this, by omega, by omega⟩
          rw [c24_banded_zero m hb]
          exact (hA i hi j hj hb).symm
      · rw [c24_banded_get_set]
        split_ifs with h
        · right; rw [h.1, h.2.1]
        · left; rfl
  | pds m =>
      simp only [Leaf.set, Leaf.get]
      refine ⟨?_, fun i' _ j' _ => ?_⟩
      · rw [c24_pds_get_set]
        split_ifs with h
        · rfl
        · have hb : i + 1 < j ∨ j + 1 < i := by
            by_contra hc
            exact h ⟨Or.inl ⟨rfl, rfl⟩, by omega, by omega⟩
          rw [c24_pds_zero m hb]
          exact (hA.2 i hi j hj hb).symm
      · rw [c24_pds_get_set]
        split_ifs with h
        · right
          rcases h.1 with ⟨a, b⟩ | ⟨a, b⟩
          · rw [a, b]
          · rw [a, b]; exact hA.1 i hi j hj
        · left; rfl

@[simp] theorem leaf_set_size (m : Leaf α) (i j : ℕ) (v : α) : (m.set i j v).size = m.size := by
  cases m with
  | dense m => rfl
  | banded m => simp only [Leaf.set, Leaf.size, Banded.set]; split_ifs <;> rfl
  | pds m =>
      simp only [Leaf.set, Leaf.size, Pds.set]
      split_ifs <;> rfl

theorem leaf_set_fits [Zero α] (m : Leaf α) (i j : ℕ) (v : α) (A : ℕ → ℕ → α) :
    (m.set i j v).Fits A ↔ m.Fits A := by
  cases m with
  | dense m => rfl
  | banded m =>
      simp only [Leaf.set, Banded.set]; split_ifs <;> rfl
  | pds m =>
      simp only [Leaf.set, Pds.set]
      split_ifs <;> rfl

/-- Non-trivial instances of the get/set laws. -/
example : ((Banded.new (α := ℤ) 5 1 2).set 1 3 7).get 1 3 = 7 ∧
    ((Banded.new (α := ℤ) 5 1 2).set 3 1 7).get 3 1 = 0 ∧
    ((Pds.new (α := ℤ) 4).set 2 1 9).get 1 2 = 9 := by
  refine ⟨?_, ?_, ?_⟩
  · rw [c24_banded_get_set]; simp [Banded.new]
  · rw [c24_banded_zero]; right; simp [Banded.set, Banded.new, Banded.stored]
  · rw [c24_pds_get_set]; simp

end Verif.MatrixTools
