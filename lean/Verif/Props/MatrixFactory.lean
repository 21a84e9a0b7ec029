import Verif.Props.MatrixBlocks
import Mathlib.Tactic.Linarith
import Mathlib.Tactic.IntervalCases

/-!
# C21, C22, C26: what a user gets from filling and solving each kind of matrix
-/

namespace Verif.MatrixTools

open Verif.LinearSystem Finset

/-- Writing entries of `A` one after the other, in any order and possibly several times: every entry
that was written, or that is zero in `A`, finally reads as in `A`. -/
theorem fill_law {α σ : Type*} [Zero α] (get : σ → ℕ → ℕ → α) (set : σ → ℕ → ℕ → α → σ)
    (W : σ → Prop) (n : ℕ) (A : ℕ → ℕ → α)
    (hstep : ∀ m i j, W m → i < n → j < n → W (set m i j (A i j)) ∧ get (set m i j (A i j)) i j = A i j ∧
      ∀ i' < n, ∀ j' < n, get (set m i j (A i j)) i' j' = get m i' j' ∨
        get (set m i j (A i j)) i' j' = A i' j')
    (ps : List (ℕ × ℕ)) (hps : ∀ p ∈ ps, p.1 < n ∧ p.2 < n) (m : σ) (hW : W m) :
    W (ps.foldl (fun m p => set m p.1 p.2 (A p.1 p.2)) m) ∧
      ∀ i < n, ∀ j < n, (i, j) ∈ ps ∨ get m i j = A i j →
        get (ps.foldl (fun m p => set m p.1 p.2 (A p.1 p.2)) m) i j = A i j := by
  induction ps generalizing m with
  | nil => exact ⟨hW, fun i _ j _ h => by simpa using h⟩
  | cons p ps ih =>
      obtain ⟨hp1, hp2⟩ := hps p List.mem_cons_self
      obtain ⟨s1, s2, s3⟩ := hstep m p.1 p.2 hW hp1 hp2
      obtain ⟨r1, r2⟩ := ih (fun q hq => hps q (List.mem_cons_of_mem _ hq)) _ s1
      refine ⟨r1, fun i hi j hj h => r2 i hi j hj ?_⟩
      rcases h with h | h
      · rcases List.mem_cons.1 h with h | h
        · right; subst h; exact s2
        · left; exact h
      · right
        rcases s3 i hi j hj with h3 | h3
        · rw [h3, h]
        · exact h3

/-- The list of positions covers every non-zero entry of the `n × n` matrix `A` and stays in range. -/
structure Covers {α : Type*} [Zero α] (n : ℕ) (A : ℕ → ℕ → α) (ps : List (ℕ × ℕ)) : Prop where
  range : ∀ p ∈ ps, p.1 < n ∧ p.2 < n
  all : ∀ i < n, ∀ j < n, A i j ≠ 0 → (i, j) ∈ ps

theorem Covers.or {α : Type*} [Zero α] {n : ℕ} {A : ℕ → ℕ → α} {ps : List (ℕ × ℕ)} (h : Covers n A ps)
    {i j : ℕ} (hi : i < n) (hj : j < n) {z : α} (hz : z = 0) : (i, j) ∈ ps ∨ z = A i j := by
  by_cases h0 : A i j = 0
  · right; rw [hz, h0]
  · left; exact h.all i hi j hj h0

theorem mat_congr {α : Type*} {n : ℕ} {A B : ℕ → ℕ → α} (h : ∀ i < n, ∀ j < n, A i j = B i j) :
    mat n A = mat n B := by
  ext i j; exact h i i.2 j j.2

theorem solves_congr {α : Type*} [CommRing α] {n : ℕ} {A B : ℕ → ℕ → α}
    (h : ∀ i < n, ∀ j < n, A i j = B i j) {x b : ℕ → α} (hs : Solves n A x b) : Solves n B x b := by
  intro i hi
  rw [← hs i hi]
  exact sum_congr rfl fun j hj => by rw [h i hi j (mem_range.1 hj)]

/-- Leaf filled: reads as `A`. -/
theorem leaf_fill {α : Type*} [Zero α] (m : Leaf α) (A : ℕ → ℕ → α) (hA : m.Fits A)
    (h0 : ∀ i j, m.get i j = 0) {ps : List (ℕ × ℕ)} (hps : Covers m.size A ps) :
    let r := ps.foldl (fun m p => m.set p.1 p.2 (A p.1 p.2)) m
    r.size = m.size ∧ r.Fits A ∧ ∀ i < m.size, ∀ j < m.size, r.get i j = A i j := by
  have := fill_law (fun m : Leaf α => m.get) (fun m i j v => m.set i j v)
    (fun r => r.size = m.size ∧ r.Fits A) m.size A
    (fun r i j hr hi hj => by
      have hl := leaf_set_law r A hr.2 (i := i) (j := j) (by rw [hr.1]; exact hi) (by rw [hr.1]; exact hj)
      refine ⟨⟨by rw [leaf_set_size]; exact hr.1, (leaf_set_fits _ _ _ _ _).2 hr.2⟩, hl.1, ?_⟩
      rw [hr.1] at hl
      exact hl.2) ps hps.range m ⟨rfl, hA⟩
  obtain ⟨⟨a, b⟩, c⟩ := this
  exact ⟨a, b, fun i hi j hj => c i hi j hj (hps.or hi hj (h0 i j))⟩

/-! ### C21 -/

/-- A periodic banded matrix built by writing the entries of `A`. -/
theorem periodic_fill {α : Type*} [CommRing α] {n kl ku : ℕ} (hs : PeriodicSizes n kl ku) (q : Leaf α)
    (hqn : q.size = n - max kl ku) (hq0 : ∀ i j, q.get i j = 0) (A : ℕ → ℕ → α) (hq : q.Fits A)
    (hA : PeriodicFits n kl ku A) {ps : List (ℕ × ℕ)} (hps : Covers n A ps) :
    let m := ps.foldl (fun m p => m.set p.1 p.2 (A p.1 p.2)) (Periodic.new n kl ku q)
    m.Shape n kl ku ∧ m.base.q.Fits A ∧ ∀ i < n, ∀ j < n, m.get i j = A i j := by
  have hle : max kl ku ≤ n := by unfold PeriodicSizes at hs; omega
  have hshape : (Periodic.new n kl ku q).Shape n kl ku :=
    ⟨rfl, rfl, ⟨rfl, rfl, hle, hqn, rfl⟩, fun _ _ _ _ => rfl⟩
  have := fill_law (fun m : Periodic α => m.get) (fun m i j v => m.set i j v)
    (fun m => m.Shape n kl ku ∧ m.base.q.Fits A) n A
    (fun m i j hm hi hj => by
      obtain ⟨a, b, c, d⟩ := periodic_set_law hs hm.1 A hm.2 hA hi hj
      exact ⟨⟨a, b⟩, c, d⟩) ps hps.range (Periodic.new n kl ku q) ⟨hshape, hq⟩
  obtain ⟨⟨a, b⟩, c⟩ := this
  refine ⟨a, b, fun i hi j hj => c i hi j hj (hps.or hi hj ?_)⟩
  unfold Periodic.get
  split_ifs
  · split
    · rfl
    · rfl
  · exact corner_new_get _ _ _ hq0 _ _

/-- **C21 (storage)** A periodic banded matrix of size `n ≥ 2 max(kl, ku) + 1` filled through `set_element`, in any
order, with a matrix `A` whose non-zeros are within cyclic distance `ku` to the right and `kl` to the left
of the diagonal, reads back as `A` through `get_element`. -/
theorem c21_periodic_storage {α : Type*} [CommRing α] {n kl ku : ℕ} (hs : PeriodicSizes n kl ku)
    (q : Leaf α) (hqn : q.size = n - max kl ku) (hq0 : ∀ i j, q.get i j = 0) (A : ℕ → ℕ → α)
    (hq : q.Fits A) (hA : ∀ i < n, ∀ j < n, ¬ InPeriodicBand n kl ku i j → A i j = 0)
    {ps : List (ℕ × ℕ)} (hps : Covers n A ps) {i j : ℕ} (hi : i < n) (hj : j < n) :
    (ps.foldl (fun m p => m.set p.1 p.2 (A p.1 p.2)) (Periodic.new n kl ku q)).get i j = A i j :=
  (periodic_fill hs q hqn hq0 A hq hA hps).2.2 i hi j hj

theorem leaf_regular_of {m : Leaf ℝ} {A : ℕ → ℕ → ℝ} (h : ∀ i < m.size, ∀ j < m.size, m.get i j = A i j)
    (hdet : (mat m.size A).det ≠ 0) (hpd : ∀ p, m = .pds p → (mat m.size A).PosDef) : m.Regular := by
  have hmat := mat_congr h
  cases m with
  | dense m => unfold Leaf.Regular; rw [← hmat] at hdet; exact hdet
  | banded m => unfold Leaf.Regular; rw [← hmat] at hdet; exact hdet
  | pds m =>
      have := hpd m rfl
      rw [← hmat] at this
      exact this

/-- **C21 (solve)** ... and after `factorise`, `solve_inplace` and `solve_transpose_inplace` solve the systems of matrix
`A` and of its transpose, whenever `A` and its leading block of size `n - max(kl, ku)` are
non-singular. -/
theorem c21_periodic_solve {L : Lapack ℝ} (hL : LapackOk L) {n kl ku : ℕ} (hs : PeriodicSizes n kl ku)
    (q : Leaf ℝ) (hqn : q.size = n - max kl ku) (hq0 : ∀ i j, q.get i j = 0) (A : ℕ → ℕ → ℝ)
    (hq : q.Fits A) (hA : ∀ i < n, ∀ j < n, ¬ InPeriodicBand n kl ku i j → A i j = 0)
    {ps : List (ℕ × ℕ)} (hps : Covers n A ps)
    (hdet : (mat n A).det ≠ 0)
    (hreg : (ps.foldl (fun m p => m.set p.1 p.2 (A p.1 p.2)) (Periodic.new n kl ku q)).base.q.Regular)
    (b : ℕ → ℝ) :
    let f := (ps.foldl (fun m p => m.set p.1 p.2 (A p.1 p.2)) (Periodic.new n kl ku q)).base.factorise
      L periodicOps
    Solves n A (f.solve periodicOps b) b ∧ Solves n (transpose A) (f.solveT periodicOps b) b := by
  obtain ⟨hsh, -, hget⟩ := periodic_fill hs q hqn hq0 A hq hA hps
  set m := ps.foldl (fun m p => m.set p.1 p.2 (A p.1 p.2)) (Periodic.new n kl ku q) with hm
  intro f
  have hB : ∀ i < n, ∀ j < n, blocks (n - max kl ku) m.base.q.get (fun i j => m.base.gamma j i)
      (periodicLam n kl ku m.base.lam) m.base.delta.get i j = A i j := by
    intro i hi j hj
    rw [← periodic_get_eq hsh, hget i hi j hj]
  have hops := periodicOps_spec hs hsh.clean
  have hp := corner_pipeline hL periodicOps m.base (periodicLam n kl ku m.base.lam)
    (by rw [hsh.base.nb_eq, hsh.base.k_eq]; exact hops)
    (by rw [hsh.base.k_eq, hsh.base.n_eq]; exact hsh.base.k_le)
    (by rw [hsh.base.nb_eq]; exact hsh.base.q_size) hreg
    (by rw [hsh.base.n_eq, hsh.base.nb_eq, mat_congr hB]; exact hdet) b
  rw [hsh.base.n_eq, hsh.base.nb_eq] at hp
  exact ⟨solves_congr hB hp.1, solves_congr (fun i hi j hj => hB j hj i hi) hp.2⟩

/-- The non-zeros of a periodic band within the leading block are those of a plain band. -/
theorem periodic_leading_band {α : Type*} [Zero α] {n kl ku : ℕ} {A : ℕ → ℕ → α}
    (hle : max kl ku ≤ n)
    (hA : ∀ i < n, ∀ j < n, ¬ InPeriodicBand n kl ku i j → A i j = 0) :
    ∀ i < n - max kl ku, ∀ j < n - max kl ku, i + ku < j ∨ j + kl < i → A i j = 0 := by
  intro i hi j hj h
  refine hA i (by omega) j (by omega) ?_
  unfold InPeriodicBand
  omega

/-! ### C22 -/

section centre
variable {α : Type*}

/-- The inverse of `adjust`, for `n = top + q + bottom`. -/
def unadjust (top q p : ℕ) : ℕ := if p < q then p + top else if p < q + top then p - q else p

/-- `adjust` with the sizes made explicit. -/
def adjustIdx (top q i : ℕ) : ℕ := if i < top then i + q else if i < top + q then i - top else i

theorem unadjust_adjust (top q i : ℕ) : unadjust top q (adjustIdx top q i) = i := by
  unfold unadjust adjustIdx; split_ifs <;> omega

theorem adjust_unadjust (top q i : ℕ) : adjustIdx top q (unadjust top q i) = i := by
  unfold unadjust adjustIdx; split_ifs <;> omega

theorem adjust_lt {top q bottom i : ℕ} (h : i < top + q + bottom) : adjustIdx top q i < top + q + bottom := by
  unfold adjustIdx; split_ifs <;> omega

theorem unadjust_lt {top q bottom i : ℕ} (h : i < top + q + bottom) :
    unadjust top q i < top + q + bottom := by
  unfold unadjust; split_ifs <;> omega

variable [CommRing α]

/-- `swap_array_to_corner` moves the entry of row `i` to row `adjust i`, when the top block is not larger than
the banded block. -/
theorem swapToCorner_eq {top q bottom : ℕ} (h : top ≤ q) (bx : ℕ → α) :
    swapToCorner top q 1 (top + q + bottom) bx = some (fun p => bx (unadjust top q p)) := by
  unfold swapToCorner memcpyTo memcpySelf
  simp only [Nat.mul_one, Option.bind_eq_bind, Nat.zero_add]
  rw [if_pos (le_refl q), Option.bind_some, if_pos (by omega), Option.bind_some, if_pos (by omega)]
  congr 1
  funext p
  unfold unadjust
  dsimp only
  split_ifs <;> first | rfl | (exfalso; omega) | (congr 1; omega)

theorem swapToCentre_eq {top q bottom : ℕ} (h : top ≤ q) (bx : ℕ → α) :
    swapToCentre top q 1 (top + q + bottom) bx = some (fun p => bx (adjustIdx top q p)) := by
  unfold swapToCentre memcpyTo memcpySelf
  simp only [Nat.mul_one, Option.bind_eq_bind, Nat.zero_add]
  rw [if_pos (le_refl q), Option.bind_some, if_pos (by omega), Option.bind_some, if_pos (by omega)]
  congr 1
  funext p
  unfold adjustIdx
  dsimp only
  split_ifs <;> first | rfl | (exfalso; omega) | (congr 1; omega)

/-- The adjusted matrix solves iff the original does. -/
theorem solves_adjust {top q bottom : ℕ} {B : ℕ → ℕ → α} {y b : ℕ → α}
    (h : Solves (top + q + bottom) B y (fun p => b (unadjust top q p))) :
    Solves (top + q + bottom) (fun i j => B (adjustIdx top q i) (adjustIdx top q j))
      (fun p => y (adjustIdx top q p)) b := by
  intro i hi
  have h1 := h (adjustIdx top q i) (adjust_lt hi)
  simp only [unadjust_adjust] at h1
  rw [← h1]
  refine Finset.sum_nbij' (adjustIdx top q) (unadjust top q) ?_ ?_ ?_ ?_ ?_
  · intro j hj; exact mem_range.2 (adjust_lt (mem_range.1 hj))
  · intro j hj; exact mem_range.2 (unadjust_lt (mem_range.1 hj))
  · intro j _; exact unadjust_adjust _ _ _
  · intro j _; exact adjust_unadjust _ _ _
  · intro j _; rfl

theorem det_adjust {top q bottom : ℕ} (B : ℕ → ℕ → α) :
    (mat (top + q + bottom) (fun i j => B (adjustIdx top q i) (adjustIdx top q j))).det
      = (mat (top + q + bottom) B).det := by
  let e : Fin (top + q + bottom) ≃ Fin (top + q + bottom) :=
    { toFun := fun i => ⟨adjustIdx top q i, adjust_lt i.2⟩
      invFun := fun i => ⟨unadjust top q i, unadjust_lt i.2⟩
      left_inv := fun i => Fin.ext (unadjust_adjust _ _ _)
      right_inv := fun i => Fin.ext (adjust_unadjust _ _ _) }
  have : mat (top + q + bottom) (fun i j => B (adjustIdx top q i) (adjustIdx top q j))
      = (mat (top + q + bottom) B).submatrix e e := by
    ext i j; rfl
  rw [this, Matrix.det_submatrix_equiv_self]

/-- The shape invariant of a centre block matrix. -/
structure Centre.Shape (m : Centre α) (top q bottom : ℕ) : Prop where
  top_eq : m.top = top
  bottom_eq : m.bottom = bottom
  base : m.base.Shape (top + q + bottom) (top + bottom)

theorem Centre.Shape.adjust_eq {m : Centre α} {top q bottom : ℕ} (h : m.Shape top q bottom) (i : ℕ) :
    m.adjust i = adjustIdx top q i := by
  unfold Centre.adjust adjustIdx
  rw [h.top_eq, h.bottom_eq, h.base.n_eq, h.base.q_size]
  have e1 : top + q + bottom - (top + bottom) = q := by omega
  have e2 : top + q + bottom - bottom = top + q := by omega
  rw [e1, e2]

/-- A centre block matrix built by writing the entries of `A`: reads back as `A`. -/
theorem centre_fill {top q bottom : ℕ} (Q : Leaf α) (hqn : Q.size = q) (hq0 : ∀ i j, Q.get i j = 0)
    (A : ℕ → ℕ → α) (hq : Q.Fits (fun i j => A (top + i) (top + j)))
    {ps : List (ℕ × ℕ)} (hps : Covers (top + q + bottom) A ps) :
    let m := ps.foldl (fun m p => m.set p.1 p.2 (A p.1 p.2)) (Centre.new (top + q + bottom) top bottom Q)
    m.Shape top q bottom ∧
      ∀ i < top + q + bottom, ∀ j < top + q + bottom, m.get i j = A i j := by
  set n := top + q + bottom with hn
  set A' : ℕ → ℕ → α := fun i j => A (unadjust top q i) (unadjust top q j) with hA'
  have hA'A : ∀ i j, A' (adjustIdx top q i) (adjustIdx top q j) = A i j := by
    intro i j; simp only [hA', unadjust_adjust]
  have hnk : n - (top + bottom) = q := by omega
  have hfits : ∀ R : Leaf α, R.size = q → (R.Fits (fun i j => A (top + i) (top + j)) → R.Fits A') := by
    intro R hR hf
    have e : ∀ i < q, ∀ j < q, A' i j = A (top + i) (top + j) := by
      intro i hi j hj
      simp only [hA', unadjust, hi, hj, if_true, Nat.add_comm]
    cases R with
    | dense R => trivial
    | banded R =>
        intro i hi j hj h
        have h1 : R.n = q := hR
        rw [e i (by omega) j (by omega)]; exact hf i hi j hj h
    | pds R =>
        have h1 : R.n = q := hR
        refine ⟨fun i hi j hj => ?_, fun i hi j hj h => ?_⟩
        · rw [e i (by omega) j (by omega), e j (by omega) i (by omega)]; exact hf.1 i hi j hj
        · rw [e i (by omega) j (by omega)]; exact hf.2 i hi j hj h
  have hshape : (Centre.new n top bottom Q).Shape top q bottom :=
    ⟨rfl, rfl, ⟨rfl, rfl, by omega, by rw [hnk]; exact hqn, rfl⟩⟩
  have := fill_law (fun m : Centre α => m.get) (fun m i j v => m.set i j v)
    (fun m => m.Shape top q bottom ∧ m.base.q.Fits A') n A
    (fun m i j hm hi hj => by
      have ha : ∀ i, m.adjust i = adjustIdx top q i := hm.1.adjust_eq
      have hset : m.set i j (A i j) = ⟨m.top, m.bottom, m.base.set (adjustIdx top q i)
            (adjustIdx top q j) (A' (adjustIdx top q i) (adjustIdx top q j))⟩ := by
        unfold Centre.set; rw [ha, ha, hA'A]
      obtain ⟨l1, l2⟩ := corner_set_law hm.1.base A' hm.2 (adjust_lt hi) (adjust_lt hj)
      have hsh : (m.set i j (A i j)).Shape top q bottom := by
        rw [hset]
        exact ⟨hm.1.top_eq, hm.1.bottom_eq, corner_set_shape hm.1.base _ _ _⟩
      refine ⟨⟨hsh, by rw [hset]; exact (corner_set_fits _ _ _ _ _).2 hm.2⟩, ?_, fun i' hi' j' hj' => ?_⟩
      · unfold Centre.get
        rw [hsh.adjust_eq, hsh.adjust_eq, hset, l1, hA'A]
      · unfold Centre.get
        rw [hsh.adjust_eq, hsh.adjust_eq, ha, ha, hset]
        have := l2 _ (adjust_lt hi') _ (adjust_lt hj')
        rw [hA'A i' j'] at this
        exact this)
    ps hps.range (Centre.new n top bottom Q) ⟨hshape, hfits Q hqn hq⟩
  obtain ⟨⟨a, b⟩, c⟩ := this
  refine ⟨a, fun i hi j hj => c i hi j hj (hps.or hi hj ?_)⟩
  exact corner_new_get _ _ _ hq0 _ _

end centre

/-- **C22 (storage)** A matrix with a banded region in its centre (`[A B C; D E F; G H I]`, `E` of size `q`
starting at row `top`) filled through `set_element` reads back unchanged. -/
theorem c22_centre_storage {α : Type*} [CommRing α] {top q bottom : ℕ} (Q : Leaf α) (hqn : Q.size = q)
    (hq0 : ∀ i j, Q.get i j = 0) (A : ℕ → ℕ → α) (hq : Q.Fits (fun i j => A (top + i) (top + j)))
    {ps : List (ℕ × ℕ)} (hps : Covers (top + q + bottom) A ps)
    {i j : ℕ} (hi : i < top + q + bottom) (hj : j < top + q + bottom) :
    (ps.foldl (fun m p => m.set p.1 p.2 (A p.1 p.2)) (Centre.new (top + q + bottom) top bottom Q)).get i j
      = A i j :=
  (centre_fill Q hqn hq0 A hq hps).2 i hi j hj

/-- **C22 (solve)** ... and `solve_inplace` / `solve_transpose_inplace` solve the systems of `A` and of its transpose
(when the top block is not larger than the banded block: see `c22_overlap`). -/
theorem c22_centre_solve {L : Lapack ℝ} (hL : LapackOk L) {top q bottom : ℕ} (htq : top ≤ q)
    (Q : Leaf ℝ) (hqn : Q.size = q) (hq0 : ∀ i j, Q.get i j = 0) (A : ℕ → ℕ → ℝ)
    (hq : Q.Fits (fun i j => A (top + i) (top + j)))
    {ps : List (ℕ × ℕ)} (hps : Covers (top + q + bottom) A ps)
    (hdet : (mat (top + q + bottom) A).det ≠ 0)
    (hreg : (ps.foldl (fun m p => m.set p.1 p.2 (A p.1 p.2))
      (Centre.new (top + q + bottom) top bottom Q)).base.q.Regular)
    (b : ℕ → ℝ) (tr : Bool) :
    let m := ps.foldl (fun m p => m.set p.1 p.2 (A p.1 p.2)) (Centre.new (top + q + bottom) top bottom Q)
    ∃ x, centreSolve m.top (m.base.factorise L cornerOps) tr b = some x ∧
      Solves (top + q + bottom) (if tr then transpose A else A) x b := by
  obtain ⟨hsh, hget⟩ := centre_fill Q hqn hq0 A hq hps
  set m := ps.foldl (fun m p => m.set p.1 p.2 (A p.1 p.2)) (Centre.new (top + q + bottom) top bottom Q) with hm
  intro m'
  set f := m.base.factorise L cornerOps with hf
  have hnb : f.nb = q := by
    change m.base.nb = q
    rw [hsh.base.nb_eq]; omega
  have hk : f.k = top + bottom := hsh.base.k_eq
  have hn : f.nb + f.k = top + q + bottom := by omega
  have hB : ∀ i < top + q + bottom, ∀ j < top + q + bottom,
      m.base.get (adjustIdx top q i) (adjustIdx top q j) = A i j := by
    intro i hi j hj
    rw [← hget i hi j hj]
    unfold Centre.get
    rw [hsh.adjust_eq, hsh.adjust_eq]
  have hdetB : (mat (top + q + bottom) m.base.get).det ≠ 0 := by
    rw [← det_adjust, mat_congr hB]; exact hdet
  have hs := c20_corner_solve hL m.base (by rw [hsh.base.n_eq, hsh.base.k_eq]; omega)
    (by rw [hsh.base.q_size, hsh.base.nb_eq]) hreg (by rw [hsh.base.n_eq]; exact hdetB)
    (fun p => b (unadjust top q p))
  rw [hsh.base.n_eq] at hs
  have htop : m'.top = top := hsh.top_eq
  unfold centreSolve
  rw [htop]
  simp only [hn, Option.bind_eq_bind]
  change ∃ x, Option.bind (swapToCorner top f.nb 1 (top + q + bottom) b) _ = some x ∧ _
  rw [hnb, swapToCorner_eq htq, Option.bind_some, swapToCentre_eq htq]
  refine ⟨_, rfl, ?_⟩
  cases tr with
  | false =>
      have := solves_adjust hs.1
      exact solves_congr hB this
  | true =>
      have := solves_adjust hs.2
      exact solves_congr (fun i hi j hj => hB j hj i hi) this

/-- **C22 (finding)** When the top block is larger than the banded block, `solve_inplace` calls `memcpy` with
overlapping ranges: undefined behaviour, for every right hand side. -/
theorem c22_overlap {α : Type*} [CommRing α] (f : Factored α) {top : ℕ} (h : f.nb < top) (tr : Bool)
    (b : ℕ → α) : centreSolve top f tr b = none := by
  unfold centreSolve swapToCorner memcpyTo memcpySelf
  simp only [Nat.mul_one, Option.bind_eq_bind, Nat.zero_add]
  rw [if_pos (le_refl f.nb), Option.bind_some, if_neg (by omega)]
  rfl

/-- **C22 (finding)** `Matrix_Centre_Block::solve_multiple_inplace` overruns its swap buffer (which has room for
one column) as soon as the span has at least two columns - hence for every span with the documented
extents `(number of systems, n)` with `n ≥ 2`. -/
theorem c22_solve_multiple_overrun {α : Type*} [CommRing α] (f : Factored α) (hq : 0 < f.nb) {top : ℕ}
    (rows : ℕ) {cols : ℕ} (hc : 2 ≤ cols) (bx : ℕ → α) : centreSolveMultiple top f rows cols bx = none := by
  unfold centreSolveMultiple swapToCorner memcpyTo
  have : ¬ (0 + f.nb * cols ≤ f.nb) := by
    have : f.nb * 2 ≤ f.nb * cols := Nat.mul_le_mul_left _ hc
    omega
  rw [if_neg this]
  rfl

/-! ### C26 -/

theorem mat_fill_leaf {α : Type*} [CommRing α] (m : Leaf α) (A : ℕ → ℕ → α) (ps : List (ℕ × ℕ)) :
    (Mat.leaf m).fill A ps = .leaf (ps.foldl (fun m p => m.set p.1 p.2 (A p.1 p.2)) m) := by
  unfold Mat.fill
  induction ps generalizing m with
  | nil => rfl
  | cons p ps ih => rw [List.foldl_cons, List.foldl_cons]; exact ih _

theorem mat_fill_periodic {α : Type*} [CommRing α] (m : Periodic α) (A : ℕ → ℕ → α) (ps : List (ℕ × ℕ)) :
    (Mat.periodic m).fill A ps = .periodic (ps.foldl (fun m p => m.set p.1 p.2 (A p.1 p.2)) m) := by
  unfold Mat.fill
  induction ps generalizing m with
  | nil => rfl
  | cons p ps ih => rw [List.foldl_cons, List.foldl_cons]; exact ih _

theorem mat_fill_corner {α : Type*} [CommRing α] (m : Corner α) (A : ℕ → ℕ → α) (ps : List (ℕ × ℕ)) :
    (Mat.corner m).fill A ps = .corner (ps.foldl (fun m p => m.set p.1 p.2 (A p.1 p.2)) m) := by
  unfold Mat.fill
  induction ps generalizing m with
  | nil => rfl
  | cons p ps ih => rw [List.foldl_cons, List.foldl_cons]; exact ih _

theorem mat_fill_centre {α : Type*} [CommRing α] (m : Centre α) (A : ℕ → ℕ → α) (ps : List (ℕ × ℕ)) :
    (Mat.centre m).fill A ps = .centre (ps.foldl (fun m p => m.set p.1 p.2 (A p.1 p.2)) m) := by
  unfold Mat.fill
  induction ps generalizing m with
  | nil => rfl
  | cons p ps ih => rw [List.foldl_cons, List.foldl_cons]; exact ih _

/-- "The object represents `A`": every entry reads as in `A`, and if `A` is non-singular both solves are defined
and return solutions of the systems of matrix `A` and transposed `A`. -/
def Represents (L : Lapack ℝ) (n : ℕ) (A : ℕ → ℕ → ℝ) (m : Mat ℝ) : Prop :=
  (∀ i < n, ∀ j < n, m.get i j = A i j) ∧
    ((mat n A).det ≠ 0 → ∀ b,
      (∃ x, m.solve L false b = some x ∧ Solves n A x b) ∧
      ∃ x, m.solve L true b = some x ∧ Solves n (transpose A) x b)

theorem leaf_represents {L : Lapack ℝ} (hL : LapackOk L) (m : Leaf ℝ) (A : ℕ → ℕ → ℝ) (hA : m.Fits A)
    (h0 : ∀ i j, m.get i j = 0) {ps : List (ℕ × ℕ)} (hps : Covers m.size A ps)
    (hpd : (∃ p, m = .pds p) → (mat m.size A).PosDef) :
    Represents L m.size A ((Mat.leaf m).fill A ps) := by
  obtain ⟨h1, h2, h3⟩ := leaf_fill m A hA h0 hps
  rw [mat_fill_leaf]
  set r := ps.foldl (fun m p => m.set p.1 p.2 (A p.1 p.2)) m with hr
  refine ⟨h3, fun hdet b => ?_⟩
  have hreg : r.Regular := by
    refine leaf_regular_of (A := A) (by rw [h1]; exact h3) (by rw [h1]; exact hdet) ?_
    rintro p hp
    rw [h1]
    refine hpd ?_
    -- the class does not change while filling
    have : ∀ (qs : List (ℕ × ℕ)) (m : Leaf ℝ),
        (∃ p, qs.foldl (fun m p => m.set p.1 p.2 (A p.1 p.2)) m = .pds p) → ∃ p, m = .pds p := by
      intro qs
      induction qs with
      | nil => intro m h; exact h
      | cons q qs ih =>
          intro m h
          rw [List.foldl_cons] at h
          obtain ⟨p, hp⟩ := ih _ h
          cases m with
          | dense m => cases hp
          | banded m => cases hp
          | pds m => exact ⟨m, rfl⟩
    exact this ps m ⟨p, hp⟩
  have hs := leaf_solve hL hreg b
  rw [h1] at hs
  exact ⟨⟨_, rfl, solves_congr h3 hs.1⟩, ⟨_, rfl, solves_congr (fun i hi j hj => h3 j hj i hi) hs.2⟩⟩

theorem new_zero_dense (n i j : ℕ) : (Leaf.dense (Dense.new (α := ℝ) n)).get i j = 0 := rfl

theorem new_zero_banded (n kl ku i j : ℕ) : (Leaf.banded (Banded.new (α := ℝ) n kl ku)).get i j = 0 := by
  unfold Leaf.get Banded.get Banded.new
  exact ite_self _

theorem new_zero_pds (n i j : ℕ) : (Leaf.pds (Pds.new (α := ℝ) n)).get i j = 0 := by
  simp only [Leaf.get, Pds.get, Pds.new]; split_ifs <;> rfl

theorem posdef_symm {n : ℕ} {A : ℕ → ℕ → ℝ} (h : (mat n A).PosDef) {i j : ℕ} (hi : i < n) (hj : j < n) :
    A i j = A j i := by
  have h2 := congrFun (congrFun h.isHermitian ⟨j, hj⟩) ⟨i, hi⟩
  simpa [mat, Matrix.conjTranspose_apply] using h2

/-- A principal block of consecutive rows of a positive definite matrix is positive definite. -/
theorem posdef_block {n off q : ℕ} {A : ℕ → ℕ → ℝ} (h : (mat n A).PosDef) (hle : off + q ≤ n) :
    (mat q (fun i j => A (off + i) (off + j))).PosDef := by
  let e : Fin q → Fin n := fun i => ⟨off + i, by omega⟩
  have he : Function.Injective e := by
    intro a b hab
    have := congrArg Fin.val hab
    simp only [e] at this
    exact Fin.ext (by omega)
  exact h.submatrix he

/-- **C26 (banded)** The matrix returned by `make_new_banded(n, kl, ku, pds)` can hold every banded matrix (positive
definite if `pds`), and solves with it. -/
theorem c26_make_banded {L : Lapack ℝ} (hL : LapackOk L) {n kl ku : ℕ} {pds : Bool} {A : ℕ → ℕ → ℝ}
    (hA : ∀ i < n, ∀ j < n, i + ku < j ∨ j + kl < i → A i j = 0)
    (hpds : pds = true → (mat n A).PosDef) {ps : List (ℕ × ℕ)} (hps : Covers n A ps) :
    Represents L n A ((makeBanded n kl ku pds).fill A ps) := by
  unfold makeBanded
  split_ifs with h1 h2
  · obtain ⟨rfl, rfl, hp⟩ := h1
    have hpd := hpds hp
    exact leaf_represents hL (.pds (Pds.new n)) A
      ⟨fun i hi j hj => posdef_symm hpd hi hj, fun i hi j hj h => hA i hi j hj h⟩
      (new_zero_pds n) hps (fun _ => hpd)
  · exact leaf_represents hL (.dense (Dense.new n)) A trivial (new_zero_dense n) hps
      (by rintro ⟨p, hp⟩; cases hp)
  · exact leaf_represents hL (.banded (Banded.new n kl ku)) A hA (new_zero_banded n kl ku) hps
      (by rintro ⟨p, hp⟩; cases hp)

/-- The memory test of `make_new_periodic_banded` guarantees sizes the periodic class supports. -/
theorem periodic_sizes_of_guard {n kl ku : ℕ} (hkl : kl < n) (hku : ku < n)
    (h : ¬ (max kl ku * n + max kl ku * (max kl ku + 1) + (2 * kl + 1 + ku) * (n - max kl ku) ≥ n * n)) :
    2 * max kl ku + 1 ≤ n := by
  by_contra hc
  apply h
  obtain ⟨k, hk⟩ : ∃ k, k = max kl ku := ⟨_, rfl⟩
  rw [← hk] at hc ⊢
  have hkn : k < n := by omega
  obtain ⟨r, rfl⟩ : ∃ r, n = k + r := ⟨n - k, by omega⟩
  rw [Nat.add_sub_cancel_left]
  have hrk : r ≤ k := by omega
  have h2 : k + 1 ≤ 2 * kl + 1 + ku := by omega
  have h3 : (k + 1) * r ≤ (2 * kl + 1 + ku) * r := Nat.mul_le_mul_right _ h2
  have h4 : r * r ≤ k * r := Nat.mul_le_mul_right _ hrk
  nlinarith

theorem periodic_represents {L : Lapack ℝ} (hL : LapackOk L) {n kl ku : ℕ} (hs : PeriodicSizes n kl ku)
    (q : Leaf ℝ) (hqn : q.size = n - max kl ku) (hq0 : ∀ i j, q.get i j = 0) (A : ℕ → ℕ → ℝ)
    (hq : q.Fits A) (hA : ∀ i < n, ∀ j < n, ¬ InPeriodicBand n kl ku i j → A i j = 0)
    (hQ : (mat (n - max kl ku) A).det ≠ 0)
    (hpd : (∃ p, q = .pds p) → (mat (n - max kl ku) A).PosDef)
    {ps : List (ℕ × ℕ)} (hps : Covers n A ps) :
    Represents L n A ((Mat.periodic (Periodic.new n kl ku q)).fill A ps) := by
  rw [mat_fill_periodic]
  obtain ⟨hsh, hfit, hget⟩ := periodic_fill hs q hqn hq0 A hq hA hps
  refine ⟨hget, fun hdet b => ?_⟩
  set m := ps.foldl (fun m p => m.set p.1 p.2 (A p.1 p.2)) (Periodic.new n kl ku q) with hm
  have hle := hsh.base.k_le
  have hqget : ∀ i < m.base.q.size, ∀ j < m.base.q.size, m.base.q.get i j = A i j := by
    rw [hsh.base.q_size]
    intro i hi j hj
    rw [← hget i (by omega) j (by omega), periodic_get_eq hsh, blocks, if_pos hi, if_pos hj]
  have hreg : m.base.q.Regular := by
    refine leaf_regular_of hqget (by rw [hsh.base.q_size]; exact hQ) ?_
    intro p hp
    rw [hsh.base.q_size]
    refine hpd ?_
    have : ∀ (qs : List (ℕ × ℕ)) (m : Periodic ℝ),
        (∃ p, (qs.foldl (fun m p => m.set p.1 p.2 (A p.1 p.2)) m).base.q = .pds p) →
          ∃ p, m.base.q = .pds p := by
      intro qs
      induction qs with
      | nil => intro m h; exact h
      | cons x qs ih =>
          intro m h
          rw [List.foldl_cons] at h
          obtain ⟨p, hp⟩ := ih _ h
          unfold Periodic.set Corner.set at hp
          rcases hmq : m.base.q with md | mb | mp
          · rw [hmq] at hp
            split_ifs at hp <;> first | (cases hp) | (split at hp <;> simp_all)
          · rw [hmq] at hp
            split_ifs at hp <;> first | (cases hp) | (split at hp <;> simp_all)
          · exact ⟨mp, rfl⟩
    exact this ps _ ⟨p, hp⟩
  have hsol := c21_periodic_solve hL hs q hqn hq0 A hq hA hps hdet hreg b
  exact ⟨⟨_, rfl, hsol.1⟩, ⟨_, rfl, hsol.2⟩⟩

/-- **C26 (periodic banded)** The matrix returned by `make_new_periodic_banded(n, kl, ku, pds)` can hold every periodic banded
matrix with `kl, ku < n` (positive definite if `pds`, of size at least 2), and solves with it when its leading
block of size `n - max(kl, ku)` is non-singular. -/
theorem c26_make_periodic {L : Lapack ℝ} (hL : LapackOk L) {n kl ku : ℕ} {pds : Bool} {A : ℕ → ℕ → ℝ}
    (hkl : kl < n) (hku : ku < n)
    (hA : ∀ i < n, ∀ j < n, ¬ InPeriodicBand n kl ku i j → A i j = 0)
    (hpds : pds = true → (mat n A).PosDef)
    (hQ : (mat (n - max kl ku) A).det ≠ 0)
    {ps : List (ℕ × ℕ)} (hps : Covers n A ps) :
    Represents L n A ((makePeriodic n kl ku pds).fill A ps) := by
  unfold makePeriodic
  simp only []
  split_ifs with h1 h2
  · obtain ⟨hp, rfl, rfl⟩ := h1
    have hs : PeriodicSizes n 1 1 := by unfold PeriodicSizes; omega
    have hpd := hpds hp
    have hlead : (mat (n - max 1 1) A).PosDef := by
      have := posdef_block (off := 0) (q := n - max 1 1) hpd (by omega)
      simpa using this
    have hband := periodic_leading_band (by omega) hA
    refine periodic_represents hL hs (.pds (Pds.new _)) rfl (new_zero_pds _) A
      ⟨fun i hi j hj => posdef_symm hlead hi hj, hband⟩ hA hQ (fun _ => hlead) hps
  · exact leaf_represents hL (.dense (Dense.new n)) A trivial (new_zero_dense n) hps
      (by rintro ⟨p, hp⟩; cases hp)
  · have hs : PeriodicSizes n kl ku := Or.inl (periodic_sizes_of_guard hkl hku h2)
    refine periodic_represents hL hs (.banded (Banded.new _ kl ku)) rfl (new_zero_banded _ _ _) A
      (periodic_leading_band (by omega) hA) hA hQ (by rintro ⟨p, hp⟩; cases hp) hps


/-! #### Block matrices -/

theorem corner_fill {α : Type*} [CommRing α] {n k : ℕ} (hk : k ≤ n) (q : Leaf α) (hqn : q.size = n - k)
    (hq0 : ∀ i j, q.get i j = 0) (A : ℕ → ℕ → α) (hq : q.Fits A)
    {ps : List (ℕ × ℕ)} (hps : Covers n A ps) :
    let c := ps.foldl (fun m p => m.set p.1 p.2 (A p.1 p.2)) (Corner.new n k q)
    c.Shape n k ∧ c.q.Fits A ∧ ∀ i < n, ∀ j < n, c.get i j = A i j := by
  have hshape : (Corner.new n k q).Shape n k := ⟨rfl, rfl, hk, hqn, rfl⟩
  have := fill_law (fun m : Corner α => m.get) (fun m i j v => m.set i j v)
    (fun m => m.Shape n k ∧ m.q.Fits A) n A
    (fun m i j hm hi hj => by
      obtain ⟨a, b⟩ := corner_set_law hm.1 A hm.2 hi hj
      exact ⟨⟨corner_set_shape hm.1 _ _ _, (corner_set_fits _ _ _ _ _).2 hm.2⟩, a, b⟩)
    ps hps.range (Corner.new n k q) ⟨hshape, hq⟩
  obtain ⟨⟨a, b⟩, c⟩ := this
  exact ⟨a, b, fun i hi j hj => c i hi j hj (hps.or hi hj (corner_new_get _ _ _ hq0 _ _))⟩

/-- The class of the `Q` block does not change when writing. -/
theorem corner_set_pds (c : Corner ℝ) (i j : ℕ) (v : ℝ) (h : ∃ p, (c.set i j v).q = .pds p) :
    ∃ p, c.q = .pds p := by
  obtain ⟨p, hp⟩ := h
  unfold Corner.set at hp
  rcases hq : c.q with md | mb | mp
  · rw [hq] at hp; split_ifs at hp <;> simp_all [Leaf.set]
  · rw [hq] at hp; split_ifs at hp <;> simp_all [Leaf.set]
  · exact ⟨mp, rfl⟩

theorem corner_represents {L : Lapack ℝ} (hL : LapackOk L) {n k : ℕ} (hk : k ≤ n)
    (q : Leaf ℝ) (hqn : q.size = n - k) (hq0 : ∀ i j, q.get i j = 0) (A : ℕ → ℕ → ℝ)
    (hq : q.Fits A) (hQ : (mat (n - k) A).det ≠ 0)
    (hpd : (∃ p, q = .pds p) → (mat (n - k) A).PosDef)
    {ps : List (ℕ × ℕ)} (hps : Covers n A ps) :
    Represents L n A ((Mat.corner (Corner.new n k q)).fill A ps) := by
  rw [mat_fill_corner]
  obtain ⟨hsh, hfit, hget⟩ := corner_fill hk q hqn hq0 A hq hps
  refine ⟨hget, fun hdet b => ?_⟩
  set c := ps.foldl (fun m p => m.set p.1 p.2 (A p.1 p.2)) (Corner.new n k q) with hc
  have hqget : ∀ i < c.q.size, ∀ j < c.q.size, c.q.get i j = A i j := by
    rw [hsh.q_size]
    intro i hi j hj
    rw [← hget i (by omega) j (by omega), corner_get_eq, hsh.nb_eq, blocks, if_pos hi, if_pos hj]
  have hreg : c.q.Regular := by
    refine leaf_regular_of hqget (by rw [hsh.q_size]; exact hQ) ?_
    intro p hp
    rw [hsh.q_size]
    refine hpd ?_
    have : ∀ (qs : List (ℕ × ℕ)) (m : Corner ℝ),
        (∃ p, (qs.foldl (fun m p => m.set p.1 p.2 (A p.1 p.2)) m).q = .pds p) →
          ∃ p, m.q = .pds p := by
      intro qs
      induction qs with
      | nil => intro m h; exact h
      | cons x qs ih =>
          intro m h
          rw [List.foldl_cons] at h
          exact corner_set_pds _ _ _ _ (ih _ h)
    exact this ps _ ⟨p, hp⟩
  have hsol := c20_corner_solve hL c (by rw [hsh.n_eq, hsh.k_eq]; exact hk)
    (by rw [hsh.q_size, hsh.nb_eq]) hreg (by rw [hsh.n_eq, mat_congr hget]; exact hdet) b
  rw [hsh.n_eq] at hsol
  exact ⟨⟨_, rfl, solves_congr hget hsol.1⟩,
    ⟨_, rfl, solves_congr (fun i hi j hj => hget j hj i hi) hsol.2⟩⟩

theorem centre_represents {L : Lapack ℝ} (hL : LapackOk L) {top q bottom : ℕ} (htq : top ≤ q)
    (Q : Leaf ℝ) (hqn : Q.size = q) (hq0 : ∀ i j, Q.get i j = 0) (A : ℕ → ℕ → ℝ)
    (hq : Q.Fits (fun i j => A (top + i) (top + j)))
    (hQ : (mat q (fun i j => A (top + i) (top + j))).det ≠ 0)
    (hpd : (∃ p, Q = .pds p) → (mat q (fun i j => A (top + i) (top + j))).PosDef)
    {ps : List (ℕ × ℕ)} (hps : Covers (top + q + bottom) A ps) :
    Represents L (top + q + bottom) A
      ((Mat.centre (Centre.new (top + q + bottom) top bottom Q)).fill A ps) := by
  rw [mat_fill_centre]
  obtain ⟨hsh, hget⟩ := centre_fill Q hqn hq0 A hq hps
  refine ⟨hget, fun hdet b => ?_⟩
  set m := ps.foldl (fun m p => m.set p.1 p.2 (A p.1 p.2)) (Centre.new (top + q + bottom) top bottom Q) with hm
  have hsz : m.base.q.size = q := by rw [hsh.base.q_size]; omega
  have hqget : ∀ i < m.base.q.size, ∀ j < m.base.q.size,
      m.base.q.get i j = (fun i j => A (top + i) (top + j)) i j := by
    rw [hsz]
    intro i hi j hj
    have hnb : m.base.nb = q := by rw [hsh.base.nb_eq]; omega
    have h1 := hget (top + i) (by omega) (top + j) (by omega)
    unfold Centre.get at h1
    rw [hsh.adjust_eq, hsh.adjust_eq] at h1
    have e : ∀ x < q, adjustIdx top q (top + x) = x := by
      intro x hx
      unfold adjustIdx
      rw [if_neg (by omega), if_pos (by omega)]; omega
    rw [e i hi, e j hj, corner_get_eq, hnb, blocks, if_pos hi, if_pos hj] at h1
    exact h1
  have hreg : m.base.q.Regular := by
    refine leaf_regular_of hqget (by rw [hsz]; exact hQ) ?_
    intro p hp
    rw [hsz]
    refine hpd ?_
    have : ∀ (qs : List (ℕ × ℕ)) (m : Centre ℝ),
        (∃ p, (qs.foldl (fun m p => m.set p.1 p.2 (A p.1 p.2)) m).base.q = .pds p) →
          ∃ p, m.base.q = .pds p := by
      intro qs
      induction qs with
      | nil => intro m h; exact h
      | cons x qs ih =>
          intro m h
          rw [List.foldl_cons] at h
          exact corner_set_pds _ _ _ _ (ih _ h)
    exact this ps _ ⟨p, hp⟩
  have s1 := c22_centre_solve hL htq Q hqn hq0 A hq hps hdet hreg b false
  have s2 := c22_centre_solve hL htq Q hqn hq0 A hq hps hdet hreg b true
  simp only [Bool.false_eq_true, if_false] at s1
  simp only [if_true] at s2
  exact ⟨s1, s2⟩

/-- **C26 (block, two blocks)** `make_new_block_with_banded_region` with a bottom block: the matrix can hold
every matrix whose central block (rows and columns `block1 ...`) is banded, and solves with it when that block
is non-singular and not smaller than the top block. -/
theorem c26_make_block {L : Lapack ℝ} (hL : LapackOk L) {q kl ku block1 block2 : ℕ} {pds : Bool}
    {A : ℕ → ℕ → ℝ} (hb2 : block2 ≠ 0) (htq : block1 ≤ q)
    (hA : ∀ i < q, ∀ j < q, i + ku < j ∨ j + kl < i → A (block1 + i) (block1 + j) = 0)
    (hpds : pds = true → (mat (block1 + q + block2) A).PosDef)
    (hQ : (mat q (fun i j => A (block1 + i) (block1 + j))).det ≠ 0)
    {ps : List (ℕ × ℕ)} (hps : Covers (block1 + q + block2) A ps) :
    Represents L (block1 + q + block2) A
      ((makeBlock (block1 + q + block2) kl ku pds block1 block2).fill A ps) := by
  have e : block1 + q + block2 - block1 - block2 = q := by omega
  unfold makeBlock
  simp only [e, hb2, if_false]
  split_ifs with h1 h2
  · obtain ⟨hp, rfl, rfl⟩ := h1
    have hblk := posdef_block (off := block1) (q := q) (hpds hp) (by omega)
    exact centre_represents hL htq (.pds (Pds.new q)) rfl (new_zero_pds _) A
      ⟨fun i hi j hj => posdef_symm hblk hi hj, hA⟩ hQ (fun _ => hblk) hps
  · exact leaf_represents hL (.dense (Dense.new _)) A trivial (new_zero_dense _) hps
      (by rintro ⟨p, hp⟩; cases hp)
  · exact centre_represents hL htq (.banded (Banded.new q kl ku)) rfl (new_zero_banded _ _ _) A hA hQ
      (by rintro ⟨p, hp⟩; cases hp) hps

/-- **C26 (block, one block)** `make_new_block_with_banded_region` with `block2_size = 0`: the matrix can hold every
matrix whose *leading* block of size `n - block1` is banded (dense rows and columns come last), and solves
with it. -/
theorem c26_make_corner {L : Lapack ℝ} (hL : LapackOk L) {n kl ku block1 : ℕ} {pds : Bool}
    {A : ℕ → ℕ → ℝ} (hb : block1 ≤ n)
    (hA : ∀ i < n - block1, ∀ j < n - block1, i + ku < j ∨ j + kl < i → A i j = 0)
    (hpds : pds = true → (mat n A).PosDef)
    (hQ : (mat (n - block1) A).det ≠ 0)
    {ps : List (ℕ × ℕ)} (hps : Covers n A ps) :
    Represents L n A ((makeBlock n kl ku pds block1 0).fill A ps) := by
  unfold makeBlock
  simp only [Nat.sub_zero, if_true]
  split_ifs with h1 h2
  · obtain ⟨hp, rfl, rfl⟩ := h1
    have hblk : (mat (n - block1) A).PosDef := by
      have := posdef_block (off := 0) (q := n - block1) (hpds hp) (by omega)
      simpa using this
    exact corner_represents hL hb (.pds (Pds.new _)) rfl (new_zero_pds _) A
      ⟨fun i hi j hj => posdef_symm hblk hi hj, hA⟩ hQ (fun _ => hblk) hps
  · exact leaf_represents hL (.dense (Dense.new _)) A trivial (new_zero_dense _) hps
      (by rintro ⟨p, hp⟩; cases hp)
  · exact corner_represents hL hb (.banded (Banded.new _ kl ku)) rfl (new_zero_banded _ _ _) A hA hQ
      (by rintro ⟨p, hp⟩; cases hp) hps

/-- **C26 (finding)** The documentation (matrix.hpp:146-167) places the block of size `block1_size` *before* the banded
region. With `block2_size = 0` the returned object stores the banded region first, and silently drops entries
of the documented dense rows: here row 0 is dense and everything else diagonal, yet `A(0,1) = 1` reads back
as 0. -/
theorem c26_doc_pattern_dropped : ∃ (n kl ku block1 : ℕ) (A : ℕ → ℕ → ℝ),
    (∀ i j, block1 ≤ i → block1 ≤ j → i + ku < j ∨ j + kl < i → A i j = 0) ∧
    ∀ ps, Covers n A ps → ((makeBlock n kl ku false block1 0).fill A ps).get 0 1 ≠ A 0 1 := by
  refine ⟨4, 0, 0, 1, fun i j => if i = 0 ∨ i = j then 1 else 0, ?_, ?_⟩
  · intro i j hi hj h
    have h1 : ¬ (i = 0 ∨ i = j) := by omega
    simp [h1]
  · intro ps hps
    have hm : (makeBlock 4 0 0 false 1 0 : Mat ℝ) = .corner (Corner.new 4 1 (.banded (Banded.new 3 0 0))) := by
      simp [makeBlock]
    rw [hm, mat_fill_corner]
    have key : ∀ (ps : List (ℕ × ℕ)) (c : Corner ℝ), c.n = 4 → c.k = 1 →
        (∃ m : Banded ℝ, c.q = .banded m ∧ m.kl = 0 ∧ m.ku = 0) → ∀ B : ℕ → ℕ → ℝ,
        (ps.foldl (fun m p => m.set p.1 p.2 (B p.1 p.2)) c).get 0 1 = 0 := by
      intro ps
      induction ps with
      | nil =>
          rintro c hn hk ⟨m, hq, h0, h1⟩ B
          have hnb : c.nb = 3 := by unfold Corner.nb; omega
          simp only [List.foldl_nil]
          unfold Corner.get
          rw [hnb, if_pos (by omega), hq]
          exact c24_banded_zero m (by omega)
      | cons p ps ih =>
          rintro c hn hk ⟨m, hq, h0, h1⟩ B
          rw [List.foldl_cons]
          refine ih _ ?_ ?_ ?_ B
          · unfold Corner.set; split_ifs <;> exact hn
          · unfold Corner.set; split_ifs <;> exact hk
          · unfold Corner.set
            split_ifs
            · refine ⟨m.set p.1 p.2 (B p.1 p.2), by rw [hq]; rfl, ?_, ?_⟩ <;>
                (unfold Banded.set; split_ifs <;> assumption)
            all_goals exact ⟨m, hq, h0, h1⟩
    have := key ps (Corner.new 4 1 (.banded (Banded.new 3 0 0))) rfl rfl
      ⟨Banded.new 3 0 0, rfl, rfl, rfl⟩ (fun i j => if i = 0 ∨ i = j then 1 else 0)
    intro hc
    change Corner.get _ 0 1 = _ at hc
    rw [this] at hc
    norm_num at hc

/-! ### The hypotheses are met by concrete matrices -/

/-- Every position of an `n × n` matrix: the usual double loop. -/
theorem covers_all (n : ℕ) (A : ℕ → ℕ → ℝ) :
    Covers n A ((List.range n).flatMap fun i => (List.range n).map fun j => (i, j)) := by
  refine ⟨?_, ?_⟩
  · intro p hp
    simp only [List.mem_flatMap, List.mem_range, List.mem_map] at hp
    obtain ⟨i, hi, j, hj, rfl⟩ := hp
    exact ⟨hi, hj⟩
  · intro i hi j hj _
    simp only [List.mem_flatMap, List.mem_range, List.mem_map]
    exact ⟨i, hi, j, hj, rfl⟩

/-- `c26_make_periodic` applies to the identity matrix of every size (with `kl = ku = 1`), through the
`Matrix_Periodic_Banded` class when `n` is large. -/
example {L : Lapack ℝ} (hL : LapackOk L) (n : ℕ) (hn : 8 ≤ n) :
    (∃ m, (makePeriodic n 1 1 false : Mat ℝ) = .periodic m) ∧
    Represents L n (fun i j => if i = j then 1 else 0) ((makePeriodic n 1 1 false).fill
      (fun i j => if i = j then 1 else 0)
      ((List.range n).flatMap fun i => (List.range n).map fun j => (i, j))) := by
  have hone : ∀ m, mat m (fun i j => if i = j then (1 : ℝ) else 0) = 1 := by
    intro m; ext i j; simp [mat, Matrix.one_apply, Fin.ext_iff]
  refine ⟨?_, c26_make_periodic hL (by omega) (by omega) ?_ (by simp) ?_ (covers_all n _)⟩
  · unfold makePeriodic
    simp only [Bool.false_eq_true, false_and, if_false]
    rw [if_neg]
    · exact ⟨_, rfl⟩
    · obtain ⟨r, rfl⟩ : ∃ r, n = r + 8 := ⟨n - 8, by omega⟩
      have : r + 8 - max 1 1 = r + 7 := by simp
      rw [this]; simp only [max_self]; nlinarith
  · intro i _ j _ h
    have : i ≠ j := by rintro rfl; exact h (Or.inl ⟨by omega, by omega⟩)
    simp [this]
  · rw [hone]; simp

end Verif.MatrixTools
