import Verif.Model.Matrix
import Verif.Spec.LinearSystem
import Verif.Props.Lagrange
import Mathlib.Algebra.BigOperators.Intervals
import Mathlib.Algebra.BigOperators.Ring.Finset
import Mathlib.Tactic.Ring
import Mathlib.Tactic.LinearCombination
import Mathlib.Tactic.Abel
import Mathlib.Tactic.NormNum
import Mathlib.LinearAlgebra.Matrix.SchurComplement
import Mathlib.Analysis.Matrix.PosDef
import Mathlib.Data.Real.Basic

/-!
# C20: the corner block solve solves the system
-/

namespace Verif.MatrixTools

open Verif.LinearSystem Finset

variable {α : Type*} [CommRing α]

theorem foldl_range_add (f : ℕ → α) (n : ℕ) (a : α) :
    (List.range n).foldl (fun acc j => acc + f j) a = a + ∑ j ∈ range n, f j := by
  induction n with
  | zero => simp
  | succ n ih => rw [List.range_succ, List.foldl_append, ih, Finset.sum_range_succ]; simp [add_assoc]

theorem foldl_range_sub (f : ℕ → α) (n : ℕ) (a : α) :
    (List.range n).foldl (fun acc j => acc - f j) a = a - ∑ j ∈ range n, f j := by
  induction n with
  | zero => simp
  | succ n ih =>
      rw [List.range_succ, List.foldl_append, ih, Finset.sum_range_succ]; simp; ring

theorem foldl_range'_add (f : ℕ → α) (s n : ℕ) (a : α) :
    (List.range' s n).foldl (fun acc j => acc + f j) a = a + ∑ j ∈ range n, f (s + j) := by
  induction n generalizing a s with
  | zero => simp
  | succ n ih =>
      rw [List.range'_succ, List.foldl_cons, ih, Finset.sum_range_succ']
      simp only [Nat.add_right_comm, Nat.add_assoc, add_zero, Nat.add_comm 1]; ring

theorem foldl_range'_sub (f : ℕ → α) (s n : ℕ) (a : α) :
    (List.range' s n).foldl (fun acc j => acc - f j) a = a - ∑ j ∈ range n, f (s + j) := by
  induction n generalizing a s with
  | zero => simp
  | succ n ih =>
      rw [List.range'_succ, List.foldl_cons, ih, Finset.sum_range_succ']
      simp only [Nat.add_right_comm, Nat.add_assoc, add_zero, Nat.add_comm 1]; ring

/-- The three virtual operations all use one and the same `k × nb` lower-left block `Lam`. -/
structure LamSpec (ops : LamOps α) (nb k : ℕ) (lam Lam : ℕ → ℕ → α) : Prop where
  delta : ∀ beta delta : ℕ → ℕ → α, ∀ i < k, ∀ j < k,
    ops.delta nb k lam beta delta i j = delta i j - ∑ l ∈ range nb, Lam i l * beta j l
  sec : ∀ v u : ℕ → α, ∀ i < k, ops.sec nb k lam v u i = v i - ∑ l ∈ range nb, Lam i l * u l
  secT : ∀ u v : ℕ → α, ∀ i < nb, ops.secT nb k lam u v i = u i - ∑ j ∈ range k, Lam j i * v j

theorem cornerOps_spec (nb k : ℕ) (lam : ℕ → ℕ → α) :
    LamSpec cornerOps nb k lam (fun i l => lam l i) := by
  refine ⟨?_, ?_, ?_⟩
  · intro beta delta i _ j _
    simp only [cornerOps, cornerDelta, foldl_range_add, zero_add]
  · intro v u i _
    simp only [cornerOps, cornerSec, foldl_range_sub]
  · intro u v i _
    simp only [cornerOps, cornerSecT, foldl_range_sub]

/-- Block forward/backward substitution is correct, for any lower-left block seen through the virtual
operations, whenever the two inner solvers are. -/
theorem factored_solve (ops : LamOps α) (f : Factored α) (Q G Lam D D' : ℕ → ℕ → α)
    (hops : LamSpec ops f.nb f.k f.lam Lam)
    (hq : ∀ b, Solves f.nb Q (f.qsolve false b) b)
    (hbeta : ∀ j < f.k, ∀ i < f.nb, ∑ l ∈ range f.nb, Q i l * f.beta j l = G i j)
    (hD' : ∀ i < f.k, ∀ j < f.k, D' i j = D i j - ∑ l ∈ range f.nb, Lam i l * f.beta j l)
    (hd : ∀ b, Solves f.k D' (f.dsolve false b) b) (b : ℕ → α) :
    Solves (f.nb + f.k) (blocks f.nb Q G Lam D) (f.solve ops b) b := by
  intro i hi
  set u := f.qsolve false b with hu
  set v := f.dsolve false (ops.sec f.nb f.k f.lam (fun i => b (f.nb + i)) u) with hv
  have hsol : f.solve ops b = joinUV f.nb (gammaSec f.k f.beta u v) v := rfl
  have hg : ∀ l, gammaSec f.k f.beta u v l = u l - ∑ j ∈ range f.k, f.beta j l * v j := by
    intro l; simp only [gammaSec, foldl_range_add, zero_add]
  rw [hsol, sum_range_add]
  have e1 : ∀ j ∈ range f.nb, blocks f.nb Q G Lam D i j * joinUV f.nb (gammaSec f.k f.beta u v) v j
      = (if i < f.nb then Q i j else Lam (i - f.nb) j) *
        (u j - ∑ m ∈ range f.k, f.beta m j * v m) := by
    intro j hj
    have hj' := mem_range.1 hj
    simp [blocks, joinUV, hj', hg]
  have e2 : ∀ j ∈ range f.k,
      blocks f.nb Q G Lam D i (f.nb + j) * joinUV f.nb (gammaSec f.k f.beta u v) v (f.nb + j)
      = (if i < f.nb then G i j else D (i - f.nb) j) * v j := by
    intro j _
    simp [blocks, joinUV]
  rw [sum_congr rfl e1, sum_congr rfl e2]
  have swap : ∀ R : ℕ → α, ∑ j ∈ range f.nb, R j * (u j - ∑ m ∈ range f.k, f.beta m j * v m)
      = ∑ j ∈ range f.nb, R j * u j
        - ∑ m ∈ range f.k, (∑ j ∈ range f.nb, R j * f.beta m j) * v m := by
    intro R
    simp only [mul_sub, sum_sub_distrib, mul_sum, sum_mul]
    rw [sum_comm]
    simp only [mul_assoc]
  rcases lt_or_ge i f.nb with h | h
  · simp only [h, if_true]
    rw [swap (Q i), hq b i h]
    have : ∑ m ∈ range f.k, (∑ j ∈ range f.nb, Q i j * f.beta m j) * v m
        = ∑ m ∈ range f.k, G i m * v m :=
      sum_congr rfl fun m hm => by rw [hbeta m (mem_range.1 hm) i h]
    rw [this]; ring
  · have h' : ¬ i < f.nb := not_lt.2 h
    have hk : i - f.nb < f.k := by omega
    simp only [h', if_false]
    rw [swap (Lam (i - f.nb))]
    have hrow := hd (ops.sec f.nb f.k f.lam (fun i => b (f.nb + i)) u) (i - f.nb) hk
    rw [← hv, hops.sec _ _ _ hk] at hrow
    have : ∑ j ∈ range f.k, D' (i - f.nb) j * v j = ∑ j ∈ range f.k, D (i - f.nb) j * v j
        - ∑ m ∈ range f.k, (∑ j ∈ range f.nb, Lam (i - f.nb) j * f.beta m j) * v m := by
      rw [← sum_sub_distrib]
      exact sum_congr rfl fun m hm => by rw [hD' _ hk _ (mem_range.1 hm)]; ring
    rw [this, Nat.add_sub_cancel' h] at hrow
    linear_combination hrow

/-- The same for the transposed solve. -/
theorem factored_solveT (ops : LamOps α) (f : Factored α) (Q G Lam D D' : ℕ → ℕ → α)
    (hops : LamSpec ops f.nb f.k f.lam Lam)
    (hq : ∀ b, Solves f.nb (transpose Q) (f.qsolve true b) b)
    (hbeta : ∀ j < f.k, ∀ i < f.nb, ∑ l ∈ range f.nb, Q i l * f.beta j l = G i j)
    (hD' : ∀ i < f.k, ∀ j < f.k, D' i j = D i j - ∑ l ∈ range f.nb, Lam i l * f.beta j l)
    (hd : ∀ b, Solves f.k (transpose D') (f.dsolve true b) b) (b : ℕ → α) :
    Solves (f.nb + f.k) (transpose (blocks f.nb Q G Lam D)) (f.solveT ops b) b := by
  intro i hi
  set e := f.dsolve true (gammaSecT f.nb f.beta (fun i => b (f.nb + i)) b) with he
  set u := ops.secT f.nb f.k f.lam b e with hu
  set d := f.qsolve true u with hdd
  have hsol : f.solveT ops b = joinUV f.nb d e := rfl
  rw [hsol, sum_range_add]
  have e1 : ∀ j ∈ range f.nb, transpose (blocks f.nb Q G Lam D) i j * joinUV f.nb d e j
      = (if i < f.nb then Q j i else G j (i - f.nb)) * d j := by
    intro j hj
    have hj' := mem_range.1 hj
    simp [transpose, blocks, joinUV, hj']
  have e2 : ∀ j ∈ range f.k,
      transpose (blocks f.nb Q G Lam D) i (f.nb + j) * joinUV f.nb d e (f.nb + j)
      = (if i < f.nb then Lam j i else D j (i - f.nb)) * e j := by
    intro j _
    simp [transpose, blocks, joinUV]
  rw [sum_congr rfl e1, sum_congr rfl e2]
  have hQ : ∀ l < f.nb, ∑ j ∈ range f.nb, Q j l * d j = b l - ∑ j ∈ range f.k, Lam j l * e j := by
    intro l hl
    have := hq u l hl
    rw [← hdd] at this
    rw [← hops.secT b e l hl, ← hu]
    exact this
  rcases lt_or_ge i f.nb with h | h
  · simp only [h, if_true]
    rw [hQ i h]; ring
  · have h' : ¬ i < f.nb := not_lt.2 h
    have hk : i - f.nb < f.k := by omega
    simp only [h', if_false]
    set m := i - f.nb with hm
    have hrow := hd (gammaSecT f.nb f.beta (fun i => b (f.nb + i)) b) m hk
    rw [← he] at hrow
    simp only [transpose, gammaSecT, foldl_range_add, zero_add] at hrow
    have t1 : ∑ j ∈ range f.nb, G j m * d j
        = ∑ l ∈ range f.nb, f.beta m l * (b l - ∑ j ∈ range f.k, Lam j l * e j) := by
      calc ∑ j ∈ range f.nb, G j m * d j
          = ∑ j ∈ range f.nb, (∑ l ∈ range f.nb, Q j l * f.beta m l) * d j :=
            sum_congr rfl fun j hj => by rw [hbeta m hk j (mem_range.1 hj)]
        _ = ∑ l ∈ range f.nb, f.beta m l * ∑ j ∈ range f.nb, Q j l * d j := by
            simp only [sum_mul, mul_sum]
            rw [sum_comm]
            exact sum_congr rfl fun l _ => sum_congr rfl fun j _ => by ring
        _ = _ := sum_congr rfl fun l hl => by rw [hQ l (mem_range.1 hl)]
    have t2 : ∑ j ∈ range f.k, D' j m * e j = ∑ j ∈ range f.k, D j m * e j
        - ∑ l ∈ range f.nb, f.beta m l * ∑ j ∈ range f.k, Lam j l * e j := by
      have : ∑ l ∈ range f.nb, f.beta m l * ∑ j ∈ range f.k, Lam j l * e j
          = ∑ j ∈ range f.k, (∑ l ∈ range f.nb, Lam j l * f.beta m l) * e j := by
        simp only [sum_mul, mul_sum]
        rw [sum_comm]
        exact sum_congr rfl fun l _ => sum_congr rfl fun j _ => by ring
      rw [this, ← sum_sub_distrib]
      exact sum_congr rfl fun j hj => by rw [hD' _ (mem_range.1 hj) _ hk]; ring
    rw [t2, Nat.add_sub_cancel' h] at hrow
    rw [t1]
    simp only [mul_sub, sum_sub_distrib]
    linear_combination hrow

/-- Entries of a corner block matrix as a block matrix. -/
theorem corner_get_eq (c : Corner α) (i j : ℕ) :
    c.get i j = blocks c.nb c.q.get (fun i j => c.gamma j i) (fun i l => c.lam l i) c.delta.get i j := by
  unfold Corner.get blocks
  by_cases h1 : i < c.nb <;> by_cases h2 : j < c.nb <;>
    simp [h1, h2, not_lt.1, not_le.2]

/-! ### LAPACK's contract and its consequences -/

/-- LAPACK's documented contract. `ge`/`gb`: if the matrix is non-singular, the vector returned solves the
(transposed) system. `pt`: the same for symmetric positive definite (tridiagonal) matrices. -/
structure LapackOk (L : Lapack ℝ) : Prop where
  ge : ∀ n A, (mat n A).det ≠ 0 →
    ∀ b, Solves n A (L.ge n A false b) b ∧ Solves n (transpose A) (L.ge n A true b) b
  gb : ∀ n A, (mat n A).det ≠ 0 →
    ∀ b, Solves n A (L.gb n A false b) b ∧ Solves n (transpose A) (L.gb n A true b) b
  pt : ∀ n A, (mat n A).PosDef → ∀ b, Solves n A (L.pt n A b) b

/-- The condition under which the class promises a solution: non singular, and positive definite for the
positive definite class. -/
def Leaf.Regular (m : Leaf ℝ) : Prop :=
  match m with
  | .dense m => (mat m.n m.get).det ≠ 0
  | .banded m => (mat m.n m.get).det ≠ 0
  | .pds m => (mat m.n m.get).PosDef

theorem leaf_det_ne {m : Leaf ℝ} (h : m.Regular) : (mat m.size m.get).det ≠ 0 := by
  cases m with
  | dense m => exact h
  | banded m => exact h
  | pds m => exact (Matrix.PosDef.det_pos h).ne'

theorem leaf_solve {L : Lapack ℝ} (hL : LapackOk L) {m : Leaf ℝ} (h : m.Regular) (b : ℕ → ℝ) :
    Solves m.size m.get (m.solve L false b) b ∧
      Solves m.size (transpose m.get) (m.solve L true b) b := by
  cases m with
  | dense m => exact hL.ge _ _ h b
  | banded m => exact hL.gb _ _ h b
  | pds m =>
      have hs := hL.pt _ _ h b
      refine ⟨hs, fun i hi => ?_⟩
      rw [← hs i hi]
      refine sum_congr rfl fun j hj => ?_
      have := h.isHermitian
      have h2 := congrFun (congrFun this ⟨i, hi⟩) ⟨j, mem_range.1 hj⟩
      simp only [Matrix.conjTranspose_apply, star_trivial, mat] at h2
      rw [transpose]
      change m.get j i * _ = _
      rw [h2]; rfl

/-- The determinant of a block matrix in terms of the Schur complement built from `beta = Q⁻¹ G`. -/
theorem det_blocks (nb k : ℕ) (Q G Lam D beta : ℕ → ℕ → ℝ) (hQ : (mat nb Q).det ≠ 0)
    (hbeta : ∀ j < k, ∀ i < nb, ∑ l ∈ range nb, Q i l * beta j l = G i j) :
    (mat (nb + k) (blocks nb Q G Lam D)).det = (mat nb Q).det *
      (mat k (fun i j => D i j - ∑ l ∈ range nb, Lam i l * beta j l)).det := by
  have hiso : (mat (nb + k) (blocks nb Q G Lam D)).submatrix finSumFinEquiv finSumFinEquiv
      = Matrix.fromBlocks (mat nb Q) (Matrix.of fun (i : Fin nb) (j : Fin k) => G i j)
        (Matrix.of fun (i : Fin k) (j : Fin nb) => Lam i j) (mat k D) := by
    ext i j
    rcases i with i | i <;> rcases j with j | j <;> simp [mat, blocks]
  rw [← Matrix.det_submatrix_equiv_self finSumFinEquiv, hiso]
  letI : Invertible (mat nb Q) := Matrix.invertibleOfIsUnitDet _ (isUnit_iff_ne_zero.2 hQ)
  rw [Matrix.det_fromBlocks₁₁]
  congr 2
  have hG : (Matrix.of fun (i : Fin nb) (j : Fin k) => G i j)
      = mat nb Q * (Matrix.of fun (i : Fin nb) (j : Fin k) => beta j i) := by
    ext i j
    rw [Matrix.mul_apply, Matrix.of_apply, ← hbeta j j.2 i i.2, Finset.sum_range]
    rfl
  rw [hG, Matrix.mul_assoc, ← Matrix.mul_assoc (⅟ _), invOf_mul_self, Matrix.one_mul]
  ext i j
  simp [mat, Matrix.mul_apply, Finset.sum_range]

/-- Correctness of the whole corner block pipeline for any vtable whose three operations agree on the
lower-left block. -/
theorem corner_pipeline {L : Lapack ℝ} (hL : LapackOk L) (ops : LamOps ℝ) (c : Corner ℝ)
    (Lam : ℕ → ℕ → ℝ) (hops : LamSpec ops c.nb c.k c.lam Lam)
    (hk : c.k ≤ c.n) (hsz : c.q.size = c.nb)
    (hq : c.q.Regular)
    (hA : (mat c.n (blocks c.nb c.q.get (fun i j => c.gamma j i) Lam c.delta.get)).det ≠ 0)
    (b : ℕ → ℝ) :
    let A := blocks c.nb c.q.get (fun i j => c.gamma j i) Lam c.delta.get
    Solves c.n A ((c.factorise L ops).solve ops b) b ∧
      Solves c.n (transpose A) ((c.factorise L ops).solveT ops b) b := by
  intro A
  set f := c.factorise L ops with hf
  have hn : f.nb + f.k = c.n := by
    change c.nb + c.k = c.n
    unfold Corner.nb; omega
  have hqs : ∀ b, Solves f.nb c.q.get (f.qsolve false b) b := fun b => by
    have := (leaf_solve hL hq b).1
    rw [hsz] at this; exact this
  have hqt : ∀ b, Solves f.nb (transpose c.q.get) (f.qsolve true b) b := fun b => by
    have := (leaf_solve hL hq b).2
    rw [hsz] at this; exact this
  have hbeta : ∀ j < f.k, ∀ i < f.nb, ∑ l ∈ range f.nb, c.q.get i l * f.beta j l
      = (fun i j => c.gamma j i) i j := fun j _ i hi => hqs (c.gamma j) i hi
  set D' := ops.delta c.nb c.k c.lam f.beta c.delta.get with hD'def
  have hD' : ∀ i < f.k, ∀ j < f.k,
      D' i j = c.delta.get i j - ∑ l ∈ range f.nb, Lam i l * f.beta j l :=
    fun i hi j hj => hops.delta _ _ i hi j hj
  have hdetQ : (mat f.nb c.q.get).det ≠ 0 := by
    have := leaf_det_ne hq
    rw [hsz] at this; exact this
  have hdet := det_blocks f.nb f.k c.q.get (fun i j => c.gamma j i) Lam c.delta.get f.beta hdetQ hbeta
  rw [hn] at hdet
  have hschur : (mat f.k D').det ≠ 0 := by
    have : mat f.k D' = mat f.k
        (fun i j => c.delta.get i j - ∑ l ∈ range f.nb, Lam i l * f.beta j l) := by
      ext i j
      exact hD' i i.2 j j.2
    rw [this]
    intro h0
    rw [h0, mul_zero] at hdet
    exact hA hdet
  have hds : ∀ b, Solves f.k D' (f.dsolve false b) b := fun b => (hL.ge _ _ hschur b).1
  have hdt : ∀ b, Solves f.k (transpose D') (f.dsolve true b) b := fun b => (hL.ge _ _ hschur b).2
  have r1 := factored_solve ops f c.q.get _ Lam c.delta.get D' hops hqs hbeta hD' hds b
  have r2 := factored_solveT ops f c.q.get _ Lam c.delta.get D' hops hqt hbeta hD' hdt b
  rw [hn] at r1 r2
  exact ⟨r1, r2⟩

/-- **C20** `Matrix_Corner_Block`: after `factorise`, `solve_inplace` (resp. `solve_transpose_inplace`) returns the
solution of the system (resp. transposed system) whose matrix is the one read with `get_element`, for
every non-singular matrix whose `Q` block is non-singular (positive definite if `Q` is stored as such), all
sizes and all right hand sides. -/
theorem c20_corner_solve {L : Lapack ℝ} (hL : LapackOk L) (c : Corner ℝ) (hk : c.k ≤ c.n)
    (hsz : c.q.size = c.nb) (hq : c.q.Regular) (hA : (mat c.n c.get).det ≠ 0) (b : ℕ → ℝ) :
    Solves c.n c.get ((c.factorise L cornerOps).solve cornerOps b) b ∧
      Solves c.n (transpose c.get) ((c.factorise L cornerOps).solveT cornerOps b) b := by
  have hget : c.get = blocks c.nb c.q.get (fun i j => c.gamma j i) (fun i l => c.lam l i) c.delta.get := by
    funext i j; exact corner_get_eq c i j
  rw [hget] at hA ⊢
  exact corner_pipeline hL cornerOps c _ (cornerOps_spec _ _ _) hk hsz hq hA b

/-- `Matrix_Corner_Block::solve_multiple_inplace`: every one of the `rows` systems stored contiguously is
replaced by what `solve_inplace` computes for it, and nothing outside is written. -/
theorem c20_solve_multiple (ops : LamOps α) (f : Factored α) (rows : ℕ) (bx : ℕ → α) :
    (∀ i < rows, ∀ p < f.nb + f.k, f.solveMultiple ops rows bx ((f.nb + f.k) * i + p)
        = f.solve ops (fun p => bx ((f.nb + f.k) * i + p)) p) ∧
      ∀ p, (f.nb + f.k) * rows ≤ p → f.solveMultiple ops rows bx p = bx p := by
  induction rows with
  | zero => exact ⟨fun i hi => absurd hi (Nat.not_lt_zero i), fun p _ => by simp [Factored.solveMultiple]⟩
  | succ r ih =>
      obtain ⟨ih1, ih2⟩ := ih
      set n := f.nb + f.k with hn
      have step : f.solveMultiple ops (r + 1) bx = fun p =>
          if n * r ≤ p ∧ p < n * r + n then
            f.solve ops (fun p => f.solveMultiple ops r bx (n * r + p)) (p - n * r)
          else f.solveMultiple ops r bx p := by
        unfold Factored.solveMultiple
        rw [List.range_succ, List.foldl_append]
        rfl
      have hsame : (fun p => f.solveMultiple ops r bx (n * r + p)) = fun p => bx (n * r + p) := by
        funext p
        exact ih2 _ (Nat.le_add_right _ _)
      rw [step, hsame]
      refine ⟨fun i hi p hp => ?_, fun p hp => ?_⟩
      · rcases Nat.lt_succ_iff_lt_or_eq.1 hi with h | h
        · have h3 : n * i + p < n * r := by
            calc n * i + p < n * i + n := by omega
              _ = n * (i + 1) := by ring
              _ ≤ n * r := Nat.mul_le_mul_left _ h
          have h4 : ¬ (n * r ≤ n * i + p ∧ n * i + p < n * r + n) := by omega
          simp only [h4, if_false]
          exact ih1 i h p hp
        · subst h
          have h4 : n * i ≤ n * i + p ∧ n * i + p < n * i + n := by omega
          simp only [h4]
          simp
      · have h5 : n * (r + 1) = n * r + n := by ring
        have h4 : ¬ (n * r ≤ p ∧ p < n * r + n) := by omega
        simp only [h4, if_false]
        exact ih2 p (by omega)

/-- A LAPACK meeting the contract exists, so the theorems above are not vacuous. -/
theorem lapackOk_exists : ∃ L : Lapack ℝ, LapackOk L := by
  classical
  let sol : (n : ℕ) → (ℕ → ℕ → ℝ) → (ℕ → ℝ) → (ℕ → ℝ) := fun n A b i =>
    if h : i < n then Matrix.mulVec (mat n A)⁻¹ (fun j : Fin n => b j) ⟨i, h⟩ else 0
  have key : ∀ n A, (mat n A).det ≠ 0 → ∀ b, Solves n A (sol n A b) b := by
    intro n A h b i hi
    have hu : IsUnit (mat n A).det := isUnit_iff_ne_zero.2 h
    have h1 : Matrix.mulVec (mat n A) (Matrix.mulVec (mat n A)⁻¹ (fun j : Fin n => b j))
        = fun j : Fin n => b j := by
      rw [Matrix.mulVec_mulVec, Matrix.mul_nonsing_inv _ hu, Matrix.one_mulVec]
    have h2 := congrFun h1 ⟨i, hi⟩
    rw [Finset.sum_range, ← h2]
    simp [Matrix.mulVec, dotProduct, sol, mat]
  have keyT : ∀ n A, (mat n A).det ≠ 0 → ∀ b, Solves n (transpose A) (sol n (transpose A) b) b := by
    intro n A h b
    refine key n _ ?_ b
    have : mat n (transpose A) = (mat n A).transpose := rfl
    rw [this, Matrix.det_transpose]; exact h
  refine ⟨⟨fun n A t b => if t then sol n (transpose A) b else sol n A b,
    fun n A t b => if t then sol n (transpose A) b else sol n A b, sol⟩, ?_, ?_, ?_⟩
  · intro n A h b; exact ⟨key n A h b, keyT n A h b⟩
  · intro n A h b; exact ⟨key n A h b, keyT n A h b⟩
  · intro n A h b; exact key n A h.det_pos.ne' b

/-- A concrete non-trivial corner block matrix satisfying every hypothesis of `c20_corner_solve`:
`[[2, 1], [1, 3]]` with a `1 × 1` dense `Q` and `k = 1`. -/
example : let c : Corner ℝ := ((((Corner.new 2 1 (.dense (Dense.new 1))).set 0 0 2).set 0 1 1).set 1 0 1).set 1 1 3
    c.k ≤ c.n ∧ c.q.size = c.nb ∧ c.q.Regular ∧ (mat c.n c.get).det ≠ 0 := by
  intro c
  have g00 : c.get 0 0 = 2 := by
    simp [c, Corner.get, Corner.set, Corner.new, Corner.nb, Dense.new, Leaf.set, Leaf.get, Dense.set,
      Dense.get, update2]
  have g01 : c.get 0 1 = 1 := by
    simp [c, Corner.get, Corner.set, Corner.new, Corner.nb, Dense.new, Leaf.set, Leaf.get, Dense.set,
      Dense.get, update2]
  have g10 : c.get 1 0 = 1 := by
    simp [c, Corner.get, Corner.set, Corner.new, Corner.nb, Dense.new, Leaf.set, Leaf.get, Dense.set,
      Dense.get, update2]
  have g11 : c.get 1 1 = 3 := by
    simp [c, Corner.get, Corner.set, Corner.new, Corner.nb, Dense.new, Leaf.set, Leaf.get, Dense.set,
      Dense.get, update2]
  have hn : c.n = 2 := by
    simp [c, Corner.set, Corner.new, Corner.nb]
  have hk : c.k = 1 := by
    simp [c, Corner.set, Corner.new, Corner.nb]
  have hq : c.q = .dense ⟨1, Function.update (fun _ => 0) 0 2⟩ := by
    simp [c, Corner.set, Corner.new, Corner.nb, Leaf.set, Dense.set, Dense.new]
  refine ⟨by omega, ?_, ?_, ?_⟩
  · rw [hq]; simp [Leaf.size, Corner.nb, hn, hk]
  · rw [hq]; simp [Leaf.Regular, mat, Matrix.det_fin_one, Dense.get]
  · rw [hn, Matrix.det_fin_two]
    simp [mat, g00, g01, g10, g11]; norm_num

end Verif.MatrixTools
