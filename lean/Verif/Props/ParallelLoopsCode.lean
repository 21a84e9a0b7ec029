import Verif.Props.ParallelLoops
import Verif.Props.Transpose
import Verif.Props.PolarFem
import Verif.Model.Advection

/-! # C96: the loops of the code -/

namespace Verif.Parallel
open Prog

/-! ## Quadrature coefficients -/

/-- The trapezoid loop (`trapMiddle` of C13) under every schedule. -/
theorem c96_trapezoid (x : ℕ → ℝ) (hi : ℕ) (m m' : ℕ → ℝ) (h : Outcome (fun i : Fin (hi - 1) => trapBody x i) m m') : m' = Quadrature.trapMiddle x hi m := by
  have rf : RaceFree ∅ (fun i : Fin (hi - 1) => {(i : ℕ) + 1}) ∅ (fun i : Fin (hi - 1) => trapBody x i) :=
    ⟨fun i => ⟨rfl, trivial⟩, fun i j l h1 h2 => by
      simp only [Set.mem_singleton_iff] at h1 h2
      exact Fin.ext (by omega), fun _ _ h => h.elim, fun _ h => h.elim, fun _ _ h => h.elim⟩
  obtain ⟨a, -, c⟩ := c96_outcome rf h
  funext l
  unfold Quadrature.trapMiddle
  split
  · rename_i hl
    have e : l = (⟨l - 1, by omega⟩ : Fin (hi - 1)).val + 1 := by simp only; omega
    rw [a ⟨l - 1, by omega⟩ l e]
    have e' : l - 1 + 1 = l := by omega
    simp [trapBody, run, e']
  · rename_i hl
    refine c l (fun h => h.elim) fun i hi' => hl ?_
    simp only [Set.mem_singleton_iff] at hi'
    have := i.2
    omega

theorem centreLeft_raceFree (x : ℕ → ℝ) (n : ℕ) : RaceFree ∅ (fun i : Fin n => (fun i : ℕ => ({2 * i, 2 * i + 1} : Set ℕ)) i) ∅ (fun i : Fin n => centreLeftBody x i) := by
  refine ⟨fun i => ⟨?_, ?_, trivial⟩, fun i j l h1 h2 => ?_, fun _ _ h => h.elim, fun _ h => h.elim, fun _ _ h => h.elim⟩
  · simp only [Set.mem_insert_iff, Set.mem_singleton_iff]; omega
  · simp only [Set.mem_insert_iff, Set.mem_singleton_iff]; omega
  · simp only [Set.mem_insert_iff, Set.mem_singleton_iff] at h1 h2
    exact Fin.ext (by omega)

/-- The Simpson loop "centre_left" (`centreLeft` of C14) under every schedule. -/
theorem c96_simpson_centre_left (x : ℕ → ℝ) (n : ℕ) (m m' : ℕ → ℝ) (h : Outcome (fun i : Fin n => centreLeftBody x i) m m') : m' = Quadrature.centreLeft x n m := by
  rw [c96_range (W := fun i => {2 * i, 2 * i + 1}) (centreLeft_raceFree x n) h]
  clear h
  induction n with
  | zero => rfl
  | succ n ih =>
    rw [List.range_succ, List.foldl_append, ih]
    simp only [List.foldl_cons, List.foldl_nil, Quadrature.centreLeft, centreLeftBody, run]
    funext l
    simp only [Quadrature.write, Function.update_apply]
    rw [show n * 2 + 1 - 1 = 2 * n by omega, show n * 2 + 1 = 2 * n + 1 by omega]

theorem overlap_raceFree (x : ℕ → ℝ) (n : ℕ) : RaceFree ∅ (fun i : Fin n => (fun i : ℕ => ({2 * i + 2} : Set ℕ)) i) ∅ (fun i : Fin n => overlapBody x i) := by
  refine ⟨fun i => ⟨Or.inr ?_, fun v => ⟨?_, trivial⟩⟩, fun i j l h1 h2 => ?_, fun _ _ h => h.elim, fun _ h => h.elim, fun _ _ h => h.elim⟩
  · simp only [Set.mem_singleton_iff]; omega
  · simp only [Set.mem_singleton_iff]; omega
  · simp only [Set.mem_singleton_iff] at h1 h2
    exact Fin.ext (by omega)

/-- The Simpson loop "overlap_increment" (`overlap` of C14) under every schedule. -/
theorem c96_simpson_overlap (x : ℕ → ℝ) (n : ℕ) (m m' : ℕ → ℝ) (h : Outcome (fun i : Fin n => overlapBody x i) m m') : m' = Quadrature.overlap x n m := by
  rw [c96_range (W := fun i => {2 * i + 2}) (overlap_raceFree x n) h]
  clear h
  induction n with
  | zero => rfl
  | succ n ih =>
    rw [List.range_succ, List.foldl_append, ih]
    simp only [List.foldl_cons, List.foldl_nil, Quadrature.overlap, overlapBody, run]
    funext l
    simp only [Quadrature.write, Function.update_apply]
    rw [show n * 2 + 1 + 1 = 2 * n + 2 by omega, show n * 2 + 1 = 2 * n + 1 by omega]

/-- The two loops in one: what the comment of simpson_quadrature.hpp:53 warns against. -/
noncomputable def fusedBody (x : ℕ → ℝ) (i : ℕ) : Prog ℕ ℝ := andThen (centreLeftBody x i) (overlapBody x i)

/-- Why the loops are separate: in one loop, two iterations suffice to have an outcome that differs from that of the separate loops (the second iteration runs first, its
store is then overwritten or not depending on the schedule). -/
theorem c96_simpson_fused_race : ∃ (x m m1 m2 : ℕ → ℝ), Outcome (fun i : Fin 2 => fusedBody x i) m m1 ∧ Outcome (fun i : Fin 2 => fusedBody x i) m m2 ∧ m1 2 ≠ m2 2 := by
  have order : ∀ (o : List (Fin 2)), o.Nodup → (∀ i, i ∈ o) → ∀ (x m : ℕ → ℝ), Outcome (fun i : Fin 2 => fusedBody x i) m (o.foldl (fun (m : ℕ → ℝ) (i : Fin 2) => run (fusedBody x i) m) m) := by
    intro o hn ha x m
    have := reach_list o (⟨fun i : Fin 2 => fusedBody x i, m⟩ : State (Fin 2) ℕ ℝ) hn
    simp only [ha, if_true] at this
    exact this
  refine ⟨fun i => i, fun _ => 0, _, _, order [0, 1] (by decide) (by decide) _ _, order [1, 0] (by decide) (by decide) _ _, ?_⟩
  simp [fusedBody, run_andThen, run, centreLeftBody, overlapBody, Function.update_apply, Quadrature.simpL, Quadrature.simpR, Quadrature.simpC, Quadrature.dL, Quadrature.dR]
  norm_num

/-- Without atomic operations, two iterations that do `+=` on the same location can lose an update: this is why `fem_1d_poisson_solver.hpp:460` uses an atomic addition. -/
theorem c96_lost_update (m : ℕ → ℝ) (a b : ℝ) :
    Outcome (fun i : Bool => Prog.read 0 fun v => .write 0 (v + if i then a else b) .done) m (Function.update m 0 (m 0 + a)) := by
  unfold Outcome
  refine .head (Step.read _ true 0 _ rfl) (.head (Step.read _ false 0 _ rfl) (.head (Step.write _ false 0 _ _ rfl) (.head (Step.write _ true 0 (m 0 + a) .done rfl) ?_)))
  have : ∀ s t : State Bool ℕ ℝ, s = t → Relation.ReflTransGen Step s t := fun s t h => h ▸ .refl
  refine this _ _ ?_
  simp only [State.mk.injEq]
  constructor
  · funext i
    cases i <;> rfl
  · funext l
    by_cases e : l = 0
    · subst e; simp
    · simp [Function.update_apply, e]

/-! ## FEM right-hand side -/

/-- The accumulation of the right-hand side of the 1D FEM solver under every schedule: for each batch element the result is that of the serial loop (`Fem.rhs` of C52), added
to the content of the field, which is filled with zeros before the loop. -/
theorem c96_fem_rhs {B : Type*} [Fintype B] [DecidableEq B] (degree nbasis nq : ℕ) (pts : Fin nq → Fem.Pt) (rho : B → Fem.Pt → ℝ) (m' : B × ℕ → ℝ)
    (h : Outcome (fun t : B × Fin nq => femBody degree nbasis rho t.1 (pts t.2)) (fun _ => 0) m') (b : B) (j : ℕ) :
    m' (b, j) = Fem.rhs degree nbasis (List.ofFn pts) (rho b) j := by
  have rf : RaceFree ∅ (fun _ : B × Fin nq => ∅) Set.univ (fun t : B × Fin nq => femBody degree nbasis rho t.1 (pts t.2)) :=
    ⟨fun i => within_forEach fun a _ => ⟨trivial, trivial⟩, fun _ _ _ h => h.elim, fun _ _ h => h.elim, fun _ _ h => h, fun _ _ _ h => h⟩
  obtain ⟨-, hA, -⟩ := c96_outcome rf h
  rw [hA (b, j) trivial, zero_add]
  -- what one iteration adds
  have one : ∀ (s : List ℕ) (b' : B) (p : Fem.Pt) (m : B × ℕ → ℝ),
      added (b, j) (forEach (fun j => .atomicAdd (b', Fem.wrapDown nbasis (p.jmin + j)) (rho b' p * p.vals j * p.w) .done) s) m =
        if b' = b then (s.map fun k => if j = Fem.wrapDown nbasis (p.jmin + k) then rho b p * p.vals k * p.w else 0).sum else 0 := by
    intro s b' p
    induction s with
    | nil => intro m; simp [forEach, added]
    | cons a s ih =>
      intro m
      simp only [forEach, andThen, added, ih, List.map_cons, List.sum_cons]
      by_cases e : b' = b
      · subst e
        simp only [Prod.mk.injEq, true_and, if_true]
        congr 1
        by_cases e2 : j = Fem.wrapDown nbasis (p.jmin + a)
        · simp [← e2]
        · simp [e2, Ne.symm e2]
      · simp [e]
  have model : ∀ (P : List Fem.Pt) (c : ℕ → ℝ), P.foldl (fun b' p => (List.range (degree + 1)).foldl (fun b' k =>
      let jIdx := Fem.wrapDown nbasis (p.jmin + k)
      fun i => if i = jIdx then b' i + rho b p * p.vals k * p.w else b' i) b') c j =
      c j + (P.map fun p => ((List.range (degree + 1)).map fun k => if j = Fem.wrapDown nbasis (p.jmin + k) then rho b p * p.vals k * p.w else 0).sum).sum := by
    have inner : ∀ (p : Fem.Pt) (s : List ℕ) (c : ℕ → ℝ), s.foldl (fun b' k =>
        let jIdx := Fem.wrapDown nbasis (p.jmin + k)
        fun i => if i = jIdx then b' i + rho b p * p.vals k * p.w else b' i) c j =
        c j + (s.map fun k => if j = Fem.wrapDown nbasis (p.jmin + k) then rho b p * p.vals k * p.w else 0).sum := by
      intro p s
      induction s with
      | nil => intro c; simp
      | cons a s ih =>
        intro c
        rw [List.foldl_cons, ih]
        simp only [List.map_cons, List.sum_cons]
        split <;> ring
    intro P
    induction P with
    | nil => intro c; simp
    | cons p P ih =>
      intro c
      rw [List.foldl_cons, ih, inner]
      simp only [List.map_cons, List.sum_cons]
      ring
  unfold Fem.rhs
  rw [model, zero_add, List.map_ofFn, List.sum_ofFn, Fintype.sum_prod_type]
  have : ∀ b' : B, ∑ q : Fin nq, added (b, j) (femBody degree nbasis rho b' (pts q)) (fun _ => 0) =
      if b' = b then ∑ q : Fin nq, ((List.range (degree + 1)).map fun k => if j = Fem.wrapDown nbasis ((pts q).jmin + k) then rho b (pts q) * (pts q).vals k * (pts q).w else 0).sum else 0 := by
    intro b'
    simp only [femBody, one]
    split <;> simp
  simp only [this]
  rw [Finset.sum_ite_eq']
  simp

/-! ## Tridiagonal solver -/

/-- The locations of batch `k`. -/
def triOwn (k : ℕ) : Set TriLoc := {l | match l with | .cprim k' _ => k' = k | .dprim k' _ => k' = k | .b k' _ => k' = k}

section tri
variable {α : Type*} [Field α]

theorem tri_within (n : ℕ) (sub diag upp : ℕ → ℕ → α) (k : ℕ) : Within ∅ (triOwn k) ∅ (triBody n sub diag upp k) := by
  unfold triBody
  refine ⟨rfl, Or.inr rfl, fun _ => ⟨rfl, within_andThen (within_forEach fun j _ => ?_) ⟨Or.inr rfl, fun _ => ⟨rfl, within_forEach fun i _ => ?_⟩⟩⟩⟩
  · exact ⟨Or.inr rfl, fun _ => ⟨rfl, Or.inr rfl, fun _ => ⟨Or.inr rfl, fun _ => ⟨Or.inr rfl, fun _ => ⟨rfl, trivial⟩⟩⟩⟩⟩
  · exact ⟨Or.inr rfl, fun _ => ⟨Or.inr rfl, fun _ => ⟨Or.inr rfl, fun _ => ⟨rfl, trivial⟩⟩⟩⟩

theorem tri_run (n : ℕ) (sub diag upp : ℕ → ℕ → α) (k : ℕ) (m : TriLoc → α) (i : ℕ) (hi : i < n) :
    run (triBody n sub diag upp k) m (.b k i) = Tridiag.solveOne n (sub k) (diag k) (upp k) (fun j => m (.b k j)) i := by
  unfold triBody
  simp only [run, run_andThen, run_forEach]
  -- forward loop
  have fwd : ∀ (N : ℕ) (m0 : TriLoc → α), m0 (.cprim k 0) = upp k 0 / diag k 0 → m0 (.dprim k 0) = m (.b k 0) / diag k 0 → (∀ j, m0 (.b k j) = m (.b k j)) →
      ∀ m1, m1 = (List.range N).foldl (fun m' j =>
        (fun m2 => Function.update m2 (TriLoc.dprim k (j + 1)) ((m2 (.b k (j + 1)) - sub k (j + 1) * m2 (.dprim k (j))) / (diag k (j + 1) - sub k (j + 1) * m2 (.cprim k (j)))))
          (Function.update m' (TriLoc.cprim k (j + 1)) (upp k (j + 1) / (diag k (j + 1) - sub k (j + 1) * m' (.cprim k (j)))))) m0 →
      (∀ j ≤ N, m1 (.cprim k j) = Tridiag.cprim (sub k) (diag k) (upp k) j) ∧ (∀ j ≤ N, m1 (.dprim k j) = Tridiag.dprim (sub k) (diag k) (upp k) (fun j => m (.b k j)) j) ∧
        ∀ j, m1 (.b k j) = m (.b k j) := by
    intro N m0 hc hd hb
    induction N with
    | zero =>
      rintro m1 rfl
      refine ⟨fun j hj => ?_, fun j hj => ?_, hb⟩
      · obtain rfl : j = 0 := by omega
        simpa [Tridiag.cprim] using hc
      · obtain rfl : j = 0 := by omega
        simpa [Tridiag.dprim] using hd
    | succ N ih =>
      rintro m1 rfl
      obtain ⟨i1, i2, i3⟩ := ih _ rfl
      rw [List.range_succ, List.foldl_append]
      simp only [List.foldl_cons, List.foldl_nil]
      generalize List.foldl _ m0 (List.range N) = mN at i1 i2 i3 ⊢
      refine ⟨fun j hj => ?_, fun j hj => ?_, fun j => ?_⟩
      · by_cases e : j = N + 1
        · subst e
          simp [Function.update_apply, Tridiag.cprim, i1 N (le_refl N)]
        · simp [Function.update_apply, e, i1 j (by omega)]
      · by_cases e : j = N + 1
        · subst e
          simp [Function.update_apply, Tridiag.dprim, i1 N (le_refl N), i2 N (le_refl N), i3]
        · simp [Function.update_apply, e, i2 j (by omega)]
      · simp [Function.update_apply, i3]
  simp only [Nat.add_sub_cancel]
  obtain ⟨m1, hm1⟩ : ∃ m1, m1 = (List.range (n - 1)).foldl (fun m' j =>
        (fun m2 => Function.update m2 (TriLoc.dprim k (j + 1)) ((m2 (.b k (j + 1)) - sub k (j + 1) * m2 (.dprim k j)) / (diag k (j + 1) - sub k (j + 1) * m2 (.cprim k j))))
          (Function.update m' (TriLoc.cprim k (j + 1)) (upp k (j + 1) / (diag k (j + 1) - sub k (j + 1) * m' (.cprim k j)))))
        (Function.update (Function.update m (.cprim k 0) (upp k 0 / diag k 0)) (.dprim k 0) (Function.update m (.cprim k 0) (upp k 0 / diag k 0) (.b k 0) / diag k 0)) := ⟨_, rfl⟩
  have e1 := hm1
  simp only at e1
  rw [← e1]
  obtain ⟨f1, f2, f3⟩ := fwd (n - 1) _ (by simp [Function.update_apply]) (by simp [Function.update_apply]) (by simp [Function.update_apply]) m1 hm1
  -- backward loop
  have bwd : ∀ (s : List ℕ), (∀ j ∈ s, j ≤ n - 1) → ∀ (m2 : TriLoc → α) (c : ℕ → α),
      (∀ j ≤ n - 1, m2 (.cprim k j) = Tridiag.cprim (sub k) (diag k) (upp k) j) → (∀ j ≤ n - 1, m2 (.dprim k j) = Tridiag.dprim (sub k) (diag k) (upp k) (fun j => m (.b k j)) j) →
      (∀ j, m2 (.b k j) = c j) →
      ∀ j, s.foldl (fun m' i => Function.update m' (TriLoc.b k i) (m' (.dprim k i) - m' (.cprim k i) * m' (.b k (i + 1)))) m2 (.b k j) =
        s.foldl (fun b i => Function.update b i (Tridiag.dprim (sub k) (diag k) (upp k) (fun j => m (.b k j)) i - Tridiag.cprim (sub k) (diag k) (upp k) i * b (i + 1))) c j := by
    intro s
    induction s with
    | nil => exact fun _ m2 c _ _ h j => h j
    | cons a s ih =>
      intro hs m2 c h1 h2 h3 j
      simp only [List.foldl_cons]
      refine ih (fun j hj => hs j (by simp [hj])) _ _ (fun j hj => ?_) (fun j hj => ?_) (fun j => ?_) j
      · simp [Function.update_apply, h1 j hj]
      · simp [Function.update_apply, h2 j hj]
      · simp only [Function.update_apply, TriLoc.b.injEq, true_and, h3]
        rw [h1 a (hs a (by simp)), h2 a (hs a (by simp))]
  unfold Tridiag.solveOne Tridiag.backward
  refine bwd _ (fun j hj => ?_) _ _ (fun j hj => ?_) (fun j hj => ?_) (fun j => ?_) i
  · simp at hj; omega
  · simp [Function.update_apply, f1 j hj]
  · simp [Function.update_apply, f2 j hj]
  · simp only [Function.update_apply, TriLoc.b.injEq, true_and, f3]
    rw [f2 _ (le_refl _)]

/-- The batched tridiagonal solver under every schedule of the batches: the result is that of the serial loop over batches (C23). The work arrays may contain anything. -/
theorem c96_tridiag (T : Tridiag.Batch α) (m m' : TriLoc → α) (h : Outcome (fun k : Fin T.batch => triBody T.n T.sub T.diag T.upp k) m m') (k i : ℕ) (hk : k < T.batch) (hi : i < T.n) :
    m' (.b k i) = T.solve (fun k j => m (.b k j)) k i := by
  have rf : RaceFree ∅ (fun k : Fin T.batch => triOwn k) ∅ (fun k : Fin T.batch => triBody T.n T.sub T.diag T.upp k) := by
    refine ⟨fun k => tri_within _ _ _ _ _, fun a b l h1 h2 => Fin.ext ?_, fun _ _ h => h.elim, fun _ h => h.elim, fun _ _ h => h.elim⟩
    cases l <;> exact (Eq.symm h1).trans h2
  obtain ⟨hW, -, -⟩ := c96_outcome rf h
  rw [hW ⟨k, hk⟩ (.b k i) rfl, tri_run _ _ _ _ _ _ _ hi]
  unfold Tridiag.Batch.solve
  have : ∀ (N : ℕ) (c : ℕ → ℕ → α), (List.range N).foldl (fun b k => Function.update b k (Tridiag.solveOne T.n (T.sub k) (T.diag k) (T.upp k) (b k))) c k =
      if k < N then Tridiag.solveOne T.n (T.sub k) (T.diag k) (T.upp k) (c k) else c k := by
    intro N c
    induction N with
    | zero => simp
    | succ N ih =>
      rw [List.range_succ, List.foldl_append]
      simp only [List.foldl_cons, List.foldl_nil]
      by_cases e : k = N
      · subst e
        rw [Function.update_self, ih]
        simp
      · rw [Function.update_of_ne e, ih]
        by_cases e2 : k < N
        · rw [if_pos e2, if_pos (by omega)]
        · rw [if_neg e2, if_neg (by omega)]
  rw [this, if_pos hk]

end tri

/-! ## Collision coefficients -/

/-- The locations of one (species, x) position. -/
def collOwn {S : Type*} (s : S) : Set (CollLoc S) := {l | match l with | .mean _ s' => s' = s | .vcoll s' => s' = s | .tcoll s' => s' = s}

/-- The loop of `compute_Vcoll_Tcoll` under every schedule: with the integrals filled with zeros, the coefficients are those of C63. -/
theorem c96_collisions {S : Type*} [Fintype S] [DecidableEq S] (n : ℕ) (w v : ℕ → ℝ) (f D dvD : S → ℕ → ℝ) (m m' : CollLoc S → ℝ) (hm : ∀ q s, m (.mean q s) = 0)
    (h : Outcome (fun s : S => collBody n w (collIntegrand v f D dvD) s) m m') (s : S) :
    m' (.vcoll s) = Collisions.vcoll (Collisions.meansLoop n w v (f s) (D s) (dvD s)) ∧ m' (.tcoll s) = Collisions.tcoll (Collisions.meansLoop n w v (f s) (D s) (dvD s)) := by
  have rf : RaceFree ∅ (fun s : S => collOwn s) ∅ (fun s : S => collBody n w (collIntegrand v f D dvD) s) := by
    refine ⟨fun s => within_andThen (within_forEach fun k _ => within_forEach fun q _ => ⟨Or.inr rfl, fun _ => ⟨rfl, trivial⟩⟩) ?_, fun a b l h1 h2 => ?_,
      fun _ _ h => h.elim, fun _ h => h.elim, fun _ _ h => h.elim⟩
    · exact ⟨Or.inr rfl, fun _ => ⟨Or.inr rfl, fun _ => ⟨Or.inr rfl, fun _ => ⟨Or.inr rfl, fun _ => ⟨Or.inr rfl, fun _ => ⟨Or.inr rfl, fun _ => ⟨Or.inr rfl, fun _ => ⟨Or.inr rfl, fun _ =>
        ⟨rfl, Or.inr rfl, fun _ => ⟨Or.inr rfl, fun _ => ⟨Or.inr rfl, fun _ => ⟨Or.inr rfl, fun _ => ⟨rfl, trivial⟩⟩⟩⟩⟩⟩⟩⟩⟩⟩⟩⟩⟩
    · cases l <;> exact (Eq.symm h1).trans h2
  obtain ⟨hW, -, -⟩ := c96_outcome rf h
  rw [hW s (.vcoll s) rfl, hW s (.tcoll s) rfl]
  have loop : ∀ N : ℕ, ∀ m1, m1 = (List.range N).foldl (fun m k => run (forEach (fun q => Prog.read (CollLoc.mean q s) fun v' => .write (.mean q s) (v' + w k * collIntegrand v f D dvD q s k) .done) [0, 1, 2, 3, 4]) m) m →
      m1 (.mean 0 s) = (Collisions.meansLoop N w v (f s) (D s) (dvD s)).i0 ∧ m1 (.mean 1 s) = (Collisions.meansLoop N w v (f s) (D s) (dvD s)).i1 ∧
      m1 (.mean 2 s) = (Collisions.meansLoop N w v (f s) (D s) (dvD s)).i2 ∧ m1 (.mean 3 s) = (Collisions.meansLoop N w v (f s) (D s) (dvD s)).i3 ∧
      m1 (.mean 4 s) = (Collisions.meansLoop N w v (f s) (D s) (dvD s)).i4 := by
    intro N
    induction N with
    | zero => rintro m1 rfl; simp [Collisions.meansLoop, hm]
    | succ N ih =>
      rintro m1 rfl
      obtain ⟨i0, i1, i2, i3, i4⟩ := ih _ rfl
      unfold Collisions.meansLoop at i0 i1 i2 i3 i4 ⊢
      rw [List.range_succ, List.foldl_append, List.foldl_append]
      generalize List.foldl _ m (List.range N) = mN at i0 i1 i2 i3 i4 ⊢
      simp [run_forEach, run, Function.update_apply, collIntegrand, i0, i1, i2, i3, i4]
  unfold collBody
  simp only [run_andThen, run]
  rw [run_forEach]
  generalize hm1 : List.foldl _ m (List.range n) = m1
  obtain ⟨i0, i1, i2, i3, i4⟩ := loop n m1 hm1.symm
  simp [Function.update_apply, Collisions.vcoll, Collisions.tcoll, i0, i1, i2, i3, i4]

/-! ## Copies and teams -/

/-- `transpose_layout` under every interleaving of the accesses (C04 has interleavings of whole iterations): the destination holds at each multi-index the value of the source, and the
source is unchanged. -/
theorem c96_transpose {κ α : Type*} [DecidableEq κ] [Add α] (Rdst Rsrc : Layout.IdxRange κ) (hperm : Rdst.Perm Rsrc) (hR : (Layout.tags Rsrc).Nodup) (m m' : ℕ ⊕ ℕ → α)
    (sched : List (κ → ℕ)) (hs : sched.Perm (Layout.enum (Transpose.parallelRange Rsrc)))
    (h : Outcome (fun i : Fin sched.length => transposeBody Rdst Rsrc (sched[i])) m m') :
    (∀ x, Layout.InBox Rsrc x → m' (.inr (Layout.offset Rdst x)) = m (.inl (Layout.offset Rsrc x))) ∧ ∀ p, m' (.inl p) = m (.inl p) := by
  classical
  have mem1 : ∀ x, x ∈ Transpose.visited Rsrc sched ↔ ∃ p ∈ sched, x ∈ Transpose.visited Rsrc [p] := by
    intro x
    unfold Transpose.visited
    split <;> simp
  have hbox := Transpose.visited_inBox Rsrc hR sched hs
  -- the value stored at each location of the destination
  obtain ⟨F, hF⟩ : ∃ F : ℕ ⊕ ℕ → α, ∀ x, Layout.InBox Rsrc x → F (.inr (Layout.offset Rdst x)) = m (.inl (Layout.offset Rsrc x)) := by
    refine ⟨fun l => match l with
      | .inl p => m (.inl p)
      | .inr p => if hx : ∃ x, Layout.InBox Rsrc x ∧ Layout.offset Rdst x = p then m (.inl (Layout.offset Rsrc hx.choose)) else m (.inr p), fun x hx => ?_⟩
    have ex : ∃ y, Layout.InBox Rsrc y ∧ Layout.offset Rdst y = Layout.offset Rdst x := ⟨x, hx, rfl⟩
    simp only [dif_pos ex]
    have hc := ex.choose_spec
    congr 2
    refine Layout.offset_congr _ _ _ fun d hd => ?_
    exact Layout.offset_inj Rdst _ _ ((Layout.inBox_perm hperm _).2 hc.1) ((Layout.inBox_perm hperm _).2 hx) hc.2 d (hperm.mem_iff.2 hd)
  have hst : ∀ i : Fin sched.length, Stores (Set.range Sum.inl) F m (transposeBody Rdst Rsrc (sched[i]) : Prog (ℕ ⊕ ℕ) α) := by
    intro i
    refine stores_forEach fun x hx => ⟨⟨_, rfl⟩, by simp, ?_, trivial⟩
    exact (hF x (hbox x ((mem1 x).2 ⟨_, List.getElem_mem _, hx⟩))).symm
  obtain ⟨a, b⟩ := c96_copy hst h
  constructor
  · intro x hx
    obtain ⟨y, hy, hyx⟩ := Transpose.visited_covers Rsrc hR sched hs x hx
    obtain ⟨p, hp, hyp⟩ := (mem1 y).1 hy
    obtain ⟨i, hi, rfl⟩ := List.mem_iff_getElem.1 hp
    have e : Layout.offset Rdst x = Layout.offset Rdst y := Layout.offset_congr _ _ _ fun d hd => (hyx d (hperm.mem_iff.1 hd)).symm
    rw [a (.inr (Layout.offset Rdst x)) ⟨⟨i, hi⟩, ?_⟩, hF x hx]
    rw [transposeBody, writesTo_forEach]
    refine ⟨y, hyp, ?_⟩
    simp [WritesTo, e]
  · intro p
    refine b _ fun i hi => ?_
    rw [transposeBody, writesTo_forEach] at hi
    obtain ⟨y, _, hy⟩ := hi
    simp [WritesTo] at hy

/-- `unify_value_at_centre_pt` under every schedule of the batches (the model of C32). -/
theorem c96_unify {B IR IT V : Type*} [Fintype B] [DecidableEq B] [DecidableEq IR] [DecidableEq IT] [AddCommMonoid V] (r0 : IR) (t0 : IT) (thetas : List IT) (hth : ∀ t, t ∈ thetas)
    (m m' : B × IR × IT → V) (rCoord : IR → ℝ) (hr : |rCoord r0| < 1e-15)
    (h : Outcome (fun b : B => unifyBody r0 t0 thetas b) m m') (b : B) (i : IR) (j : IT) :
    m' (b, i, j) = Advection.unify rCoord r0 t0 (fun b i j => m (b, i, j)) b i j := by
  have rf : RaceFree ∅ (fun b : B => {l : B × IR × IT | l.1 = b}) ∅ (fun b : B => (unifyBody r0 t0 thetas b : Prog (B × IR × IT) V)) :=
    ⟨fun b => within_forEach fun t _ => ⟨Or.inr rfl, fun _ => ⟨rfl, trivial⟩⟩, fun a b l h1 h2 => (Eq.symm h1).trans h2, fun _ _ h => h.elim, fun _ h => h.elim, fun _ _ h => h.elim⟩
  obtain ⟨hW, -, -⟩ := c96_outcome rf h
  rw [hW b (b, i, j) rfl, Advection.unify, if_pos hr, unifyBody, run_forEach]
  simp only [run]
  have key : ∀ (s : List IT) (m1 : B × IR × IT → V), s.foldl (fun m2 t => Function.update m2 (b, r0, t) (m2 (b, r0, t0))) m1 (b, i, j) =
      if i = r0 ∧ j ∈ s then m1 (b, r0, t0) else m1 (b, i, j) := by
    intro s
    induction s with
    | nil => intro m1; simp
    | cons a s ih =>
      intro m1
      have h0 : Function.update m1 (b, r0, a) (m1 (b, r0, t0)) (b, r0, t0) = m1 (b, r0, t0) := by
        by_cases e : t0 = a
        · subst e; simp
        · simp [Function.update_apply, e]
      rw [List.foldl_cons, ih, h0]
      by_cases ei : i = r0
      · subst ei
        by_cases ej : j = a
        · subst ej; simp
        · simp [Function.update_apply, ej]
      · simp [Function.update_apply, ei]
  rw [key]
  simp [hth j]

/-- The average over the first ring (`bsl_advection_polar.hpp:365-395`) under every schedule of the batches: both components at the O-point are the mean of the first ring. -/
theorem c96_ring {B IR IT : Type*} [Fintype B] [DecidableEq B] [DecidableEq IR] [DecidableEq IT] (r0 r1 : IR) (hne : r0 ≠ r1) (n : ℝ) (thetas : List IT) (m m' : Bool × B × IR × IT → ℝ)
    (h : Outcome (fun b : B => ringBody r0 r1 n thetas b) m m') (c : Bool) (b : B) (i : IR) (j : IT) :
    m' (c, b, i, j) = if i = r0 ∧ j ∈ thetas then (thetas.map fun t => m (c, b, r1, t)).sum / n else m (c, b, i, j) := by
  have win : ∀ (b : B) (s : List IT) (sx sy : ℝ) (k : ℝ → ℝ → Prog (Bool × B × IR × IT) ℝ), (∀ x y, Within ∅ {l | l.2.1 = b} ∅ (k x y)) → Within ∅ {l | l.2.1 = b} ∅ (ringBody.sum r1 b s sx sy k) := by
    intro b s
    induction s with
    | nil => exact fun sx sy k hk => hk sx sy
    | cons a s ih => exact fun sx sy k hk => ⟨Or.inr rfl, fun _ => ⟨Or.inr rfl, fun _ => ih _ _ k hk⟩⟩
  have rf : RaceFree ∅ (fun b : B => {l : Bool × B × IR × IT | l.2.1 = b}) ∅ (fun b : B => ringBody r0 r1 n thetas b) :=
    ⟨fun b => win b _ _ _ _ fun x y => within_forEach fun t _ => ⟨rfl, rfl, trivial⟩, fun a b l h1 h2 => (Eq.symm h1).trans h2, fun _ _ h => h.elim, fun _ h => h.elim, fun _ _ h => h.elim⟩
  obtain ⟨hW, -, -⟩ := c96_outcome rf h
  rw [hW b (c, b, i, j) rfl, ringBody]
  have rsum : ∀ (s : List IT) (sx sy : ℝ) (k : ℝ → ℝ → Prog (Bool × B × IR × IT) ℝ), run (ringBody.sum r1 b s sx sy k) m =
      run (k (sx + (s.map fun t => m (true, b, r1, t)).sum) (sy + (s.map fun t => m (false, b, r1, t)).sum)) m := by
    intro s
    induction s with
    | nil => intro sx sy k; simp [ringBody.sum]
    | cons a s ih =>
      intro sx sy k
      rw [ringBody.sum, run, run, ih]
      simp only [List.map_cons, List.sum_cons, add_assoc]
  rw [rsum, run_forEach]
  simp only [run, zero_add]
  have key : ∀ (X Y : ℝ) (s : List IT) (m1 : Bool × B × IR × IT → ℝ), s.foldl (fun m2 t => Function.update (Function.update m2 (true, b, r0, t) X) (false, b, r0, t) Y) m1 (c, b, i, j) =
      if i = r0 ∧ j ∈ s then (if c then X else Y) else m1 (c, b, i, j) := by
    intro X Y s
    induction s with
    | nil => intro m1; simp
    | cons a s ih =>
      intro m1
      rw [List.foldl_cons, ih]
      by_cases ei : i = r0
      · by_cases ej : j = a
        · cases c <;> simp [Function.update_apply, ei, ej]
        · simp [Function.update_apply, ei, ej]
      · simp [Function.update_apply, ei]
  rw [key]
  cases c <;> simp

theorem foldl_writes_of_mem {V : Type*} (w : List (ℕ × V)) (hn : (w.map Prod.fst).Nodup) (m : ℕ → V) (x : ℕ × V) (hx : x ∈ w) : w.foldl (fun a x => Function.update a x.1 x.2) m x.1 = x.2 := by
  have out : ∀ (w : List (ℕ × V)) (m : ℕ → V) (l : ℕ), l ∉ w.map Prod.fst → w.foldl (fun a x => Function.update a x.1 x.2) m l = m l := by
    intro w
    induction w with
    | nil => intro m l _; rfl
    | cons y w ih =>
      intro m l hl
      simp only [List.map_cons, List.mem_cons, not_or] at hl
      rw [List.foldl_cons, ih _ _ hl.2, Function.update_of_ne hl.1]
  induction w generalizing m with
  | nil => simp at hx
  | cons y w ih =>
    simp only [List.map_cons, List.nodup_cons] at hn
    rw [List.foldl_cons]
    rcases List.mem_cons.1 hx with rfl | hx
    · rw [out _ _ _ hn.1, Function.update_self]
    · exact ih hn.2 _ hx

theorem foldl_writes_of_notMem {V : Type*} (w : List (ℕ × V)) (m : ℕ → V) (l : ℕ) (hl : l ∉ w.map Prod.fst) : w.foldl (fun a x => Function.update a x.1 x.2) m l = m l := by
  induction w generalizing m with
  | nil => rfl
  | cons y w ih =>
    simp only [List.map_cons, List.mem_cons, not_or] at hl
    rw [List.foldl_cons, ih _ hl.2, Function.update_of_ne hl.1]

/-- Loops whose iterations only store: if the positions of the list `W` of all the writes are distinct and `W` consists of the writes of the iterations, whatever the schedule and however many
iterations repeat a write, the array ends with the writes of `W`. -/
theorem c96_stores {ι V : Type*} [DecidableEq ι] [Add V] (w : ι → List (ℕ × V)) (W : List (ℕ × V)) (hn : (W.map Prod.fst).Nodup) (hW : ∀ x, x ∈ W ↔ ∃ i, x ∈ w i) (m m' : ℕ → V)
    (h : Outcome (fun i => teamBody (w i)) m m') : m' = W.foldl (fun a x => Function.update a x.1 x.2) m := by
  obtain ⟨F, hF⟩ : ∃ F : ℕ → V, F = W.foldl (fun a x => Function.update a x.1 x.2) m := ⟨_, rfl⟩
  have hst : ∀ i, Stores ∅ F m (teamBody (w i)) := by
    intro t
    refine stores_forEach fun x hx => ⟨fun h => h.elim, ?_, trivial⟩
    rw [hF]
    exact (foldl_writes_of_mem _ hn m x ((hW x).2 ⟨t, hx⟩)).symm
  obtain ⟨a, b⟩ := c96_copy hst h
  rw [← hF]
  funext l
  by_cases e : ∃ i, WritesTo m l (teamBody (w i))
  · exact a l e
  · push Not at e
    rw [b l e, hF, foldl_writes_of_notMem]
    intro hl
    obtain ⟨x, hx, rfl⟩ := List.mem_map.1 hl
    obtain ⟨i, hx⟩ := (hW x).1 hx
    refine e i ?_
    rw [teamBody, writesTo_forEach]
    exact ⟨x, hx, Or.inl rfl⟩

/-- Teams: whatever the number of threads of the teams, all of which store the values of the team, and whatever the schedule, the array ends with the writes of all teams. -/
theorem c96_team {V : Type*} [Add V] (n T : ℕ) (team : ℕ → List (ℕ × V)) (hn : (((List.range n).flatMap team).map Prod.fst).Nodup) (m m' : ℕ → V)
    (h : Outcome (fun t : Fin n × Fin (T + 1) => teamBody (team t.1)) m m') : m' = ((List.range n).flatMap team).foldl (fun a x => Function.update a x.1 x.2) m := by
  refine c96_stores (fun t : Fin n × Fin (T + 1) => team t.1) _ hn (fun x => ⟨fun hx => ?_, fun ⟨t, hx⟩ => ?_⟩) m m' h
  · obtain ⟨k, hk, hx⟩ := List.mem_flatMap.1 hx
    exact ⟨(⟨k, List.mem_range.1 hk⟩, 0), hx⟩
  · exact List.mem_flatMap.2 ⟨t.1, List.mem_range.2 t.1.2, hx⟩

theorem store_of_mem {α : Type*} (w : List (ℕ × α)) (hn : (w.map Prod.fst).Nodup) (x : ℕ × α) (hx : x ∈ w) : PolarFem.store w x.1 = some x.2 := by
  have := foldl_writes_of_mem (w.map fun x => (x.1, some x.2)) (by simpa [Function.comp_def] using hn) (fun _ => none) (x.1, some x.2) (List.mem_map.2 ⟨x, hx, rfl⟩)
  rw [List.foldl_map] at this
  exact this

open PolarFem in
/-- The column indices of the polar FEM matrix: the three kernels, launched one after the other with any number of threads in the teams and any schedule, store the structure of C74. -/
theorem c96_polar_columns (z : Sz) (ok : Ok z) (T1 T2 : ℕ) (m0 m1 m2 m3 : ℕ → ℕ) (h1 : Outcome (fun t : Fin z.nS × Fin z.nS => teamBody (ssIter z t.1 t.2)) m0 m1)
    (h2 : Outcome (fun t : Fin (z.nS * (z.p * z.nT)) × Fin (T1 + 1) => teamBody (stTeam z t.1)) m1 m2) (h3 : Outcome (fun t : Fin (z.mR * z.nT) × Fin (T2 + 1) => teamBody (ttTeam z t.1)) m2 m3)
    (s : ℕ) (hs : s < nnzAlloc z) : store (colWrites z) s = some (m3 s) := by
  obtain ⟨⟨hn, hall⟩, -⟩ := c74_writes z ok ⟨fun _ _ _ => 0, fun _ _ _ => 0, fun _ _ _ => 0, fun _ _ => 0, fun _ _ => 0, fun _ _ => 0, fun _ _ _ _ => 0⟩ (fun _ => none)
  have hn' := hn
  unfold colWrites at hn'
  rw [List.map_append, List.map_append, List.nodup_append, List.nodup_append] at hn'
  have e1 := c96_stores (fun t : Fin z.nS × Fin z.nS => ssIter z t.1 t.2) (colsSS z) hn'.1.1 (fun x => by
    simp only [colsSS, ssIter, List.mem_flatMap, List.mem_map, List.mem_range, List.mem_singleton, Prod.exists]
    constructor
    · rintro ⟨r, hr, c, hc, rfl⟩; exact ⟨⟨r, hr⟩, ⟨c, hc⟩, rfl⟩
    · rintro ⟨r, c, rfl⟩; exact ⟨r, r.2, c, c.2, rfl⟩) m0 m1 h1
  have e2 := c96_team _ T1 (stTeam z) hn'.1.2.1 m1 m2 h2
  have e3 := c96_team _ T2 (ttTeam z) hn'.2.1 m2 m3 h3
  have e : m3 = (colWrites z).foldl (fun a x => Function.update a x.1 x.2) m0 := by
    unfold colWrites
    rw [List.foldl_append, List.foldl_append, e3, e2, e1]
    rfl
  obtain ⟨x, hx, rfl⟩ := List.mem_map.1 ((hall s).2 hs)
  rw [e, store_of_mem _ hn x hx, foldl_writes_of_mem _ hn m0 x hx]

open PolarFem in
/-- The values of the polar FEM matrix under every schedule of the three kernels and any number of threads in the teams: those of C74. -/
theorem c96_polar_values (z : Sz) (ok : Ok z) (d : Dat) (cols : ℕ → Option ℕ) (T1 T2 T3 : ℕ) (m0 m1 m2 m3 : ℕ → ℝ)
    (h1 : Outcome (fun t : Fin (z.nS * z.nS) × Fin (T1 + 1) => teamBody (ssValTeam z d t.1)) m0 m1)
    (h2 : Outcome (fun t : Fin (z.nS * (z.p * z.nT)) × Fin (T2 + 1) => teamBody (stValTeam z d t.1)) m1 m2)
    (h3 : Outcome (fun t : Fin (z.mR * z.nT) × Fin (T3 + 1) => teamBody (ttValTeam z d cols t.1)) m2 m3)
    (s : ℕ) (hs : s < nnzAlloc z) (v : ℝ) (hv : store (valWrites z d cols) s = some (some v)) : m3 s = v := by
  obtain ⟨-, hn, hall⟩ := c74_writes z ok d cols
  obtain ⟨g, hg⟩ : ∃ g : ℕ × Option ℝ → ℕ × ℝ, g = fun x => (x.1, x.2.getD 0) := ⟨_, rfl⟩
  have eSS : (List.range (z.nS * z.nS)).flatMap (ssValTeam z d) = (valsSS z d).map g := by
    subst hg
    unfold valsSS
    rw [List.map_map]
    generalize List.range (z.nS * z.nS) = l
    induction l with
    | nil => rfl
    | cons a l ih => rw [List.flatMap_cons, ih]; rfl
  have eST : (List.range (z.nS * (z.p * z.nT))).flatMap (stValTeam z d) = (valsST z d).map g := by
    subst hg
    unfold valsST
    rw [List.map_flatMap]
    rfl
  have eTT : (List.range (z.mR * z.nT)).flatMap (ttValTeam z d cols) = (valsTT z d cols).map g := by
    subst hg
    unfold valsTT
    rw [List.map_flatMap]
    congr 1
    funext l
    unfold ttValTeam
    simp only
    cases h : PolarSplines.get2dIndex z.c1 z.nT (z.nS + l) with
    | none => simp [h]
    | some a => simp [h, Function.comp_def]
  have hmap : ∀ l : List (ℕ × Option ℝ), (l.map g).map Prod.fst = l.map Prod.fst := by intro l; subst hg; simp [Function.comp_def]
  have hn' := hn
  unfold valWrites at hn'
  rw [List.map_append, List.map_append, List.nodup_append, List.nodup_append] at hn'
  have e1 := c96_team _ T1 (ssValTeam z d) (by rw [eSS, hmap]; exact hn'.1.1) m0 m1 h1
  have e2 := c96_team _ T2 (stValTeam z d) (by rw [eST, hmap]; exact hn'.1.2.1) m1 m2 h2
  have e3 := c96_team _ T3 (ttValTeam z d cols) (by rw [eTT, hmap]; exact hn'.2.1) m2 m3 h3
  have e : m3 = ((valWrites z d cols).map g).foldl (fun a x => Function.update a x.1 x.2) m0 := by
    unfold valWrites
    rw [List.map_append, List.map_append, List.foldl_append, List.foldl_append, e3, e2, e1, eSS, eST, eTT]
  obtain ⟨x, hx, rfl⟩ := List.mem_map.1 ((hall s).2 hs)
  rw [store_of_mem _ hn x hx] at hv
  have := foldl_writes_of_mem ((valWrites z d cols).map g) (by rw [hmap]; exact hn) m0 (g x) (List.mem_map.2 ⟨x, hx, rfl⟩)
  rw [e]
  subst hg
  simp only [Option.some.injEq] at hv
  simpa [hv] using this

/-! ## The hypotheses are met -/

/-- Every loop has an outcome, whatever its body and the memory: the hypotheses `Outcome ...` above are never vacuous. -/
theorem c96_has_outcome {ι L V : Type*} [Fintype ι] [DecidableEq ι] [DecidableEq L] [Add V] (P : ι → Prog L V) (m : L → V) : ∃ m', Outcome P m m' :=
  c96_completes P m _ .refl

example : ∃ m', Outcome (fun i : Fin (9 - 1) => trapBody (fun i => (i : ℝ) ^ 2) i) (fun _ => 0) m' ∧ m' 3 = 0.5 * ((3 : ℕ) ^ 2 - (2 : ℕ) ^ 2 + ((4 : ℕ) ^ 2 - (3 : ℕ) ^ 2)) := by
  obtain ⟨m', h⟩ := c96_has_outcome (fun i : Fin (9 - 1) => trapBody (fun i => (i : ℝ) ^ 2) i) (fun _ => 0)
  refine ⟨m', h, ?_⟩
  rw [c96_trapezoid _ 9 _ m' h]
  simp [Quadrature.trapMiddle, Quadrature.dL, Quadrature.dR]

/-- Two iterations that add to the same location: the sum is the same under every schedule, with atomic additions. -/
example (m' : ℕ → ℝ) (h : Outcome (fun i : Bool => Prog.atomicAdd 0 (if i then (2 : ℝ) else 5) .done) (fun _ => 1) m') : m' 0 = 8 := by
  have rf : RaceFree (∅ : Set ℕ) (fun _ : Bool => ∅) {0} (fun i : Bool => Prog.atomicAdd 0 (if i then (2 : ℝ) else 5) .done) :=
    ⟨fun i => ⟨rfl, trivial⟩, fun _ _ _ h => h.elim, fun _ _ h => h.elim, fun _ _ h => h, fun _ _ _ h => h⟩
  have := (c96_outcome rf h).2.1 0 rfl
  simp only [added, Fintype.sum_bool] at this
  rw [this]
  norm_num

example : ∃ z : PolarFem.Sz, PolarFem.Ok z ∧ z.nS = 3 ∧ PolarFem.nnzAlloc z > 100 := ⟨⟨3, 2, 12, 16⟩, ⟨by decide, by decide, by decide, by decide, by decide⟩, by decide, by decide⟩

/-- The hypotheses of `c96_unify` and `c96_ring`: a disc with 4 radial points, 8 angles and 3 batch elements. -/
example : ∃ m', Outcome (fun b : Fin 3 => unifyBody (V := ℝ) (0 : Fin 4) (0 : Fin 8) (List.finRange 8) b) (fun l => (l.2.2 : ℕ)) m' ∧ m' (1, 0, 5) = 0 ∧ m' (1, 2, 5) = 5 := by
  obtain ⟨m', h⟩ := c96_has_outcome (fun b : Fin 3 => unifyBody (V := ℝ) (0 : Fin 4) (0 : Fin 8) (List.finRange 8) b) (fun l => (l.2.2 : ℕ))
  refine ⟨m', h, ?_, ?_⟩
  · rw [c96_unify _ _ _ (fun t => List.mem_finRange t) _ m' (fun i => (i : ℕ)) (by norm_num) h]
    simp only [Advection.unify]
    rw [if_pos (by norm_num)]
    simp
  · rw [c96_unify _ _ _ (fun t => List.mem_finRange t) _ m' (fun i => (i : ℕ)) (by norm_num) h]
    simp only [Advection.unify]
    rw [if_pos (by norm_num)]
    simp

end Verif.Parallel
