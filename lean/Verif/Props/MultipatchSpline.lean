import Verif.Model.MultipatchSpline
import Verif.Props.Onion
import Verif.Props.GridTools
import Verif.Props.Norms
import Mathlib.Topology.ContinuousOn
import Mathlib.Analysis.Calculus.Deriv.Add
import Mathlib.Analysis.Calculus.Deriv.Mul
import Mathlib.MeasureTheory.Integral.IntervalIntegral.Basic

/-!
# C76: splines on an onion of patches
-/

namespace Verif.MultipatchSpline
open Set

/-! ## Specification -/

/-- A DDC basis of `n` functions `B j` with derivatives `D j`: at a point of the domain, `eval_basis` gives the index of the first function which is not zero there and the values of the
`degree + 1` functions from there on. -/
structure IsBasis (b : Bsp) (n : ℕ) (B D : ℕ → ℝ → ℝ) : Prop where
  dom : b.rmin < b.rmax
  evalRange : ∀ x ∈ Icc b.rmin b.rmax, (b.evalBasis x).1 + b.degree < n
  eval : ∀ x ∈ Icc b.rmin b.rmax, ∀ j < n,
    B j x = if (b.evalBasis x).1 ≤ j ∧ j ≤ (b.evalBasis x).1 + b.degree then (b.evalBasis x).2 (j - (b.evalBasis x).1) else 0
  derivRange : ∀ x ∈ Icc b.rmin b.rmax, (b.evalDeriv x).1 + b.degree < n
  deriv : ∀ x ∈ Icc b.rmin b.rmax, ∀ j < n,
    D j x = if (b.evalDeriv x).1 ≤ j ∧ j ≤ (b.evalDeriv x).1 + b.degree then (b.evalDeriv x).2 (j - (b.evalDeriv x).1) else 0
  isDeriv : ∀ x ∈ Icc b.rmin b.rmax, ∀ j < n, HasDerivWithinAt (B j) (D j x) (Icc b.rmin b.rmax) x

/-- The tensor product spline with coefficients `coef`. -/
noncomputable def spline (n1 n2 : ℕ) (f1 f2 : ℕ → ℝ → ℝ) (coef : ℕ → ℕ → ℝ) (x : ℝ × ℝ) : ℝ :=
  ∑ i ∈ Finset.range n1, ∑ j ∈ Finset.range n2, coef i j * f1 i x.1 * f2 j x.2

/-- The geometry: rings one outside the other, patch `k` between `radii k` and `radii (k+1)`, all around in the poloidal angle, and mappings which give back the radius. `B1 k`, `B2 k` are the
basis functions on patch `k`, `D1 k`, `D2 k` their derivatives. -/
structure IsOnion (e : Evaluator) (B1 D1 B2 D2 : ℕ → ℕ → ℝ → ℝ) : Prop where
  pos : 0 ≤ e.radii 0
  incr : ∀ i j, i < j → j ≤ e.patches.length → e.radii i < e.radii j
  nonper : ∀ (k : ℕ) (p : Patch), e.patches[k]? = some p → p.b1.periodic = false
  lo : ∀ (k : ℕ) (p : Patch), e.patches[k]? = some p → p.b1.rmin = e.radii k
  hi : ∀ (k : ℕ) (p : Patch), e.patches[k]? = some p → p.b1.rmax = e.radii (k + 1)
  per : ∀ (k : ℕ) (p : Patch), e.patches[k]? = some p → p.b2.periodic = true
  basis1 : ∀ (k : ℕ) (p : Patch), e.patches[k]? = some p → IsBasis p.b1 p.n1 (B1 k) (D1 k)
  basis2 : ∀ (k : ℕ) (p : Patch), e.patches[k]? = some p → IsBasis p.b2 p.n2 (B2 k) (D2 k)
  mapping : ∀ r θ, 0 ≤ r → (e.toLogical (e.toPhysical (r, θ))).1 = r

/-- Patch `k` is responsible for radius `r`: the interface belongs to the outer patch, the outer edge to the last patch. -/
def Owns (e : Evaluator) (k : ℕ) (r : ℝ) : Prop :=
  e.radii k ≤ r ∧ (r < e.radii (k + 1) ∨ (k + 1 = e.patches.length ∧ r = e.radii (k + 1)))

/-! ## Evaluation on one patch -/

theorem foldl_add (l : List ℕ) (f : ℕ → ℝ) (s : ℝ) : l.foldl (fun y j => y + f j) s = s + (l.map f).sum := by
  induction l generalizing s with
  | nil => simp
  | cons a l ih => rw [List.foldl_cons, ih, List.map_cons, List.sum_cons]; ring

theorem foldl_range (n : ℕ) (f : ℕ → ℝ) (s : ℝ) : (List.range n).foldl (fun y j => y + f j) s = s + ∑ j ∈ Finset.range n, f j := by
  rw [foldl_add]; rfl

theorem foldl2 (n m : ℕ) (f : ℕ → ℕ → ℝ) :
    (List.range n).foldl (fun y i => (List.range m).foldl (fun y j => y + f i j) y) 0 = ∑ i ∈ Finset.range n, ∑ j ∈ Finset.range m, f i j := by
  have : (fun (y : ℝ) (i : ℕ) => (List.range m).foldl (fun y j => y + f i j) y) = fun y i => y + ∑ j ∈ Finset.range m, f i j := by
    funext y i; exact foldl_range m (f i) y
  rw [this, foldl_range, zero_add]

/-- A sum in which only `d + 1` consecutive terms count. -/
theorem sum_window (n d j0 : ℕ) (h : j0 + d < n) (v g f : ℕ → ℝ)
    (hf : ∀ j < n, f j = if j0 ≤ j ∧ j ≤ j0 + d then v (j - j0) else 0) :
    ∑ j ∈ Finset.range n, g j * f j = ∑ i ∈ Finset.range (d + 1), g (j0 + i) * v i := by
  have hsub : (Finset.range (d + 1)).image (fun i => j0 + i) ⊆ Finset.range n := by
    intro j hj
    simp only [Finset.mem_image, Finset.mem_range] at hj ⊢
    obtain ⟨i, hi, rfl⟩ := hj
    omega
  rw [← Finset.sum_subset hsub, Finset.sum_image (by intro a _ b _ hab; simpa using hab)]
  · apply Finset.sum_congr rfl
    intro i hi
    have hi' := Finset.mem_range.1 hi
    rw [hf _ (by omega), if_pos (by omega)]
    congr 2; omega
  · intro j hj hn
    have hj' := Finset.mem_range.1 hj
    rw [hf j hj', if_neg, mul_zero]
    rintro ⟨h1, h2⟩
    apply hn
    simp only [Finset.mem_image, Finset.mem_range]
    exact ⟨j - j0, by omega, by omega⟩

/-- The basis functions or their derivatives. -/
def sel (t : EvalType) (B D : ℕ → ℝ → ℝ) : ℕ → ℝ → ℝ :=
  match t with
  | .value => B
  | .deriv => D

theorem evalDir_spec (b : Bsp) (n : ℕ) (B D : ℕ → ℝ → ℝ) (hb : IsBasis b n B D) (t : EvalType) (x : ℝ) (hx : x ∈ Icc b.rmin b.rmax) :
    ∃ j0 v, evalDir b t x = some (j0, v) ∧ j0 + b.degree < n ∧
      ∀ j < n, sel t B D j x = if j0 ≤ j ∧ j ≤ j0 + b.degree then v (j - j0) else 0 := by
  cases t with
  | value => exact ⟨(b.evalBasis x).1, (b.evalBasis x).2, by simp only [evalDir, if_pos (show b.rmin ≤ x ∧ x ≤ b.rmax from hx)], hb.evalRange x hx, hb.eval x hx⟩
  | deriv => exact ⟨(b.evalDeriv x).1, (b.evalDeriv x).2, by simp only [evalDir, if_pos (show b.rmin ≤ x ∧ x ≤ b.rmax from hx)], hb.derivRange x hx, hb.deriv x hx⟩

theorem evalNoBc_spec (t1 t2 : EvalType) (p : Patch) (B1 D1 B2 D2 : ℕ → ℝ → ℝ) (h1 : IsBasis p.b1 p.n1 B1 D1) (h2 : IsBasis p.b2 p.n2 B2 D2)
    (x : ℝ × ℝ) (hx1 : x.1 ∈ Icc p.b1.rmin p.b1.rmax) (hx2 : x.2 ∈ Icc p.b2.rmin p.b2.rmax) (coef : ℕ → ℕ → ℝ) :
    evalNoBc t1 t2 p x coef = .val (spline p.n1 p.n2 (sel t1 B1 D1) (sel t2 B2 D2) coef x) := by
  obtain ⟨j1, v1, e1, l1, f1⟩ := evalDir_spec p.b1 p.n1 B1 D1 h1 t1 x.1 hx1
  obtain ⟨j2, v2, e2, l2, f2⟩ := evalDir_spec p.b2 p.n2 B2 D2 h2 t2 x.2 hx2
  rw [evalNoBc, e1, e2]
  simp only [l1, l2, and_self, if_true]
  rw [foldl2, spline]
  congr 1
  have : ∀ i ∈ Finset.range p.n1, ∑ j ∈ Finset.range p.n2, coef i j * sel t1 B1 D1 i x.1 * sel t2 B2 D2 j x.2 =
      (∑ j ∈ Finset.range (p.b2.degree + 1), coef i (j2 + j) * v2 j) * sel t1 B1 D1 i x.1 := by
    intro i _
    rw [sum_window p.n2 p.b2.degree j2 l2 v2 (fun j => coef i j * sel t1 B1 D1 i x.1) (fun j => sel t2 B2 D2 j x.2) f2, Finset.sum_mul]
    exact Finset.sum_congr rfl fun j _ => by ring
  rw [Finset.sum_congr rfl this, sum_window p.n1 p.b1.degree j1 l1 v1 _ (fun i => sel t1 B1 D1 i x.1) f1]
  apply Finset.sum_congr rfl
  intro i _
  rw [Finset.sum_mul]
  exact Finset.sum_congr rfl fun j _ => by ring

/-! ## Dispatching -/

theorem dispatch_at (rule : Rule) (first : Patch) (t1 t2 : EvalType) (x : ℝ × ℝ) (coefs : ℕ → ℕ → ℕ → ℝ) (ps : List Patch) :
    ∀ (k k0 : ℕ) (p : Patch), ps[k]? = some p →
      dispatch rule first t1 t2 x coefs ((k0 + k : ℕ) : ℤ) k0 ps = evalNoBc t1 t2 p (replaceInside p x) (coefs (k0 + k)) := by
  induction ps with
  | nil => intro k k0 p h; simp at h
  | cons q ps ih =>
    intro k k0 p h
    cases k with
    | zero =>
      rw [List.getElem?_cons_zero, Option.some_inj] at h
      subst h
      simp [dispatch]
    | succ k =>
      rw [List.getElem?_cons_succ] at h
      rw [dispatch, if_neg (by omega)]
      have := ih k (k0 + 1) p h
      rw [show k0 + 1 + k = k0 + (k + 1) by omega] at this
      exact this

theorem dispatch_neg (rule : Rule) (first : Patch) (t1 t2 : EvalType) (x : ℝ × ℝ) (coefs : ℕ → ℕ → ℕ → ℝ) (idx : ℤ) (hi : idx < 0) (ps : List Patch) :
    ∀ k0 : ℕ, dispatch rule first t1 t2 x coefs idx k0 ps =
      if t1 = .value ∧ t2 = .value then rule (replaceInside first x) coefs idx else .abort := by
  induction ps with
  | nil => intro k0; rw [dispatch, if_neg (by omega)]
  | cons q ps ih => intro k0; rw [dispatch, if_neg (by omega)]; exact ih (k0 + 1)

section
variable {e : Evaluator} {B1 D1 B2 D2 : ℕ → ℕ → ℝ → ℝ}

theorem length_pos (e : Evaluator) : 1 ≤ e.patches.length := by simp [Evaluator.patches]

theorem lt_of_get {k : ℕ} {p : Patch} (hp : e.patches[k]? = some p) : k < e.patches.length := by
  by_contra hc
  rw [List.getElem?_eq_none (by omega)] at hp
  simp at hp

theorem patch_idx (h : IsOnion e B1 D1 B2 D2) (k : ℕ) (p : Patch) (hp : e.patches[k]? = some p) (r θ : ℝ) (ho : Owns e k r) :
    getPatchIdx e (r, θ) = some (k : ℤ) := by
  have hk := lt_of_get hp
  have h0 : e.radii 0 ≤ e.radii k := by
    rcases Nat.eq_zero_or_pos k with h' | h'
    · rw [h']
    · exact (h.incr 0 k h' hk.le).le
  have hr : 0 ≤ r := le_trans h.pos (le_trans h0 ho.1)
  rw [getPatchIdx, h.mapping r θ hr]
  refine ((Onion.c08_locate e.radii _ (length_pos e) h.incr r).2.2.1 k).2 ⟨hk, ho.1, ?_⟩
  rcases ho.2 with h' | ⟨h1, h2⟩
  · exact Or.inl h'
  · exact Or.inr ⟨h1, by rw [← h1]; exact h2⟩

/-- The poloidal angle brought into the domain of the patch. -/
theorem inside_spec (h : IsOnion e B1 D1 B2 D2) (k : ℕ) (p : Patch) (hp : e.patches[k]? = some p) (r θ : ℝ) :
    ∃ θ' ∈ Icc p.b2.rmin p.b2.rmax, (∃ m : ℤ, θ' = θ + m * (p.b2.rmax - p.b2.rmin)) ∧ (θ ∈ Icc p.b2.rmin p.b2.rmax → θ' = θ) ∧
      replaceInside p (r, θ) = (r, θ') := by
  have hb := GridTools.c49_bspline p.b2.rmin p.b2.rmax θ (h.basis2 k p hp).dom
  refine ⟨_, ⟨hb.1, hb.2.1⟩, hb.2.2.1, fun ht => hb.2.2.2 ht.1 ht.2, ?_⟩
  rw [replaceInside, h.nonper k p hp, h.per k p hp, GridTools.c49_bspline_non_periodic]

theorem owns_mem (h : IsOnion e B1 D1 B2 D2) (k : ℕ) (p : Patch) (hp : e.patches[k]? = some p) (r : ℝ) (ho : Owns e k r) :
    r ∈ Icc p.b1.rmin p.b1.rmax := by
  rw [h.lo k p hp, h.hi k p hp]
  exact ⟨ho.1, by rcases ho.2 with h' | ⟨_, h'⟩ <;> linarith⟩

/-- **C76** (every radius of the domain has exactly one patch) -/
theorem c76_patch (h : IsOnion e B1 D1 B2 D2) (r : ℝ) :
    (r ∈ Icc (e.radii 0) (e.radii e.patches.length) ↔ ∃ k p, e.patches[k]? = some p ∧ Owns e k r) ∧
    (∀ k k' p p', e.patches[k]? = some p → e.patches[k']? = some p' → Owns e k r → Owns e k' r → k = k') := by
  constructor
  · constructor
    · rintro ⟨h0, h1⟩
      have hn := length_pos e
      rcases lt_or_eq_of_le h1 with hlt | heq
      · obtain ⟨k, _, hk, h2, h3⟩ := Onion.search_spec e.radii e.patches.length r 0 (e.patches.length - 1) le_rfl (by omega) (by omega)
          (by simpa using h0) (by rw [show ((e.patches.length : ℤ) - 1 + 1).toNat = e.patches.length by omega]; exact hlt)
        exact ⟨k, e.patches[k], List.getElem?_eq_getElem hk, h2, Or.inl h3⟩
      · have hk : e.patches.length - 1 < e.patches.length := by omega
        have hk1 : e.patches.length - 1 + 1 = e.patches.length := by omega
        refine ⟨e.patches.length - 1, e.patches[e.patches.length - 1], List.getElem?_eq_getElem hk, ?_, Or.inr ⟨hk1, by rw [hk1]; exact heq⟩⟩
        rw [heq]
        exact (h.incr _ _ hk le_rfl).le
    · rintro ⟨k, p, hp, h1, h2⟩
      have hk := lt_of_get hp
      have hmono : ∀ i j, i ≤ j → j ≤ e.patches.length → e.radii i ≤ e.radii j := by
        intro i j hij hj
        rcases Nat.eq_or_lt_of_le hij with h' | h'
        · rw [h']
        · exact (h.incr i j h' hj).le
      have := hmono 0 k (by omega) hk.le
      have := hmono (k + 1) e.patches.length (by omega) le_rfl
      refine ⟨by linarith, ?_⟩
      rcases h2 with h2 | ⟨_, h2⟩ <;> linarith
  · intro k k' p p' hp hp' ho ho'
    have a := patch_idx h k p hp r 0 ho
    have b := patch_idx h k' p' hp' r 0 ho'
    rw [a] at b
    simpa using b

theorem dispatch_patch (h : IsOnion e B1 D1 B2 D2) (t1 t2 : EvalType) (coefs : ℕ → ℕ → ℕ → ℝ) (k : ℕ) (p : Patch) (hp : e.patches[k]? = some p) (r θ : ℝ) (ho : Owns e k r) :
    ∃ θ' ∈ Icc p.b2.rmin p.b2.rmax, (∃ m : ℤ, θ' = θ + m * (p.b2.rmax - p.b2.rmin)) ∧ (θ ∈ Icc p.b2.rmin p.b2.rmax → θ' = θ) ∧
      dispatch e.rule e.first t1 t2 (r, θ) coefs (k : ℤ) 0 e.patches =
        .val (spline p.n1 p.n2 (sel t1 (B1 k) (D1 k)) (sel t2 (B2 k) (D2 k)) (coefs k) (r, θ')) := by
  obtain ⟨θ', h1, h2, h3, h4⟩ := inside_spec h k p hp r θ
  refine ⟨θ', h1, h2, h3, ?_⟩
  have := dispatch_at e.rule e.first t1 t2 (r, θ) coefs e.patches k 0 p hp
  rw [Nat.zero_add] at this
  rw [this, h4]
  exact evalNoBc_spec t1 t2 p _ _ _ _ (h.basis1 k p hp) (h.basis2 k p hp) _ (owns_mem h k p hp r ho) h1 _

/-- **C76** (value) For every number of patches, in any point of the domain and any poloidal angle (outside the domain of the patch too), the value is that of the spline of the patch the radius belongs to, at the
equivalent poloidal angle. -/
theorem c76_value (h : IsOnion e B1 D1 B2 D2) (coefs : ℕ → ℕ → ℕ → ℝ) (k : ℕ) (p : Patch) (hp : e.patches[k]? = some p) (r θ : ℝ) (ho : Owns e k r) :
    ∃ θ' ∈ Icc p.b2.rmin p.b2.rmax, (∃ m : ℤ, θ' = θ + m * (p.b2.rmax - p.b2.rmin)) ∧ (θ ∈ Icc p.b2.rmin p.b2.rmax → θ' = θ) ∧
      eval e (r, θ) coefs = .val (spline p.n1 p.n2 (B1 k) (B2 k) (coefs k) (r, θ')) := by
  rw [eval, patch_idx h k p hp r θ ho]
  exact dispatch_patch h .value .value coefs k p hp r θ ho

theorem spline_deriv1 (n1 n2 : ℕ) (f1 f2 g1 : ℕ → ℝ → ℝ) (coef : ℕ → ℕ → ℝ) (s : Set ℝ) (x : ℝ × ℝ) (h : ∀ i < n1, HasDerivWithinAt (f1 i) (g1 i x.1) s x.1) :
    HasDerivWithinAt (fun r => spline n1 n2 f1 f2 coef (r, x.2)) (spline n1 n2 g1 f2 coef x) s x.1 := by
  unfold spline
  apply HasDerivWithinAt.fun_sum
  intro i hi
  apply HasDerivWithinAt.fun_sum
  intro j _
  exact ((h i (Finset.mem_range.1 hi)).const_mul (coef i j)).mul_const (f2 j x.2)

theorem spline_deriv2 (n1 n2 : ℕ) (f1 f2 g2 : ℕ → ℝ → ℝ) (coef : ℕ → ℕ → ℝ) (s : Set ℝ) (x : ℝ × ℝ) (h : ∀ i < n2, HasDerivWithinAt (f2 i) (g2 i x.2) s x.2) :
    HasDerivWithinAt (fun t => spline n1 n2 f1 f2 coef (x.1, t)) (spline n1 n2 f1 g2 coef x) s x.2 := by
  unfold spline
  apply HasDerivWithinAt.fun_sum
  intro i _
  apply HasDerivWithinAt.fun_sum
  intro j hj
  exact (h j (Finset.mem_range.1 hj)).const_mul (coef i j * f1 i x.1)

/-- **C76** (derivatives) In every point of the domain `deriv_dim_1`, `deriv_dim_2` and `deriv_1_and_2` give the derivatives, on that patch, of the spline of the patch the radius belongs to. -/
theorem c76_deriv (h : IsOnion e B1 D1 B2 D2) (coefs : ℕ → ℕ → ℕ → ℝ) (k : ℕ) (p : Patch) (hp : e.patches[k]? = some p) (r θ : ℝ) (ho : Owns e k r) :
    ∃ θ' ∈ Icc p.b2.rmin p.b2.rmax, (∃ m : ℤ, θ' = θ + m * (p.b2.rmax - p.b2.rmin)) ∧ (θ ∈ Icc p.b2.rmin p.b2.rmax → θ' = θ) ∧
      ∃ d1 d2 d12 : ℝ, derivDim1 e (r, θ) coefs = .val d1 ∧ derivDim2 e (r, θ) coefs = .val d2 ∧ deriv12 e (r, θ) coefs = .val d12 ∧
        HasDerivWithinAt (fun r' => spline p.n1 p.n2 (B1 k) (B2 k) (coefs k) (r', θ')) d1 (Icc p.b1.rmin p.b1.rmax) r ∧
        HasDerivWithinAt (fun t => spline p.n1 p.n2 (B1 k) (B2 k) (coefs k) (r, t)) d2 (Icc p.b2.rmin p.b2.rmax) θ' ∧
        HasDerivWithinAt (fun t => derivWithin (fun r' => spline p.n1 p.n2 (B1 k) (B2 k) (coefs k) (r', t)) (Icc p.b1.rmin p.b1.rmax) r) d12 (Icc p.b2.rmin p.b2.rmax) θ' := by
  obtain ⟨θ', h1, h2, h3, h4⟩ := inside_spec h k p hp r θ
  have hr := owns_mem h k p hp r ho
  have hd : ∀ t1 t2, derivWith t1 t2 e (r, θ) coefs = .val (spline p.n1 p.n2 (sel t1 (B1 k) (D1 k)) (sel t2 (B2 k) (D2 k)) (coefs k) (r, θ')) := by
    intro t1 t2
    rw [derivWith, patch_idx h k p hp r θ ho]
    simp only
    rw [if_neg (by omega)]
    have := dispatch_at e.rule e.first t1 t2 (r, θ) coefs e.patches k 0 p hp
    rw [Nat.zero_add] at this
    rw [this, h4]
    exact evalNoBc_spec t1 t2 p _ _ _ _ (h.basis1 k p hp) (h.basis2 k p hp) _ hr h1 _
  have d1 : ∀ t, HasDerivWithinAt (fun r' => spline p.n1 p.n2 (B1 k) (B2 k) (coefs k) (r', t)) (spline p.n1 p.n2 (D1 k) (B2 k) (coefs k) (r, t)) (Icc p.b1.rmin p.b1.rmax) r :=
    fun t => spline_deriv1 _ _ _ _ _ _ _ (r, t) fun i hi => (h.basis1 k p hp).isDeriv r hr i hi
  refine ⟨θ', h1, h2, h3, _, _, _, hd _ _, hd _ _, hd _ _, d1 θ', ?_, ?_⟩
  · exact spline_deriv2 _ _ _ _ _ _ _ (r, θ') fun i hi => (h.basis2 k p hp).isDeriv θ' h1 i hi
  · have : (fun t => derivWithin (fun r' => spline p.n1 p.n2 (B1 k) (B2 k) (coefs k) (r', t)) (Icc p.b1.rmin p.b1.rmax) r) =
        fun t => spline p.n1 p.n2 (D1 k) (B2 k) (coefs k) (r, t) :=
      funext fun t => (d1 t).derivWithin (uniqueDiffOn_Icc (h.basis1 k p hp).dom r hr)
    rw [this]
    exact spline_deriv2 _ _ _ _ _ _ _ (r, θ') fun i hi => (h.basis2 k p hp).isDeriv θ' h1 i hi

theorem patch_idx_out (h : IsOnion e B1 D1 B2 D2) (r θ : ℝ) (hr : 0 ≤ r) :
    (e.radii e.patches.length < r → getPatchIdx e (r, θ) = some (-1)) ∧ (r < e.radii 0 → getPatchIdx e (r, θ) = some (-2)) := by
  rw [getPatchIdx, h.mapping r θ hr]
  have := Onion.c08_locate e.radii _ (length_pos e) h.incr r
  exact ⟨this.1.2, this.2.1.2⟩

/-- **C76** (no derivatives outside) Outside of the domain the derivatives stop the program. -/
theorem c76_deriv_outside (h : IsOnion e B1 D1 B2 D2) (coefs : ℕ → ℕ → ℕ → ℝ) (r θ : ℝ) (hr : 0 ≤ r) (ho : r < e.radii 0 ∨ e.radii e.patches.length < r) :
    derivDim1 e (r, θ) coefs = .abort ∧ derivDim2 e (r, θ) coefs = .abort ∧ deriv12 e (r, θ) coefs = .abort := by
  have : ∀ t1 t2, derivWith t1 t2 e (r, θ) coefs = .abort := by
    intro t1 t2
    rcases ho with ho | ho
    · rw [derivWith, (patch_idx_out h r θ hr).2 ho]; rfl
    · rw [derivWith, (patch_idx_out h r θ hr).1 ho]; rfl
  exact ⟨this _ _, this _ _, this _ _⟩

/-- **C76** (null extrapolation) Outside of the domain the value is zero. -/
theorem c76_null (h : IsOnion e B1 D1 B2 D2) (hrule : e.rule = nullRule) (coefs : ℕ → ℕ → ℕ → ℝ) (r θ : ℝ) (hr : 0 ≤ r) (ho : r < e.radii 0 ∨ e.radii e.patches.length < r) :
    eval e (r, θ) coefs = .val 0 := by
  rcases ho with ho | ho
  · rw [eval, (patch_idx_out h r θ hr).2 ho]
    simp only
    rw [dispatch_neg _ _ _ _ _ _ _ (by norm_num), if_pos ⟨rfl, rfl⟩, hrule, nullRule, if_pos (by norm_num)]
  · rw [eval, (patch_idx_out h r θ hr).1 ho]
    simp only
    rw [dispatch_neg _ _ _ _ _ _ _ (by norm_num), if_pos ⟨rfl, rfl⟩, hrule, nullRule, if_pos (by norm_num)]

theorem last_get (e : Evaluator) : e.patches[e.rest.length]? = some ((e.first :: e.rest).getLast (by simp)) := by
  rw [Evaluator.patches, List.getLast_eq_getElem]
  simp

/-- **C76** (constant extrapolation) If the poloidal domains of the patches are the same, the value inside of the first radius is that of the first patch's spline on its inner edge, and the value outside of the
last radius is that of the last patch's spline on its outer edge, at the same poloidal angle. -/
theorem c76_constant (h : IsOnion e B1 D1 B2 D2) (hrule : e.rule = constantRule (e.radii 0) (e.radii e.patches.length) e.first e.rest)
    (hθ : ∀ (k : ℕ) (p : Patch), e.patches[k]? = some p → p.b2.rmin = e.first.b2.rmin ∧ p.b2.rmax = e.first.b2.rmax)
    (coefs : ℕ → ℕ → ℕ → ℝ) (r θ : ℝ) (hr : 0 ≤ r) :
    ∃ θ' ∈ Icc e.first.b2.rmin e.first.b2.rmax, (∃ m : ℤ, θ' = θ + m * (e.first.b2.rmax - e.first.b2.rmin)) ∧ (θ ∈ Icc e.first.b2.rmin e.first.b2.rmax → θ' = θ) ∧
      (r < e.radii 0 → ∀ p, e.patches[0]? = some p →
        eval e (r, θ) coefs = .val (spline p.n1 p.n2 (B1 0) (B2 0) (coefs 0) (e.radii 0, θ'))) ∧
      (e.radii e.patches.length < r → ∀ k p, k + 1 = e.patches.length → e.patches[k]? = some p →
        eval e (r, θ) coefs = .val (spline p.n1 p.n2 (B1 k) (B2 k) (coefs k) (e.radii (k + 1), θ'))) := by
  have hf : e.patches[0]? = some e.first := rfl
  obtain ⟨θ', h1, h2, h3, h4⟩ := inside_spec h 0 e.first hf r θ
  refine ⟨θ', h1, h2, h3, ?_, ?_⟩
  · intro ho p hp
    rw [hf, Option.some_inj] at hp
    subst hp
    rw [eval, (patch_idx_out h r θ hr).2 ho]
    simp only
    rw [dispatch_neg _ _ _ _ _ _ _ (by norm_num), if_pos ⟨rfl, rfl⟩, hrule, constantRule, h4]
    simp only [true_or, not_true_eq_false, if_false, if_true]
    rw [ddcConstant]
    refine evalNoBc_spec .value .value _ _ _ _ _ (h.basis1 0 _ hf) (h.basis2 0 _ hf) _ ?_ h1 _
    rw [h.lo 0 _ hf, h.hi 0 _ hf]
    exact ⟨le_rfl, (h.incr 0 1 (by omega) (length_pos e)).le⟩
  · intro ho k p hk hp
    have hkr : k = e.rest.length := by simp [Evaluator.patches] at hk; exact hk
    have hl := last_get e
    rw [← hkr, hp, Option.some_inj] at hl
    rw [eval, (patch_idx_out h r θ hr).1 ho]
    simp only
    rw [dispatch_neg _ _ _ _ _ _ _ (by norm_num), if_pos ⟨rfl, rfl⟩, hrule, constantRule, h4, ← hl, ← hkr, ← hk]
    simp only [or_true, not_true_eq_false, if_false]
    rw [if_neg (by norm_num), ddcConstant]
    refine evalNoBc_spec .value .value _ _ _ _ _ (h.basis1 k _ hp) (h.basis2 k _ hp) _ ?_ ?_ _
    · rw [h.lo k _ hp, h.hi k _ hp]
      exact ⟨(h.incr k (k + 1) (by omega) (by omega)).le, le_rfl⟩
    · rw [(hθ k p hp).1, (hθ k p hp).2]; exact h1

theorem spline_continuous {n1 n2 : ℕ} {f1 f2 : ℕ → ℝ → ℝ} {coef : ℕ → ℕ → ℝ} {s t : Set ℝ} (h1 : ∀ i < n1, ContinuousOn (f1 i) s) (h2 : ∀ i < n2, ContinuousOn (f2 i) t) :
    ContinuousOn (spline n1 n2 f1 f2 coef) (s ×ˢ t) := by
  unfold spline
  apply continuousOn_finset_sum
  intro i hi
  apply continuousOn_finset_sum
  intro j hj
  have c1 := (h1 i (Finset.mem_range.1 hi)).comp (continuousOn_fst (s := s ×ˢ t)) (fun x hx => hx.1)
  have c2 := (h2 j (Finset.mem_range.1 hj)).comp (continuousOn_snd (s := s ×ˢ t)) (fun x hx => hx.2)
  exact (continuousOn_const.mul c1).mul c2

/-- **C76** (no jumps) If the splines of neighbouring patches agree on their interface, the evaluator gives a function which is continuous across all the interfaces, and with the constant extrapolation rule also
across the edges of the domain. -/
theorem c76_continuous (h : IsOnion e B1 D1 B2 D2)
    (hθ : ∀ (k : ℕ) (p : Patch), e.patches[k]? = some p → p.b2.rmin = e.first.b2.rmin ∧ p.b2.rmax = e.first.b2.rmax)
    (coefs : ℕ → ℕ → ℕ → ℝ)
    (hglue : ∀ (k : ℕ) (p q : Patch), e.patches[k]? = some p → e.patches[k + 1]? = some q → ∀ θ ∈ Icc e.first.b2.rmin e.first.b2.rmax,
      spline p.n1 p.n2 (B1 k) (B2 k) (coefs k) (e.radii (k + 1), θ) = spline q.n1 q.n2 (B1 (k + 1)) (B2 (k + 1)) (coefs (k + 1)) (e.radii (k + 1), θ)) :
    ∃ g : ℝ × ℝ → ℝ, (∀ r ∈ Icc (e.radii 0) (e.radii e.patches.length), ∀ θ ∈ Icc e.first.b2.rmin e.first.b2.rmax, eval e (r, θ) coefs = .val (g (r, θ))) ∧
      ContinuousOn g (Icc (e.radii 0) (e.radii e.patches.length) ×ˢ Icc e.first.b2.rmin e.first.b2.rmax) ∧
      (e.rule = constantRule (e.radii 0) (e.radii e.patches.length) e.first e.rest →
        (∀ r, 0 ≤ r → ∀ θ ∈ Icc e.first.b2.rmin e.first.b2.rmax, eval e (r, θ) coefs = .val (g (r, θ))) ∧
        ContinuousOn g (Ici 0 ×ˢ Icc e.first.b2.rmin e.first.b2.rmax)) := by
  classical
  obtain ⟨T, hT⟩ : ∃ T : Set ℝ, T = Icc e.first.b2.rmin e.first.b2.rmax := ⟨_, rfl⟩
  have hTc : IsClosed T := hT ▸ isClosed_Icc
  obtain ⟨n, hn⟩ : ∃ n, n = e.patches.length := ⟨_, rfl⟩
  have hn1 : 1 ≤ n := hn ▸ length_pos e
  obtain ⟨S, hS⟩ : ∃ S : ℕ → ℝ × ℝ → ℝ, S = fun k => match e.patches[k]? with
    | some p => spline p.n1 p.n2 (B1 k) (B2 k) (coefs k)
    | none => fun _ => 0 := ⟨_, rfl⟩
  have hSk : ∀ (k : ℕ) (p : Patch), e.patches[k]? = some p → S k = spline p.n1 p.n2 (B1 k) (B2 k) (coefs k) := by
    intro k p hp; rw [hS]; simp only [hp]
  have hmono : ∀ i j, i ≤ j → j ≤ n → e.radii i ≤ e.radii j := by
    intro i j hij hj
    rcases Nat.eq_or_lt_of_le hij with h' | h'
    · rw [h']
    · exact (h.incr i j h' (hn ▸ hj)).le
  obtain ⟨g, hg⟩ : ∃ g : ℝ × ℝ → ℝ, g = fun x => match eval e x coefs with
    | .val v => v
    | _ => 0 := ⟨_, rfl⟩
  have hval : ∀ (k : ℕ) (p : Patch), e.patches[k]? = some p → ∀ r, Owns e k r → ∀ θ ∈ T, eval e (r, θ) coefs = .val (S k (r, θ)) := by
    intro k p hp r ho θ ht
    obtain ⟨θ', _, _, h3, h4⟩ := c76_value h coefs k p hp r θ ho
    rw [(hθ k p hp).1, (hθ k p hp).2, ← hT] at h3
    rw [h4, h3 ht, hSk k p hp]
  have hgk : ∀ k < n, ∀ x ∈ Icc (e.radii k) (e.radii (k + 1)) ×ˢ T, g x = S k x := by
    rintro k hk ⟨r, θ⟩ ⟨⟨hr1, hr2⟩, ht⟩
    simp only at hr1 hr2 ht
    have hp := List.getElem?_eq_getElem (hn ▸ hk : k < e.patches.length)
    rcases lt_or_eq_of_le hr2 with hlt | heq
    · rw [hg]; simp only [hval k _ hp r ⟨hr1, Or.inl hlt⟩ θ ht]
    · by_cases hl : k + 1 = n
      · rw [hg]; simp only [hval k _ hp r ⟨hr1, Or.inr ⟨hl.trans hn, heq⟩⟩ θ ht]
      · have hk1 : k + 1 < n := by omega
        have hq := List.getElem?_eq_getElem (hn ▸ hk1 : k + 1 < e.patches.length)
        have ho : Owns e (k + 1) r := by
          refine ⟨heq.ge, ?_⟩
          left
          rw [heq]
          exact h.incr _ _ (by omega) (by omega)
        rw [hg]; simp only [hval (k + 1) _ hq r ho θ ht]
        rw [hSk _ _ hq, hSk _ _ hp, heq]
        exact (hglue k _ _ hp hq θ (hT ▸ ht)).symm
  have hcontS : ∀ k < n, ContinuousOn (S k) (Icc (e.radii k) (e.radii (k + 1)) ×ˢ T) := by
    intro k hk
    have hp := List.getElem?_eq_getElem (hn ▸ hk : k < e.patches.length)
    rw [hSk _ _ hp]
    apply spline_continuous
    · intro i hi
      rw [← h.lo k _ hp, ← h.hi k _ hp]
      exact fun x hx => ((h.basis1 k _ hp).isDeriv x hx i hi).continuousWithinAt
    · intro i hi
      rw [hT, ← (hθ k _ hp).1, ← (hθ k _ hp).2]
      exact fun x hx => ((h.basis2 k _ hp).isDeriv x hx i hi).continuousWithinAt
  have hcont : ∀ k, k < n → ContinuousOn g (Icc (e.radii 0) (e.radii (k + 1)) ×ˢ T) := by
    intro k
    induction k with
    | zero => intro hk; exact (hcontS 0 hk).congr (hgk 0 hk)
    | succ k ih =>
      intro hk
      have a := ih (by omega)
      have b := (hcontS (k + 1) hk).congr (hgk (k + 1) hk)
      have := a.union_of_isClosed b (isClosed_Icc.prod hTc) (isClosed_Icc.prod hTc)
      rwa [← union_prod, Icc_union_Icc_eq_Icc (hmono 0 (k + 1) (by omega) (by omega)) (hmono (k + 1) (k + 1 + 1) (by omega) (by omega))] at this
  have hcn : ContinuousOn g (Icc (e.radii 0) (e.radii n) ×ˢ T) := by
    have := hcont (n - 1) (by omega)
    rwa [show n - 1 + 1 = n by omega] at this
  have hin : ∀ r ∈ Icc (e.radii 0) (e.radii n), ∀ θ ∈ T, eval e (r, θ) coefs = .val (g (r, θ)) := by
    intro r hr θ ht
    obtain ⟨k, p, hp, ho⟩ := (c76_patch h r).1.1 (hn ▸ hr)
    rw [hg]; simp only [hval k p hp r ho θ ht]
  rw [← hT, ← hn]
  refine ⟨g, hin, hcn, ?_⟩
  intro hrule
  have hp0 : e.patches[0]? = some e.first := rfl
  have hpl := List.getElem?_eq_getElem (by omega : n - 1 < e.patches.length)
  have hout : ∀ r, 0 ≤ r → ∀ θ ∈ T, (r < e.radii 0 → eval e (r, θ) coefs = .val (S 0 (e.radii 0, θ))) ∧
      (e.radii n < r → eval e (r, θ) coefs = .val (S (n - 1) (e.radii n, θ))) := by
    intro r hr θ ht
    obtain ⟨θ', _, _, h3, h4, h5⟩ := c76_constant h (hn ▸ hrule) hθ coefs r θ hr
    have ht' : θ' = θ := h3 (hT ▸ ht)
    subst ht'
    refine ⟨fun hlt => ?_, fun hlt => ?_⟩
    · rw [h4 hlt _ hp0, hSk 0 _ hp0]
    · rw [h5 (hn ▸ hlt) (n - 1) _ (by omega) hpl, hSk _ _ hpl, show n - 1 + 1 = n by omega]
  have hle : e.radii 0 ≤ e.radii n := hmono 0 n (by omega) le_rfl
  refine ⟨?_, ?_⟩
  · intro r hr θ ht
    rcases lt_or_ge r (e.radii 0) with h1 | h1
    · rw [hg]; simp only [(hout r hr θ ht).1 h1]
    · rcases lt_or_ge (e.radii n) r with h2 | h2
      · rw [hg]; simp only [(hout r hr θ ht).2 h2]
      · exact hin r ⟨h1, h2⟩ θ ht
  · have e0 : ∀ θ ∈ T, g (e.radii 0, θ) = S 0 (e.radii 0, θ) := by
      intro θ ht
      have h01 := hmono 0 1 (by omega) hn1
      exact hgk 0 (by omega) (e.radii 0, θ) ⟨⟨le_rfl, h01⟩, ht⟩
    have en : ∀ θ ∈ T, g (e.radii n, θ) = S (n - 1) (e.radii n, θ) := by
      intro θ ht
      have h01 := hmono (n - 1) n (by omega) le_rfl
      refine hgk (n - 1) (by omega) (e.radii n, θ) ⟨⟨h01, ?_⟩, ht⟩
      rw [show n - 1 + 1 = n by omega]
    have cl : ∀ R ∈ Icc (e.radii 0) (e.radii n), ∀ A : Set ℝ, ContinuousOn (fun x : ℝ × ℝ => g (R, x.2)) (A ×ˢ T) := by
      intro R hR A
      exact hcn.comp (continuousOn_const.prodMk continuousOn_snd) (fun x hx => ⟨hR, hx.2⟩)
    have c0 : ContinuousOn g (Icc 0 (e.radii 0) ×ˢ T) := by
      apply (cl (e.radii 0) ⟨le_rfl, hle⟩ (Icc 0 (e.radii 0))).congr
      rintro ⟨r, θ⟩ ⟨⟨h1, h2⟩, ht⟩
      simp only at h1 h2 ht ⊢
      rcases lt_or_eq_of_le h2 with h3 | h3
      · rw [e0 θ ht, hg]; simp only [(hout r h1 θ ht).1 h3]
      · rw [h3]
    have c1 : ContinuousOn g (Ici (e.radii n) ×ˢ T) := by
      apply (cl (e.radii n) ⟨hle, le_rfl⟩ (Ici (e.radii n))).congr
      rintro ⟨r, θ⟩ ⟨h1, ht⟩
      simp only [mem_Ici] at h1 ht ⊢
      rcases lt_or_eq_of_le h1 with h3 | h3
      · rw [en θ ht, hg]; simp only [(hout r (le_trans h.pos (le_trans hle h1)) θ ht).2 h3]
      · rw [h3]
    have c2 := (c0.union_of_isClosed hcn (isClosed_Icc.prod hTc) (isClosed_Icc.prod hTc))
    rw [← union_prod, Icc_union_Icc_eq_Icc h.pos hle] at c2
    have c3 := c2.union_of_isClosed c1 (isClosed_Icc.prod hTc) (isClosed_Ici.prod hTc)
    rwa [← union_prod, Icc_union_Ici_eq_Ici (le_trans h.pos hle)] at c3

/-- **C76** (evaluation of fields) The values on a stored field are those of the evaluations one coordinate at a time. -/
theorem c76_fields (e : Evaluator) {ι : Type} (coords : ι → ℝ × ℝ) (coefs : ℕ → ℕ → ℕ → ℝ) (i : ι) :
    applyEvaluator .value .value e coords coefs i = eval e (coords i) coefs ∧
    applyEvaluator .deriv .value e coords coefs i = derivDim1 e (coords i) coefs ∧
    applyEvaluator .value .deriv e coords coefs i = derivDim2 e (coords i) coefs ∧
    applyEvaluator .deriv .deriv e coords coefs i = deriv12 e (coords i) coefs := by
  refine ⟨?_, ?_, ?_, ?_⟩ <;> simp only [applyEvaluator, eval, derivDim1, derivDim2, deriv12, derivWith] <;> cases getPatchIdx e (coords i) <;> simp

/-- **C76** (integral) On each patch `integrate` gives the integral of the spline over the patch. -/
theorem c76_integral (p : Patch) (B1 B2 : ℕ → ℝ → ℝ) (coef : ℕ → ℕ → ℝ)
    (h1 : ∀ i < p.n1, IntervalIntegrable (B1 i) MeasureTheory.volume p.b1.rmin p.b1.rmax)
    (h2 : ∀ i < p.n2, IntervalIntegrable (B2 i) MeasureTheory.volume p.b2.rmin p.b2.rmax)
    (i1 : ∀ i < p.n1, p.b1.integrals i = ∫ x in p.b1.rmin..p.b1.rmax, B1 i x)
    (i2 : ∀ i < p.n2, p.b2.integrals i = ∫ x in p.b2.rmin..p.b2.rmax, B2 i x) :
    applyIntegrate p coef = ∫ r in p.b1.rmin..p.b1.rmax, ∫ θ in p.b2.rmin..p.b2.rmax, spline p.n1 p.n2 B1 B2 coef (r, θ) := by
  have hin : ∀ r, (∫ θ in p.b2.rmin..p.b2.rmax, spline p.n1 p.n2 B1 B2 coef (r, θ)) =
      ∑ i ∈ Finset.range p.n1, (∑ j ∈ Finset.range p.n2, coef i j * p.b2.integrals j) * B1 i r := by
    intro r
    unfold spline
    simp only
    rw [intervalIntegral.integral_finsetSum]
    · apply Finset.sum_congr rfl
      intro i _
      rw [intervalIntegral.integral_finsetSum]
      · rw [Finset.sum_mul]
        apply Finset.sum_congr rfl
        intro j hj
        rw [intervalIntegral.integral_const_mul, i2 j (Finset.mem_range.1 hj)]
        ring
      · intro j hj
        exact (h2 j (Finset.mem_range.1 hj)).const_mul _
    · intro i _
      have := IntervalIntegrable.sum (Finset.range p.n2) (f := fun j x => coef i j * B1 i r * B2 j x)
        fun j hj => (h2 j (Finset.mem_range.1 hj)).const_mul (coef i j * B1 i r)
      have e : (∑ j ∈ Finset.range p.n2, fun x => coef i j * B1 i r * B2 j x) = fun x => ∑ j ∈ Finset.range p.n2, coef i j * B1 i r * B2 j x := by
        funext x; rw [Finset.sum_apply]
      rw [e] at this
      exact this
  simp only [hin]
  rw [intervalIntegral.integral_finsetSum]
  · rw [applyIntegrate, foldl2]
    apply Finset.sum_congr rfl
    intro i hi
    rw [intervalIntegral.integral_const_mul, ← i1 i (Finset.mem_range.1 hi), Finset.sum_mul]
    exact Finset.sum_congr rfl fun j _ => by ring
  · intro i hi
    exact (h1 i (Finset.mem_range.1 hi)).const_mul _

theorem foldl_max_le (l : List ℝ) (s B : ℝ) : l.foldl (fun result n => max result n) s ≤ B ↔ s ≤ B ∧ ∀ x ∈ l, x ≤ B := by
  induction l generalizing s with
  | nil => simp
  | cons a l ih => rw [List.foldl_cons, ih, max_le_iff]; simp [and_assoc]

/-- **C76** (norm) The norm on several patches is the largest of the values on all the patches: it is bounded by `B` exactly when each value on each patch is, for every schedule of the reductions. -/
theorem c76_norm {ι : Type*} (fs : List (Norms.Tree ι × (ι → ℝ))) {B : ℝ} (hB : 0 ≤ B) :
    normInf fs ≤ B ↔ ∀ f ∈ fs, ∀ i ∈ f.1.indices, |f.2 i| ≤ B := by
  rw [normInf, foldl_max_le]
  simp only [hB, true_and, List.forall_mem_map]
  exact forall₂_congr fun f _ => Norms.c29_norm_inf_le_iff f.1 f.2 hB

/-- **C76** (error norm) The error norm is bounded by `B` exactly when the two functions differ by at most `B` everywhere, and is zero exactly when they agree on all the patches. -/
theorem c76_error_norm {ι : Type*} (fs : List (Norms.Tree ι × (ι → ℝ) × (ι → ℝ))) :
    (∀ B, 0 ≤ B → (errorNormInf fs ≤ B ↔ ∀ f ∈ fs, ∀ i ∈ f.1.indices, |f.2.1 i - f.2.2 i| ≤ B)) ∧
    (errorNormInf fs = 0 ↔ ∀ f ∈ fs, ∀ i ∈ f.1.indices, f.2.1 i = f.2.2 i) := by
  have hmain : ∀ B, 0 ≤ B → (errorNormInf fs ≤ B ↔ ∀ f ∈ fs, ∀ i ∈ f.1.indices, |f.2.1 i - f.2.2 i| ≤ B) := by
    intro B hB
    rw [errorNormInf, foldl_max_le]
    simp only [hB, true_and, List.forall_mem_map]
    exact forall₂_congr fun f _ => Norms.c29_norm_inf_le_iff f.1 (fun i => f.2.1 i - f.2.2 i) hB
  refine ⟨hmain, ?_⟩
  have h0 : 0 ≤ errorNormInf fs := ((foldl_max_le _ _ _).1 (le_refl (errorNormInf fs))).1
  constructor
  · intro he f hf i hi
    have := (hmain 0 le_rfl).1 he.le f hf i hi
    linarith [abs_nonpos_iff.1 this]
  · intro he
    refine le_antisymm ((hmain 0 le_rfl).2 fun f hf i hi => ?_) h0
    rw [he f hf i hi]; simp

end

/-! ## A concrete onion -/

/-- One cell, degree 1: the hat functions `(b - x)/(b - a)` and `(x - a)/(b - a)`. -/
noncomputable def hat (per : Bool) (a b : ℝ) : Bsp where
  periodic := per
  rmin := a
  rmax := b
  degree := 1
  evalBasis := fun x => (0, fun i => if i = 0 then (b - x) / (b - a) else (x - a) / (b - a))
  evalDeriv := fun _ => (0, fun i => if i = 0 then -1 / (b - a) else 1 / (b - a))
  integrals := fun _ => (b - a) / 2

/-- The hat functions. -/
noncomputable def hatB (a b : ℝ) (i : ℕ) (x : ℝ) : ℝ := if i = 0 then (b - x) / (b - a) else (x - a) / (b - a)
/-- Their derivatives. -/
noncomputable def hatD (a b : ℝ) (i : ℕ) (_ : ℝ) : ℝ := if i = 0 then -1 / (b - a) else 1 / (b - a)

theorem hat_basis (per : Bool) (a b : ℝ) (h : a < b) : IsBasis (hat per a b) 2 (hatB a b) (hatD a b) where
  dom := h
  evalRange := by intro x _; simp [hat]
  eval := by
    intro x _ j hj
    have : j ≤ 1 := by omega
    simp [hat, hatB, this]
  derivRange := by intro x _; simp [hat]
  deriv := by
    intro x _ j hj
    have : j ≤ 1 := by omega
    simp [hat, hatD, this]
  isDeriv := by
    intro x _ j _
    by_cases hj : j = 0
    · simp only [hatD, hj, if_true]
      have := ((hasDerivAt_id' x).const_sub b).div_const (b - a)
      have e : hatB a b 0 = fun y => (b - y) / (b - a) := funext fun y => by simp [hatB]
      rw [e]
      exact this.hasDerivWithinAt
    · simp only [hatD, hj, if_false]
      have := ((hasDerivAt_id' x).sub_const a).div_const (b - a)
      have e : hatB a b j = fun y => (y - a) / (b - a) := funext fun y => by simp [hatB, hj]
      rw [e]
      exact this.hasDerivWithinAt

/-- A ring of one radial cell between `a` and `b`, with poloidal domain `[t, t + 1]`. -/
noncomputable def ring (a b t : ℝ) : Patch := ⟨hat false a b, hat true t (t + 1), 2, 2⟩

/-- Two rings, of radii `0 < 1 < 2`, with poloidal domains starting at `t0` and `t1`; the mappings are the identity. -/
noncomputable def twoRings (t0 t1 : ℝ) : Evaluator where
  first := ring 0 1 t0
  rest := [ring 1 2 t1]
  radii := fun i => i
  toPhysical := id
  toLogical := id
  rule := constantRule 0 2 (ring 0 1 t0) [ring 1 2 t1]

theorem twoRings_onion (t0 t1 : ℝ) : IsOnion (twoRings t0 t1) (fun k => hatB k (k + 1)) (fun k => hatD k (k + 1))
    (fun k => if k = 0 then hatB t0 (t0 + 1) else hatB t1 (t1 + 1)) (fun k => if k = 0 then hatD t0 (t0 + 1) else hatD t1 (t1 + 1)) := by
  have hc : ∀ (k : ℕ) (p : Patch), (twoRings t0 t1).patches[k]? = some p → (k = 0 ∧ p = ring 0 1 t0) ∨ (k = 1 ∧ p = ring 1 2 t1) := by
    intro k p hp
    rcases k with _ | _ | k
    · left; refine ⟨rfl, ?_⟩; simpa [twoRings, Evaluator.patches] using hp.symm
    · right; refine ⟨rfl, ?_⟩; simpa [twoRings, Evaluator.patches] using hp.symm
    · simp [twoRings, Evaluator.patches] at hp
  constructor
  · simp [twoRings]
  · intro i j hij _; simpa [twoRings] using hij
  · intro k p hp; rcases hc k p hp with ⟨_, rfl⟩ | ⟨_, rfl⟩ <;> rfl
  · intro k p hp; rcases hc k p hp with ⟨rfl, rfl⟩ | ⟨rfl, rfl⟩ <;> simp [ring, hat, twoRings]
  · intro k p hp; rcases hc k p hp with ⟨rfl, rfl⟩ | ⟨rfl, rfl⟩ <;> simp [ring, hat, twoRings]
  · intro k p hp; rcases hc k p hp with ⟨_, rfl⟩ | ⟨_, rfl⟩ <;> rfl
  · intro k p hp
    rcases hc k p hp with ⟨rfl, rfl⟩ | ⟨rfl, rfl⟩
    · have := hat_basis false 0 1 (by norm_num)
      simpa [ring] using this
    · have := hat_basis false 1 2 (by norm_num)
      have e2 : ((1 : ℕ) : ℝ) + 1 = 2 := by norm_num
      simp only [ring, e2]
      simpa using this
  · intro k p hp
    rcases hc k p hp with ⟨rfl, rfl⟩ | ⟨rfl, rfl⟩
    · exact hat_basis true t0 (t0 + 1) (by linarith)
    · exact hat_basis true t1 (t1 + 1) (by linarith)
  · intro r θ _; rfl

/-- The hypotheses of the theorems are met: the interface radius 1 belongs to the outer ring. -/
example (coefs : ℕ → ℕ → ℕ → ℝ) (θ : ℝ) : ∃ θ' ∈ Icc (0 : ℝ) (0 + 1), (∃ m : ℤ, θ' = θ + m * (0 + 1 - 0)) ∧ (θ ∈ Icc (0 : ℝ) (0 + 1) → θ' = θ) ∧
    eval (twoRings 0 0) (1, θ) coefs = .val (spline 2 2 (hatB (1 : ℕ) ((1 : ℕ) + 1)) (hatB 0 (0 + 1)) (coefs 1) (1, θ')) :=
  c76_value (twoRings_onion 0 0) coefs 1 (ring 1 2 0) rfl 1 θ ⟨by simp [twoRings], Or.inl (by norm_num [twoRings])⟩

/-- **C76** (finding) The poloidal angle given to the extrapolation rule is brought into the poloidal domain of the first patch, not into that of the patch whose spline is used: with poloidal domains which
start at different angles, constant extrapolation outside of the last patch evaluates its B-splines outside of their domain, even if the angle was in their domain at the start. -/
theorem c76_constant_other_domain (coefs : ℕ → ℕ → ℕ → ℝ) : eval (twoRings 0 (-1 / 2)) (3, -1 / 4) coefs = .undef := by
  have hi := (patch_idx_out (twoRings_onion 0 (-1 / 2)) 3 (-1 / 4) (by norm_num)).1 (by norm_num [twoRings, Evaluator.patches])
  rw [eval, hi]
  simp only
  rw [dispatch_neg _ _ _ _ _ _ _ (by norm_num), if_pos ⟨rfl, rfl⟩]
  have hr : replaceInside (twoRings 0 (-1 / 2)).first (3, -1 / 4) = (3, 3 / 4) := by
    have hf : ⌊(-1 / 4 : ℝ)⌋ = -1 := by rw [Int.floor_eq_iff]; norm_num
    simp only [replaceInside, twoRings, ring, hat, GridTools.restrictToBsplineDomain]
    norm_num [hf]
  rw [hr]
  simp only [twoRings, constantRule, ddcConstant, evalNoBc, evalDir, ring, hat, List.getLast_cons_cons, List.getLast_singleton]
  norm_num

end Verif.MultipatchSpline
