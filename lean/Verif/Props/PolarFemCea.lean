import Verif.Props.PolarFemSolve

/-!
# C74: the finite element solution is the best approximation of the exact one in the energy norm
-/

namespace Verif.PolarFem

open Verif.PolarSplines Finset

theorem form_nonneg (z : Sz) (d : Dat) (el : Elliptic z d) (w : ℕ → ℕ → ℕ → ℕ → ℝ) : 0 ≤ form z d w w := by
  unfold form
  refine Finset.sum_nonneg fun qr hqr => Finset.sum_nonneg fun qt hqt => ?_
  rw [mem_range] at hqr hqt
  generalize w 1 0 qr qt = a
  generalize w 0 1 qr qt = b
  generalize w 0 0 qr qt = e
  have hv := el.vol qr hqr qt hqt
  have ha := el.alpha qr hqr qt hqt
  have hb := mul_nonneg (el.beta qr hqr qt hqt) (mul_self_nonneg e)
  have hm := el.metric qr hqr qt hqt ![a, b]
  simp only [Fin.sum_univ_two, Matrix.cons_val_zero, Matrix.cons_val_one] at hm
  refine mul_nonneg hv.le (add_nonneg (mul_nonneg ha.le ?_) hb)
  by_cases h0 : ![a, b] = 0
  · have h1 : a = 0 := by simpa using congrFun h0 0
    have h2 : b = 0 := by simpa using congrFun h0 1
    rw [h1, h2]; simp
  · have := hm h0
    linarith

/-- The solution of the assembled system satisfies the weak equation against every function of the space. -/
theorem galerkin_weak (z : Sz) (d : Dat) (g : Good z d) (wc : List (ℕ × ℕ)) (hc : wc.Perm (colWrites z)) (wv : List (ℕ × Option ℝ)) (hv : wv.Perm (valWrites z d (store wc)))
    (f : ℕ → ℕ → ℝ) (x : ℕ → ℝ) (hx : ∀ i < z.matSize, csrRow (ptr z) (store wc) (store wv) x i = rhs z d f i) (c : ℕ → ℝ) :
    form z d (field z d z.matSize c) (field z d z.matSize x) = ∑ qr ∈ range z.qR, ∑ qt ∈ range z.qT, f qr qt * field z d z.matSize c 0 0 qr qt * d.vol qr qt := by
  rw [← form_fields]
  have hrow : ∀ i ∈ range z.matSize, c i * ∑ j ∈ range z.matSize, galerkin z d i j * x j = c i * load z d f i := by
    intro i hi
    rw [mem_range] at hi
    have := hx i hi
    rw [c74_product z d g wc hc wv hv x i hi, c74_rhs z d g f i hi] at this
    rw [Option.some.inj this]
  rw [Finset.sum_congr rfl hrow]
  unfold load field
  simp only [Finset.mul_sum, Finset.sum_mul]
  rw [Finset.sum_comm]
  refine Finset.sum_congr rfl fun qr _ => ?_
  rw [Finset.sum_comm]
  refine Finset.sum_congr rfl fun qt _ => Finset.sum_congr rfl fun i _ => ?_
  ring

/-- C74: best approximation. Let `u` be any function (its value `u 0 0`, its radial derivative `u 1 0` and its poloidal derivative `u 0 1` at the quadrature points) that solves the weak problem up to a residual
(of the quadrature, of the data, …) not larger than `κ` in the dual of the energy norm: `|a(w, u) - ∫ f w| ≤ κ ‖w‖` for the functions `w` of the space. Then, in the energy norm, the square of the
distance of the solution of the assembled system from `u` is at most the one of any function of the finite element space, plus `κ²`. -/
theorem c74_best (z : Sz) (d : Dat) (g : Good z d) (el : Elliptic z d) (wc : List (ℕ × ℕ)) (hc : wc.Perm (colWrites z)) (wv : List (ℕ × Option ℝ)) (hv : wv.Perm (valWrites z d (store wc)))
    (f : ℕ → ℕ → ℝ) (x : ℕ → ℝ) (hx : ∀ i < z.matSize, csrRow (ptr z) (store wc) (store wv) x i = rhs z d f i) (u : ℕ → ℕ → ℕ → ℕ → ℝ) (κ : ℝ)
    (hu : ∀ c : ℕ → ℝ, (form z d (field z d z.matSize c) u - ∑ qr ∈ range z.qR, ∑ qt ∈ range z.qT, f qr qt * field z d z.matSize c 0 0 qr qt * d.vol qr qt) ^ 2 ≤
      κ ^ 2 * form z d (field z d z.matSize c) (field z d z.matSize c)) (y : ℕ → ℝ) :
    form z d (u - field z d z.matSize x) (u - field z d z.matSize x) ≤ form z d (u - field z d z.matSize y) (u - field z d z.matSize y) + κ ^ 2 := by
  obtain ⟨c, hcdef⟩ : ∃ c : ℕ → ℝ, c = fun i => y i - x i := ⟨_, rfl⟩
  have hf : ∀ a b q t, field z d z.matSize c a b q t = field z d z.matSize y a b q t - field z d z.matSize x a b q t := by
    intro a b q t
    unfold field
    rw [← Finset.sum_sub_distrib]
    exact Finset.sum_congr rfl fun i _ => by rw [hcdef]; ring
  have hr := hu c
  rw [← galerkin_weak z d g wc hc wv hv f x hx c] at hr
  have hpos := form_nonneg z d el (field z d z.matSize c)
  have hexp : form z d (u - field z d z.matSize y) (u - field z d z.matSize y) = form z d (u - field z d z.matSize x) (u - field z d z.matSize x)
      - (form z d (field z d z.matSize c) u - form z d (field z d z.matSize c) (field z d z.matSize x))
      - (form z d u (field z d z.matSize c) - form z d (field z d z.matSize x) (field z d z.matSize c)) + form z d (field z d z.matSize c) (field z d z.matSize c) := by
    unfold form
    simp only [hf, Pi.sub_apply, ← Finset.sum_sub_distrib, ← Finset.sum_add_distrib]
    refine Finset.sum_congr rfl fun qr _ => Finset.sum_congr rfl fun qt _ => ?_
    ring
  rw [form_symm z d g.symm u, form_symm z d g.symm (field z d z.matSize x)] at hexp
  obtain ⟨r, hrd⟩ : ∃ r, r = form z d (field z d z.matSize c) u - form z d (field z d z.matSize c) (field z d z.matSize x) := ⟨_, rfl⟩
  obtain ⟨q, hqd⟩ : ∃ q, q = form z d (field z d z.matSize c) (field z d z.matSize c) := ⟨_, rfl⟩
  rw [← hrd, ← hqd] at hexp hr
  rw [← hqd] at hpos
  have h2 : 2 * r ≤ q + κ ^ 2 := by
    refine le_of_abs_le (abs_le_of_sq_le_sq ?_ (by positivity))
    nlinarith [sq_nonneg (q - κ ^ 2)]
  linarith

/-- C74: if a function of the finite element space solves the weak problem, the solution of the assembled system is this function. -/
theorem c74_reproduces (z : Sz) (d : Dat) (g : Good z d) (el : Elliptic z d) {pr Pr pth Pth} (br : PolyBasis z.p z.cellsR d.rv pr Pr) (bt : PolyBasis z.p z.nT d.tv pth Pth)
    (hs : SingIndep z d) (wc : List (ℕ × ℕ)) (hc : wc.Perm (colWrites z)) (wv : List (ℕ × Option ℝ)) (hv : wv.Perm (valWrites z d (store wc)))
    (f : ℕ → ℕ → ℝ) (x : ℕ → ℝ) (hx : ∀ i < z.matSize, csrRow (ptr z) (store wc) (store wv) x i = rhs z d f i) (y : ℕ → ℝ)
    (hy : ∀ c : ℕ → ℝ, form z d (field z d z.matSize c) (field z d z.matSize y) = ∑ qr ∈ range z.qR, ∑ qt ∈ range z.qT, f qr qt * field z d z.matSize c 0 0 qr qt * d.vol qr qt) :
    ∀ i < z.matSize, x i = y i := by
  intro i hi
  by_contra hne
  have hpos := form_pos z d g.ok el br bt hs (fun i => y i - x i) ⟨i, hi, fun h => hne (by linarith)⟩
  have h := c74_best z d g el wc hc wv hv f x hx (field z d z.matSize y) 0 (fun c => by rw [hy c, sub_self]; simp) y
  have e0 : form z d (field z d z.matSize y - field z d z.matSize y) (field z d z.matSize y - field z d z.matSize y) = 0 := by
    unfold form
    simp
  have e1 : field z d z.matSize (fun i => y i - x i) = field z d z.matSize y - field z d z.matSize x := by
    funext a b q t
    unfold field
    simp only [Pi.sub_apply]
    rw [← Finset.sum_sub_distrib]
    exact Finset.sum_congr rfl fun i _ => by ring
  rw [e1] at hpos
  rw [e0] at h
  norm_num at h
  linarith

/-! ## A concrete case -/

/-- A function whose radial derivative oscillates between the two quadrature points of each cell: it is orthogonal to the space. -/
noncomputable def zigzag (oR oT qr _qt : ℕ) : ℝ := if oR = 1 ∧ oT = 0 then (-1) ^ qr else 0

theorem hatVal_one (c m k : ℕ) (hm : m < 2) : hatVal 1 (c * 2 + m) k = hatVal 1 (c * 2) k := by
  unfold hatVal hat
  rw [if_neg one_ne_zero, if_neg one_ne_zero, show (c * 2 + m) / 2 = c by omega, show c * 2 / 2 = c by omega]
  split <;> simp

theorem zigzag_orth (c : ℕ → ℝ) : form ⟨1, 1, 4, 4⟩ hatDat (field ⟨1, 1, 4, 4⟩ hatDat (⟨1, 1, 4, 4⟩ : Sz).matSize c) zigzag = 0 := by
  have hNR : ∀ k r m, m < 2 → NR ⟨1, 1, 4, 4⟩ hatDat 1 r (k * 2 + m) = NR ⟨1, 1, 4, 4⟩ hatDat 1 r (k * 2) := by
    intro k r m hm
    unfold NR
    simp only [hatDat]
    rw [show (k * 2 + m) / (1 + 1) = k by omega, show k * 2 / (1 + 1) = k by omega, hatVal_one k m _ hm]
  have hB : ∀ k j m t, m < 2 → B ⟨1, 1, 4, 4⟩ hatDat 1 0 j (k * 2 + m) t = B ⟨1, 1, 4, 4⟩ hatDat 1 0 j (k * 2) t := by
    intro k j m t hm
    unfold B
    simp only [hNR k _ m hm]
  have hF : ∀ k m t, m < 2 → field ⟨1, 1, 4, 4⟩ hatDat (⟨1, 1, 4, 4⟩ : Sz).matSize c 1 0 (k * 2 + m) t = field ⟨1, 1, 4, 4⟩ hatDat (⟨1, 1, 4, 4⟩ : Sz).matSize c 1 0 (k * 2) t := by
    intro k m t hm
    unfold field
    simp only [hB k _ m t hm]
  unfold form
  rw [Finset.sum_comm]
  refine Finset.sum_eq_zero fun t _ => ?_
  rw [show (⟨1, 1, 4, 4⟩ : Sz).qR = 3 * 2 by decide, sum_blocks]
  refine Finset.sum_eq_zero fun k _ => ?_
  rw [Finset.sum_range_succ, Finset.sum_range_one, hF k 0 t (by omega), hF k 1 t (by omega)]
  simp [zigzag, hatDat, pow_succ]

/-- The hypotheses hold: the Laplacian with linear B-splines, `f = 0`, and the function above, which is not zero. -/
example (x : ℕ → ℝ) (hx : ∀ i < (⟨1, 1, 4, 4⟩ : Sz).matSize,
    csrRow (ptr ⟨1, 1, 4, 4⟩) (store (colWrites ⟨1, 1, 4, 4⟩)) (store (valWrites ⟨1, 1, 4, 4⟩ hatDat (store (colWrites ⟨1, 1, 4, 4⟩)))) x i = rhs ⟨1, 1, 4, 4⟩ hatDat (fun _ _ => 0) i)
    (y : ℕ → ℝ) : form ⟨1, 1, 4, 4⟩ hatDat (zigzag - field ⟨1, 1, 4, 4⟩ hatDat (⟨1, 1, 4, 4⟩ : Sz).matSize x) (zigzag - field ⟨1, 1, 4, 4⟩ hatDat (⟨1, 1, 4, 4⟩ : Sz).matSize x) ≤
      form ⟨1, 1, 4, 4⟩ hatDat (zigzag - field ⟨1, 1, 4, 4⟩ hatDat (⟨1, 1, 4, 4⟩ : Sz).matSize y) (zigzag - field ⟨1, 1, 4, 4⟩ hatDat (⟨1, 1, 4, 4⟩ : Sz).matSize y) := by
  have := c74_best ⟨1, 1, 4, 4⟩ hatDat hatDat_good hatDat_elliptic _ (List.Perm.refl _) _ (List.Perm.refl _) (fun _ _ => 0) x hx zigzag 0 (fun c => by rw [zigzag_orth]; simp) y
  simpa using this

end Verif.PolarFem
