import Verif.Props.Lagrange
import Mathlib.Analysis.Calculus.LocalExtr.Rolle
import Mathlib.Analysis.Calculus.IteratedDeriv.Lemmas
import Mathlib.Analysis.Calculus.Deriv.Polynomial
import Mathlib.Analysis.Calculus.ContDiff.Polynomial
import Mathlib.Data.Finset.Sort
import Mathlib.Tactic.Positivity
import Mathlib.Tactic.GCongr

/-! Tools for property C95: repeated Rolle theorem and error of polynomial interpolation. All statements are about arbitrary smooth functions. -/

namespace Verif.InterpError

open Finset Polynomial Set

/-- Rolle: between the `n + 1` zeros of a differentiable function lie `n` zeros of the derivative, different from them. -/
theorem rolle_step (g : ℝ → ℝ) (hg : Differentiable ℝ g) (a b : ℝ) (n : ℕ) (s : Finset ℝ) (hc : s.card = n + 1)
    (hs : ∀ z ∈ s, z ∈ Icc a b) (h0 : ∀ z ∈ s, g z = 0) :
    ∃ t : Finset ℝ, t.card = n ∧ (∀ z ∈ t, z ∈ Icc a b) ∧ (∀ z ∈ t, deriv g z = 0) ∧ Disjoint t s := by
  classical
  have e := s.orderIsoOfFin hc
  obtain ⟨z, hz⟩ : ∃ z : Fin (n + 1) ↪o ℝ, z = s.orderEmbOfFin hc := ⟨_, rfl⟩
  have hmem : ∀ i, z i ∈ s := fun i => by rw [hz]; exact s.orderEmbOfFin_mem hc i
  have hex : ∀ i : Fin n, ∃ c, z i.castSucc < c ∧ c < z i.succ ∧ deriv g c = 0 := by
    intro i
    have hlt : z i.castSucc < z i.succ := z.strictMono (Fin.castSucc_lt_succ)
    obtain ⟨c, hc', h⟩ := exists_deriv_eq_zero hlt hg.continuous.continuousOn (by rw [h0 _ (hmem _), h0 _ (hmem _)])
    exact ⟨c, hc'.1, hc'.2, h⟩
  choose c hc1 hc2 hc3 using hex
  have hmono : StrictMono c := by
    intro i j hij
    have : i.succ ≤ j.castSucc := by
      rw [Fin.le_def]; simp only [Fin.val_succ, Fin.val_castSucc]; exact hij
    exact (hc2 i).trans_le ((z.monotone this).trans (hc1 j).le)
  refine ⟨Finset.univ.image c, ?_, ?_, ?_, ?_⟩
  · rw [Finset.card_image_of_injective _ hmono.injective]; simp
  · intro y hy
    obtain ⟨i, -, rfl⟩ := Finset.mem_image.1 hy
    exact ⟨(hs _ (hmem _)).1.trans (hc1 i).le, (hc2 i).le.trans (hs _ (hmem _)).2⟩
  · intro y hy
    obtain ⟨i, -, rfl⟩ := Finset.mem_image.1 hy
    exact hc3 i
  · rw [Finset.disjoint_left]
    intro y hy hys
    obtain ⟨i, -, rfl⟩ := Finset.mem_image.1 hy
    have : c i ∈ Set.range z := by rw [hz, s.range_orderEmbOfFin hc]; exact hys
    obtain ⟨j, hj⟩ := this
    have a1 := hc1 i; have a2 := hc2 i
    rw [← hj] at a1 a2
    have b1 := z.lt_iff_lt.1 a1
    have b2 := z.lt_iff_lt.1 a2
    rw [Fin.lt_def] at b1 b2
    simp only [Fin.val_castSucc, Fin.val_succ] at b1 b2
    omega

/-- Repeated Rolle: `n + k` zeros give `n` zeros of the `k`-th derivative. -/
theorem rolle_iter (k : ℕ) : ∀ (g : ℝ → ℝ), ContDiff ℝ k g → ∀ (a b : ℝ) (n : ℕ) (s : Finset ℝ), s.card = n + k →
    (∀ z ∈ s, z ∈ Icc a b) → (∀ z ∈ s, g z = 0) →
    ∃ t : Finset ℝ, t.card = n ∧ (∀ z ∈ t, z ∈ Icc a b) ∧ (∀ z ∈ t, iteratedDeriv k g z = 0) := by
  induction k with
  | zero => intro g _ a b n s hc hs h0; exact ⟨s, hc, hs, by simpa using h0⟩
  | succ k ih =>
    intro g hg a b n s hc hs h0
    obtain ⟨t, ht, h1, h2, -⟩ := rolle_step g (hg.differentiable (by simp)) a b (n + k) s (by omega) hs h0
    have hd : ContDiff ℝ k (deriv g) := by
      have : ContDiff ℝ ((k : ℕ) + 1 : ℕ) g := hg
      exact ((contDiff_succ_iff_deriv (n := (k : WithTop ℕ∞))).1 (by exact_mod_cast this)).2.2
    obtain ⟨u, hu, h3, h4⟩ := ih (deriv g) hd a b n t ht h1 h2
    refine ⟨u, hu, h3, ?_⟩
    rw [iteratedDeriv_succ']
    exact h4

theorem iteratedDeriv_poly (P : ℝ[X]) (k : ℕ) : iteratedDeriv k (fun x => P.eval x) = fun x => (derivative^[k] P).eval x := by
  induction k with
  | zero => simp
  | succ k ih =>
    rw [iteratedDeriv_succ, ih, Function.iterate_succ_apply']
    funext x
    exact Polynomial.deriv _

/-- The nodal polynomial of a finite set. -/
noncomputable def nodal (t : Finset ℝ) : ℝ[X] := ∏ z ∈ t, (X - C z)

theorem nodal_eval (t : Finset ℝ) (x : ℝ) : (nodal t).eval x = ∏ z ∈ t, (x - z) := by
  simp [nodal, eval_prod]

theorem top_deriv_monic (W : ℝ[X]) (hW : W.Monic) (m : ℕ) (hd : W.natDegree = m) (x : ℝ) : (derivative^[m] W).eval x = m.factorial := by
  rw [Lagrange.iterate_derivative_eval, ← hd, coeff_taylor_natDegree, hW.leadingCoeff, mul_one]

theorem nodal_monic (t : Finset ℝ) : (nodal t).Monic := monic_prod_of_monic _ _ fun z _ => monic_X_sub_C z

theorem nodal_natDegree (t : Finset ℝ) : (nodal t).natDegree = t.card := by
  unfold nodal
  rw [natDegree_prod_of_monic _ _ fun z _ => monic_X_sub_C z]
  simp

theorem contDiff_poly (P : ℝ[X]) (k : WithTop ℕ∞) : ContDiff ℝ k (fun x => P.eval x) := P.contDiff_aeval k

theorem iteratedDeriv_sub_poly (g : ℝ → ℝ) (m : ℕ) (hg : ContDiff ℝ m g) (P : ℝ[X]) (x : ℝ) :
    iteratedDeriv m (fun y => g y - P.eval y) x = iteratedDeriv m g x - (derivative^[m] P).eval x := by
  rw [iteratedDeriv_fun_sub hg.contDiffAt (contDiff_poly P m).contDiffAt, iteratedDeriv_poly]

/-- A function with `m` zeros is the nodal polynomial times a value of its `m`-th derivative over `m!`. -/
theorem zeros_formula (g : ℝ → ℝ) (m : ℕ) (hg : ContDiff ℝ m g) (a b : ℝ) (t : Finset ℝ) (hc : t.card = m)
    (ht : ∀ z ∈ t, z ∈ Icc a b) (h0 : ∀ z ∈ t, g z = 0) (x : ℝ) (hx : x ∈ Icc a b) :
    ∃ ξ ∈ Icc a b, g x = iteratedDeriv m g ξ / m.factorial * ∏ z ∈ t, (x - z) := by
  classical
  by_cases hxt : x ∈ t
  · exact ⟨x, hx, by rw [h0 x hxt, Finset.prod_eq_zero hxt (sub_self x), mul_zero]⟩
  have hne : ∏ z ∈ t, (x - z) ≠ 0 := Finset.prod_ne_zero_iff.2 fun z hz h => hxt (by rwa [sub_eq_zero.1 h])
  obtain ⟨K, hK⟩ : ∃ K, K = g x / ∏ z ∈ t, (x - z) := ⟨_, rfl⟩
  obtain ⟨u, hu, h1, h2⟩ := rolle_iter m (fun y => g y - (C K * nodal t).eval y) (hg.sub (contDiff_poly _ _)) a b 1 (insert x t)
    (by rw [Finset.card_insert_of_notMem hxt, hc]; omega)
    (fun z hz => by rcases Finset.mem_insert.1 hz with rfl | h; exacts [hx, ht z h])
    (fun z hz => by
      rcases Finset.mem_insert.1 hz with rfl | h
      · rw [eval_mul, eval_C, nodal_eval, hK, div_mul_cancel₀ _ hne, sub_self]
      · rw [eval_mul, eval_C, nodal_eval, Finset.prod_eq_zero h (sub_self z), mul_zero, h0 z h, sub_zero])
  obtain ⟨ξ, rfl⟩ := Finset.card_eq_one.1 hu
  have h3 := h2 ξ (by simp)
  rw [iteratedDeriv_sub_poly _ _ hg, iterate_derivative_C_mul, eval_mul, eval_C, top_deriv_monic _ (nodal_monic t) m ((nodal_natDegree t).trans hc)] at h3
  refine ⟨ξ, h1 ξ (by simp), ?_⟩
  have : (m.factorial : ℝ) ≠ 0 := by exact_mod_cast m.factorial_ne_zero
  rw [sub_eq_zero.1 h3, mul_div_assoc, div_self this, mul_one, hK, div_mul_cancel₀ _ hne]

/-- Derivative at one of the zeros. -/
theorem zeros_deriv_formula (g : ℝ → ℝ) (m : ℕ) (hg : ContDiff ℝ m g) (a b : ℝ) (t : Finset ℝ) (hc : t.card = m)
    (ht : ∀ z ∈ t, z ∈ Icc a b) (h0 : ∀ z ∈ t, g z = 0) (x : ℝ) (hx : x ∈ t) :
    ∃ ξ ∈ Icc a b, deriv g x = iteratedDeriv m g ξ / m.factorial * ∏ z ∈ t.erase x, (x - z) := by
  classical
  have hm : 0 < m := hc ▸ Finset.card_pos.2 ⟨x, hx⟩
  obtain ⟨m, rfl⟩ : ∃ k, m = k + 1 := ⟨m - 1, by omega⟩
  have hne : ∏ z ∈ t.erase x, (x - z) ≠ 0 :=
    Finset.prod_ne_zero_iff.2 fun z hz h => (Finset.mem_erase.1 hz).1 (sub_eq_zero.1 h).symm
  have hW : (derivative (nodal t)).eval x = ∏ z ∈ t.erase x, (x - z) := by
    unfold nodal
    rw [derivative_prod_finset, eval_finsetSum, Finset.sum_eq_single x]
    · simp [eval_prod]
    · intro z hz hzx
      have : x ∈ t.erase z := Finset.mem_erase.2 ⟨hzx.symm, hx⟩
      simp [eval_prod, Finset.prod_eq_zero this]
    · exact fun h => absurd hx h
  obtain ⟨K, hK⟩ : ∃ K, K = deriv g x / ∏ z ∈ t.erase x, (x - z) := ⟨_, rfl⟩
  have hgd : Differentiable ℝ g := hg.differentiable (by simp)
  obtain ⟨h, hh⟩ : ∃ h : ℝ → ℝ, h = fun y => g y - (C K * nodal t).eval y := ⟨_, rfl⟩
  have hhc : ContDiff ℝ ((m + 1 : ℕ)) h := by rw [hh]; exact hg.sub (contDiff_poly _ _)
  have hhd : ContDiff ℝ m (deriv h) :=
    ((contDiff_succ_iff_deriv (n := (m : WithTop ℕ∞))).1 (by exact_mod_cast hhc)).2.2
  obtain ⟨u, hu, h1, h2, h3⟩ := rolle_step h (hhc.differentiable (by simp)) a b m t hc ht
    (fun z hz => by simp only [hh]; rw [eval_mul, nodal_eval, Finset.prod_eq_zero hz (sub_self z), mul_zero, h0 z hz, sub_zero])
  have hx0 : deriv h x = 0 := by
    have : HasDerivAt h (deriv g x - (derivative (C K * nodal t)).eval x) x := by
      rw [hh]; exact (hgd x).hasDerivAt.sub (Polynomial.hasDerivAt _ _)
    rw [this.deriv, derivative_C_mul, eval_mul, eval_C, hW, hK, div_mul_cancel₀ _ hne, sub_self]
  have hxu : x ∉ u := fun hxu => Finset.disjoint_left.1 h3 hxu hx
  obtain ⟨v, hv, h4, h5⟩ := rolle_iter m (deriv h) hhd a b 1 (insert x u) (by rw [Finset.card_insert_of_notMem hxu, hu]; omega)
    (fun z hz => by rcases Finset.mem_insert.1 hz with rfl | h; exacts [ht _ hx, h1 z h])
    (fun z hz => by rcases Finset.mem_insert.1 hz with rfl | h; exacts [hx0, h2 z h])
  obtain ⟨ξ, rfl⟩ := Finset.card_eq_one.1 hv
  have h6 := h5 ξ (by simp)
  rw [← iteratedDeriv_succ', hh, iteratedDeriv_sub_poly _ _ hg, iterate_derivative_C_mul, eval_mul, eval_C,
    top_deriv_monic _ (nodal_monic t) (m + 1) ((nodal_natDegree t).trans hc)] at h6
  refine ⟨ξ, h4 ξ (by simp), ?_⟩
  have : ((m + 1).factorial : ℝ) ≠ 0 := by exact_mod_cast (m + 1).factorial_ne_zero
  rw [sub_eq_zero.1 h6, mul_div_assoc, div_self this, mul_one, hK, div_mul_cancel₀ _ hne]

/-- Three zeros with a double one in the middle of the list `a, c, b`: the function is `g''''/4! (x-a)(x-c)²(x-b)`. -/
theorem hermite_formula (g : ℝ → ℝ) (hg : ContDiff ℝ 4 g) (a c b : ℝ) (hac : a < c) (hcb : c < b) (ha : g a = 0) (hc : g c = 0)
    (hb : g b = 0) (hd : deriv g c = 0) (x : ℝ) (hx : x ∈ Icc a b) :
    ∃ ξ ∈ Icc a b, g x = iteratedDeriv 4 g ξ / 24 * ((x - a) * (x - c) ^ 2 * (x - b)) := by
  classical
  by_cases hxt : x = a ∨ x = c ∨ x = b
  · refine ⟨x, hx, ?_⟩
    rcases hxt with rfl | rfl | rfl
    · rw [ha]; ring
    · rw [hc]; ring
    · rw [hb]; ring
  push Not at hxt
  obtain ⟨x1, x2, x3⟩ := hxt
  have hne : (x - a) * (x - c) ^ 2 * (x - b) ≠ 0 :=
    mul_ne_zero (mul_ne_zero (sub_ne_zero.2 x1) (pow_ne_zero _ (sub_ne_zero.2 x2))) (sub_ne_zero.2 x3)
  obtain ⟨K, hK⟩ : ∃ K, K = g x / ((x - a) * (x - c) ^ 2 * (x - b)) := ⟨_, rfl⟩
  obtain ⟨W, hW⟩ : ∃ W : ℝ[X], W = (X - C a) * (X - C c) ^ 2 * (X - C b) := ⟨_, rfl⟩
  have hWe : ∀ y, W.eval y = (y - a) * (y - c) ^ 2 * (y - b) := fun y => by rw [hW]; simp
  have hWm : W.Monic := by rw [hW]; exact ((monic_X_sub_C a).mul ((monic_X_sub_C c).pow 2)).mul (monic_X_sub_C b)
  have hWd : W.natDegree = 4 := by
    rw [hW, Monic.natDegree_mul ((monic_X_sub_C a).mul ((monic_X_sub_C c).pow 2)) (monic_X_sub_C b),
      Monic.natDegree_mul (monic_X_sub_C a) ((monic_X_sub_C c).pow 2), (monic_X_sub_C c).natDegree_pow]
    simp
  obtain ⟨h, hh⟩ : ∃ h : ℝ → ℝ, h = fun y => g y - (C K * W).eval y := ⟨_, rfl⟩
  have hhc : ContDiff ℝ ((3 + 1 : ℕ)) h := by rw [hh]; exact ContDiff.sub hg (contDiff_poly _ _)
  have hhd : ContDiff ℝ (3 : ℕ) (deriv h) :=
    ((contDiff_succ_iff_deriv (n := ((3 : ℕ) : WithTop ℕ∞))).1 (by exact_mod_cast hhc)).2.2
  have hab : a < b := hac.trans hcb
  have hset : ∀ z ∈ ({a, c, b, x} : Finset ℝ), z = a ∨ z = c ∨ z = b ∨ z = x := by simp
  obtain ⟨u, hu, h1, h2, h3⟩ := rolle_step h (hhc.differentiable (by simp)) a b 3 {a, c, b, x}
    (by
      rw [Finset.card_insert_of_notMem, Finset.card_insert_of_notMem, Finset.card_insert_of_notMem, Finset.card_singleton]
      · simpa using x3.symm
      · simp only [Finset.mem_insert, Finset.mem_singleton, not_or]; exact ⟨hcb.ne, x2.symm⟩
      · simp only [Finset.mem_insert, Finset.mem_singleton, not_or]; exact ⟨hac.ne, hab.ne, x1.symm⟩)
    (fun z hz => by
      rcases hset z hz with rfl | rfl | rfl | rfl
      exacts [⟨le_rfl, hab.le⟩, ⟨hac.le, hcb.le⟩, ⟨hab.le, le_rfl⟩, hx])
    (fun z hz => by
      simp only [hh, eval_mul, eval_C, hWe]
      rcases hset z hz with rfl | rfl | rfl | rfl
      · rw [ha]; ring
      · rw [hc]; ring
      · rw [hb]; ring
      · rw [hK, div_mul_cancel₀ _ hne, sub_self])
  have hc0 : deriv h c = 0 := by
    have hgd : Differentiable ℝ g := hg.differentiable (by norm_num)
    have : HasDerivAt h (deriv g c - (derivative (C K * W)).eval c) c := by
      rw [hh]; exact (hgd c).hasDerivAt.sub (Polynomial.hasDerivAt _ _)
    rw [this.deriv, hd, hW]
    simp [derivative_mul, derivative_pow]
  have hcu : c ∉ u := fun hcu => Finset.disjoint_left.1 h3 hcu (by simp)
  obtain ⟨v, hv, h4, h5⟩ := rolle_iter 3 (deriv h) hhd a b 1 (insert c u) (by rw [Finset.card_insert_of_notMem hcu, hu])
    (fun z hz => by rcases Finset.mem_insert.1 hz with rfl | h; exacts [⟨hac.le, hcb.le⟩, h1 z h])
    (fun z hz => by rcases Finset.mem_insert.1 hz with rfl | h; exacts [hc0, h2 z h])
  obtain ⟨ξ, rfl⟩ := Finset.card_eq_one.1 hv
  have h6 := h5 ξ (by simp)
  rw [← iteratedDeriv_succ', hh, iteratedDeriv_sub_poly _ _ hg, iterate_derivative_C_mul, eval_mul, eval_C,
    top_deriv_monic _ hWm (3 + 1) hWd] at h6
  refine ⟨ξ, h4 ξ (by simp), ?_⟩
  have e := sub_eq_zero.1 h6
  norm_num [Nat.factorial] at e
  rw [e, mul_div_assoc, div_self (by norm_num), mul_one, hK, div_mul_cancel₀ _ hne]

end Verif.InterpError
