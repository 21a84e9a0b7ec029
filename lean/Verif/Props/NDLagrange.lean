import Verif.Model.NDLagrange
import Verif.Props.LagrangeEvaluator
import Mathlib.Tactic.Ring
import Mathlib.Tactic.Linarith
import Mathlib.Tactic.NormNum

/-!
# C73: Lagrange interpolation in several dimensions
-/

namespace Verif.NDLagrange

open Verif.LagrangeEvaluator Verif.Lagrange Polynomial

/-! ## Evaluation -/

/-- A 1D evaluation that does not fail is a weighted sum on the stencil. -/
theorem noBc_sum (e : Ev1) (o : ℕ) (x : ℝ) (c : ℕ) (hc : e.closest x = some c) (g : ℕ → ℝ) :
    e.noBc o g x = some (∑ i ∈ Finset.range (e.D + 1), g ((findStencil e.periodic e.D e.Nl e.len e.knot c x).1 + (i : ℤ)).toNat *
      e.basis o (findStencil e.periodic e.D e.Nl e.len e.knot c x).1 (findStencil e.periodic e.D e.Nl e.len e.knot c x).2 i) := by
  have key : ∀ (n : ℕ) (f : ℕ → ℝ), (List.range n).foldl (fun y (i : ℕ) => y + f i) 0 = ∑ i ∈ Finset.range n, f i := by
    intro n f
    induction n with
    | zero => simp
    | succ n ih => rw [List.range_succ, List.foldl_append, ih, Finset.sum_range_succ]; rfl
  unfold Ev1.noBc evalNoBc
  rw [hc, Option.map_some]
  simp only
  rw [key]

theorem fold_some (n : ℕ) (b : ℕ → ℝ) (t : ℕ → Option ℝ) (v : ℕ → ℝ) (h : ∀ i < n, t i = some (v i)) :
    (List.range n).foldl (fun (acc : Option ℝ) (i : ℕ) => acc.bind fun r => (t i).map fun u => r + b i * u) (some 0) =
      some (∑ i ∈ Finset.range n, b i * v i) := by
  induction n with
  | zero => simp
  | succ n ih =>
    rw [List.range_succ, List.foldl_append, ih fun i hi => h i (by omega), Finset.sum_range_succ]
    simp [h n (by omega)]

/-- One step of the recursion: if the evaluation in the other dimensions succeeds for all knots, the value is the 1D evaluation of the partial results. -/
theorem ndEval_cons (e e' : Ev1) (es : List Ev1) (o : ℕ) (os : List ℕ) (coef : List ℕ → ℝ) (x : ℝ) (xs : List ℝ) (c : ℕ) (hc : e.closest x = some c)
    (v : ℕ → ℝ) (h : ∀ k, ndEval (e' :: es) os (fun ks => coef (k :: ks)) xs = some (v k)) :
    ndEval (e :: e' :: es) (o :: os) coef (x :: xs) = e.noBc o v x := by
  rw [noBc_sum e o x c hc]
  simp only [ndEval, hc, Option.bind_some]
  rw [fold_some (e.D + 1) _ _ (fun i => v ((findStencil e.periodic e.D e.Nl e.len e.knot c x).1 + (i : ℤ)).toNat) (fun i _ => h _)]
  congr 1
  exact Finset.sum_congr rfl fun i _ => by ring

/-- Data of a successful evaluation: for each dimension the evaluator, the derivative order, the coordinate. -/
structure Point where
  e : Ev1
  o : ℕ
  x : ℝ

/-- **C73** Tensor product: on coefficients that are products of functions of one index, the ND evaluation (or derivative) is the product of the 1D ones. -/
theorem c73_tensor : ∀ (ps : List (Point × (ℕ → ℝ) × ℝ)), ps ≠ [] → (∀ p ∈ ps, p.1.e.noBc p.1.o p.2.1 p.1.x = some p.2.2) → ∀ a : ℝ,
    ndEval (ps.map fun p => p.1.e) (ps.map fun p => p.1.o) (fun ks => a * (List.zipWith (fun p k => p.2.1 k) ps ks).prod) (ps.map fun p => p.1.x) =
      some (a * (ps.map fun p => p.2.2).prod) := by
  intro ps
  induction ps with
  | nil => intro h; exact absurd rfl h
  | cons p ps ih =>
    intro _ hp a
    have h0 := hp p (by simp)
    have hc : ∃ c, p.1.e.closest p.1.x = some c := by
      unfold Ev1.noBc evalNoBc at h0
      rcases hcl : p.1.e.closest p.1.x with _ | c
      · rw [hcl] at h0; cases h0
      · exact ⟨c, rfl⟩
    obtain ⟨c, hc⟩ := hc
    have scale : ∀ t : ℝ, p.1.e.noBc p.1.o (fun k => t * p.2.1 k) p.1.x = some (t * p.2.2) := by
      intro t
      rw [noBc_sum _ _ _ c hc] at h0 ⊢
      rw [Option.some.injEq] at h0 ⊢
      rw [← h0, Finset.mul_sum]
      exact Finset.sum_congr rfl fun i _ => by ring
    rcases ps with _ | ⟨q, ps⟩
    · simp only [List.map_cons, List.map_nil, ndEval, List.zipWith_cons_cons, List.zipWith_nil_left, List.prod_cons, List.prod_nil, mul_one]
      exact scale a
    · simp only [List.map_cons] at ih ⊢
      rw [ndEval_cons _ _ _ _ _ _ _ _ c hc (fun k => a * p.2.1 k * (q.2.2 * (ps.map fun p => p.2.2).prod)) fun k => ?_]
      · rw [show (fun k => a * p.2.1 k * (q.2.2 * (ps.map fun p => p.2.2).prod)) =
            fun k => (a * (q.2.2 * (ps.map fun p => p.2.2).prod)) * p.2.1 k from funext fun k => by ring, scale]
        congr 1
        simp only [List.prod_cons]
        ring
      · have := ih (by simp) (fun r hr => hp r (by simp at hr ⊢; tauto)) (a * p.2.1 k)
        simp only [List.prod_cons] at this
        rw [← this]
        congr 1
        funext ks
        simp only [List.zipWith_cons_cons, List.prod_cons]
        ring

/-- **C73** Reproduction: if in each dimension the 1D evaluator at `x` gives the value at `y` of every function of a class, the ND evaluator gives `f(y_1, …, y_N)` for every `f` that
belongs to the classes in each variable, whatever the other variables. -/
theorem c73_reproduce : ∀ (ps : List (Point × ((ℝ → ℝ) → Prop) × ℝ)), ps ≠ [] →
    (∀ p ∈ ps, ∀ g, p.2.1 g → p.1.e.noBc p.1.o (fun k => g (p.1.e.knot k)) p.1.x = some (g p.2.2)) → (∀ p ∈ ps, ∃ g, p.2.1 g) →
    ∀ f : List ℝ → ℝ, (∀ (i : ℕ) (hi : i < ps.length) (before after : List ℝ), before.length = i → after.length + i + 1 = ps.length →
      (ps[i]).2.1 (fun z => f (before ++ z :: after))) →
    ndEval (ps.map fun p => p.1.e) (ps.map fun p => p.1.o) (fun ks => f (List.zipWith (fun p k => p.1.e.knot k) ps ks)) (ps.map fun p => p.1.x) =
      some (f (ps.map fun p => p.2.2)) := by
  intro ps
  induction ps with
  | nil => intro h; exact absurd rfl h
  | cons p ps ih =>
    intro _ hp hne f hf
    have hc : ∃ c, p.1.e.closest p.1.x = some c := by
      obtain ⟨g, hg⟩ := hne p (by simp)
      have h0 := hp p (by simp) g hg
      unfold Ev1.noBc evalNoBc at h0
      rcases hcl : p.1.e.closest p.1.x with _ | c
      · rw [hcl] at h0; cases h0
      · exact ⟨c, rfl⟩
    obtain ⟨c, hc⟩ := hc
    rcases ps with _ | ⟨q, ps⟩
    · have := hf 0 (by simp) [] [] rfl (by simp)
      simp only [List.map_cons, List.map_nil, ndEval, List.zipWith_cons_cons, List.zipWith_nil_left]
      exact hp p (by simp) (fun z => f [z]) (by simpa using this)
    · simp only [List.map_cons] at ih ⊢
      rw [ndEval_cons _ _ _ _ _ _ _ _ c hc (fun k => f (p.1.e.knot k :: q.2.2 :: ps.map fun p => p.2.2)) fun k => ?_]
      · have := hf 0 (by simp) [] (q.2.2 :: ps.map fun p => p.2.2) rfl (by simp)
        exact hp p (by simp) (fun z => f (z :: q.2.2 :: ps.map fun p => p.2.2)) (by simpa using this)
      · have := ih (by simp) (fun r hr => hp r (by simp at hr ⊢; tauto)) (fun r hr => hne r (by simp at hr ⊢; tauto)) (fun zs => f (p.1.e.knot k :: zs))
          (by
            intro i hi before after hb ha
            have := hf (i + 1) (by simp at hi ⊢; omega) (p.1.e.knot k :: before) after (by simp [hb]) (by simp at ha ⊢; omega)
            simpa using this)
        rw [← this]
        congr 1

/-- **C73** At the knots the interpolant takes the values of the coefficients. -/
theorem c73_knots : ∀ (ps : List (Point × ℕ)), ps ≠ [] → (∀ p ∈ ps, ∀ g, p.1.e.noBc p.1.o g p.1.x = some (g p.2)) → ∀ coef : List ℕ → ℝ,
    ndEval (ps.map fun p => p.1.e) (ps.map fun p => p.1.o) coef (ps.map fun p => p.1.x) = some (coef (ps.map fun p => p.2)) := by
  intro ps
  induction ps with
  | nil => intro h; exact absurd rfl h
  | cons p ps ih =>
    intro _ hp coef
    have h0 := hp p (by simp)
    have hc : ∃ c, p.1.e.closest p.1.x = some c := by
      have h0 := h0 fun _ => 0
      unfold Ev1.noBc evalNoBc at h0
      rcases hcl : p.1.e.closest p.1.x with _ | c
      · rw [hcl] at h0; cases h0
      · exact ⟨c, rfl⟩
    obtain ⟨c, hc⟩ := hc
    rcases ps with _ | ⟨q, ps⟩
    · simp only [List.map_cons, List.map_nil, ndEval]
      exact h0 _
    · simp only [List.map_cons] at ih ⊢
      rw [ndEval_cons _ _ _ _ _ _ _ _ c hc (fun k => coef (k :: q.2 :: ps.map fun p => p.2)) fun k => ?_]
      · exact h0 _
      · exact ih (by simp) (fun r hr => hp r (by simp at hr ⊢; tauto)) _

/-- The 1D evaluators of the code (no derivative) on a non-uniform basis. -/
noncomputable def evNU (eps : ℝ) (D Nl : ℕ) (knot : ℕ → ℝ) : Ev1 where
  periodic := false
  D := D
  Nl := Nl
  len := knot Nl - knot 0
  knot := knot
  closest := getclosestNU D Nl knot
  basis := fun _ s y j => evalBasisNU eps D (fun i => knot (s.toNat + i)) y j

/-- Inside of the domain the 1D evaluators reproduce polynomials, at a point that does not depend on the polynomial, and the values at the knots. -/
theorem evNU_acts (eps : ℝ) (heps : 0 < eps) (D Nl : ℕ) (hD : 0 < D) (hDN : D ≤ Nl) (knot : ℕ → ℝ) (hsp : Spaced Nl eps knot) (o : ℕ) :
    (∀ x, knot 0 ≤ x → x ≤ knot Nl → ∃ y, |x - y| ≤ eps ∧
      ∀ p : ℝ[X], p.natDegree ≤ D → (evNU eps D Nl knot).noBc o (fun k => p.eval (knot k)) x = some (p.eval y)) ∧
    (∀ k ≤ Nl, ∀ g, (evNU eps D Nl knot).noBc o g (knot k) = some (g k)) := by
  have hk : Increasing Nl knot := fun i j h h' => by have := hsp i j h h'; linarith
  have hok := basisOK_non_uniform eps heps D Nl knot hk
  have hin : ∀ x, knot 0 ≤ x → x ≤ knot Nl → ∃ s : ℕ, s + D ≤ Nl ∧ knot s ≤ x ∧ x ≤ knot (s + D) ∧ ∀ coef : ℕ → ℝ,
      (evNU eps D Nl knot).noBc o coef x = some (∑ i ∈ Finset.range (D + 1), coef (s + i) * evalBasisNU eps D (fun i => knot (s + i)) x i) := by
    intro x h0 h1
    obtain ⟨c, hc, hb⟩ := c19_closest_non_uniform D Nl (by omega) knot hk x h0 h1
    obtain ⟨s, hs, hsD, hx0, hx1, _⟩ := c19_stencil_non_periodic D Nl hD hDN knot hk x (knot Nl - knot 0) h0 h1 c hb
    refine ⟨s, hsD, hx0, hx1, fun coef => ?_⟩
    rw [noBc_sum (evNU eps D Nl knot) o x c hc]
    simp only [evNU, hs]
    congr 1
  constructor
  · intro x h0 h1
    obtain ⟨s, hsD, hx0, hx1, he⟩ := hin x h0 h1
    obtain ⟨y, hy, hv⟩ := hok s x hsD hx0 hx1
    refine ⟨y, ?_, fun p hp => ?_⟩
    · rcases hy with h | ⟨_, _, _, hd⟩
      · rw [h, sub_self, abs_zero]; exact heps.le
      · exact hd
    · rw [he]
      congr 1
      exact (c17_reproduction D (fun i => knot (s + i)) (distinct_of_increasing hk s hsD) y _ (by simpa using hv)).2 p hp
  · intro k hkN g
    obtain ⟨s, hsD, hx0, hx1, he⟩ := hin (knot k) (hk.le (by omega) hkN) (hk.le hkN le_rfl)
    obtain ⟨i, hi, rfl⟩ := knot_in_stencil hk s D k hsD hkN hx0 hx1
    rw [he, sum_kronecker D i hi (fun j => g (s + j)) _ fun j hj => by
      have := basis_at_knot hk hok hsp s hsD i hi j hj
      simpa using this]

/-! ## Builder -/

/-- Where the value of a knot comes from: the congruent point in the periodic dimensions. -/
def wrap (n : ℕ) (dims : ℕ → DimB) (k : ℕ → ℕ) : ℕ → ℕ :=
  fun d => if d < n ∧ (dims d).periodic = true ∧ (dims d).Nl ≤ k d then k d - (dims d).Nl else k d

/-- The index is in the index range of the coefficients. -/
def InFull (n : ℕ) (dims : ℕ → DimB) (k : ℕ → ℕ) : Prop := ∀ d < n, k d < (dims d).full

/-- The knot is among those written when the first `m` dimensions have been treated. -/
def Written (n m : ℕ) (dims : ℕ → DimB) (k : ℕ → ℕ) : Prop :=
  (∀ d, m ≤ d → d < n → (dims d).periodic = true → k d < (dims d).Nl) ∧
  ∀ i j, i < j → j < m → (dims i).periodic = true → (dims j).periodic = true → (dims j).Nl ≤ k j → (dims i).Nl ≤ k i

theorem build_inv {V : Type*} (n : ℕ) (dims : ℕ → DimB) (hD : ∀ d, (dims d).periodic = true → (dims d).D + 1 ≤ (dims d).Nl)
    (vals : (ℕ → ℕ) → V) : ∀ m ≤ n,
    (∀ d, (((List.range m).foldl (copyDim n dims) (fill n dims vals)).filled d) =
      if d < m ∧ (dims d).periodic = true then ((dims d).Nl, (dims d).D + 1) else (0, (dims d).bp)) ∧
    ∀ k, InFull n dims k →
      (Written n m dims k → ((List.range m).foldl (copyDim n dims) (fill n dims vals)).coef k = some (vals (wrap m dims k))) ∧
      (¬ Written n m dims k → ((List.range m).foldl (copyDim n dims) (fill n dims vals)).coef k = none) := by
  intro m
  induction m with
  | zero =>
    intro _
    refine ⟨fun d => by simp [fill], fun k hk => ?_⟩
    have hw : wrap 0 dims k = k := by funext d; simp [wrap]
    have hiff : Written n 0 dims k ↔ ∀ d < n, k d < (dims d).bp := by
      constructor
      · rintro ⟨h, _⟩ d hd
        unfold DimB.bp
        have := hk d hd
        unfold DimB.full at this
        split <;> rename_i hp
        · exact h d (by omega) hd hp
        · rw [if_neg hp] at this; exact this
      · intro h
        refine ⟨fun d _ hd hp => ?_, fun i j _ hj => absurd hj (by omega)⟩
        have := h d hd
        rw [DimB.bp, if_pos hp] at this; exact this
    rw [hiff, hw]
    simp only [List.range_zero, List.foldl_nil, fill]
    exact ⟨fun h => if_pos h, fun h => if_neg h⟩
  | succ m ih =>
    intro hm
    obtain ⟨hf, hc⟩ := ih (by omega)
    rw [List.range_succ, List.foldl_append, List.foldl_cons, List.foldl_nil]
    generalize (List.range m).foldl (copyDim n dims) (fill n dims vals) = s at hf hc
    by_cases hp : (dims m).periodic = true
    · have hbp : (dims m).bp = (dims m).Nl := by rw [DimB.bp, if_pos hp]
      have hfull : (dims m).full = (dims m).Nl + ((dims m).D + 1) := by rw [DimB.full, if_pos hp]
      have hDm := hD m hp
      have hfm : s.filled m = (0, (dims m).Nl) := by rw [hf m, if_neg (by simp), hbp]
      unfold copyDim
      rw [if_pos hp]
      simp only [hbp, hfull, hfm, Nat.add_sub_cancel_left, zero_add]
      constructor
      · intro d
        by_cases hd : d = m
        · subst hd; simp [hp]
        · rw [Function.update_of_ne hd, hf d]
          have : d < m + 1 ↔ d < m := by omega
          simp only [this]
      · intro k hk
        have hkm := hk m (by omega)
        rw [hfull] at hkm
        by_cases hlt : k m < (dims m).Nl
        · have hneg : ¬ (((dims m).Nl ≤ k m ∧ k m < (dims m).Nl + ((dims m).D + 1)) ∧
              ∀ j < n, j ≠ m → (s.filled j).1 ≤ k j ∧ k j < (s.filled j).1 + (s.filled j).2) := by
            rintro ⟨⟨h, _⟩, _⟩; omega
          rw [if_neg hneg]
          have hiff : Written n (m + 1) dims k ↔ Written n m dims k := by
            constructor
            · rintro ⟨h1, h2⟩
              refine ⟨fun d hd hdn hdp => ?_, fun i j hij hj => h2 i j hij (by omega)⟩
              rcases Nat.eq_or_lt_of_le hd with h | h
              · rw [← h]; exact hlt
              · exact h1 d (by omega) hdn hdp
            · rintro ⟨h1, h2⟩
              refine ⟨fun d hd hdn hdp => h1 d (by omega) hdn hdp, fun i j hij hj hi hjp hle => ?_⟩
              rcases Nat.eq_or_lt_of_le (show j ≤ m by omega) with h | h
              · rw [h] at hle; omega
              · exact h2 i j hij h hi hjp hle
          have hw : wrap (m + 1) dims k = wrap m dims k := by
            funext d
            unfold wrap
            by_cases hd : d = m
            · rw [hd, if_neg (by rintro ⟨_, _, h⟩; omega), if_neg (by rintro ⟨_, _, h⟩; omega)]
            · have : d < m + 1 ↔ d < m := by omega
              simp only [this]
          rw [hiff, hw]
          exact hc k hk
        · have hge : (dims m).Nl ≤ k m := by omega
          by_cases hr : ∀ j < n, j ≠ m → (s.filled j).1 ≤ k j ∧ k j < (s.filled j).1 + (s.filled j).2
          · rw [if_pos ⟨⟨hge, hkm⟩, hr⟩, if_pos (by omega)]
            have hall : ∀ i < m, (dims i).periodic = true → (dims i).Nl ≤ k i := by
              intro i hi hpi
              have := (hr i (by omega) (by omega)).1
              rw [hf i, if_pos ⟨hi, hpi⟩] at this
              exact this
            have hlate : ∀ d, m < d → d < n → (dims d).periodic = true → k d < (dims d).Nl := by
              intro d hd hdn hdp
              have := (hr d hdn (by omega)).2
              rw [hf d, if_neg (by rintro ⟨h, _⟩; omega), DimB.bp, if_pos hdp, zero_add] at this
              exact this
            have hW : Written n (m + 1) dims k :=
              ⟨fun d hd hdn hdp => hlate d (by omega) hdn hdp, fun i j hij hj hi _ _ => hall i (by omega) hi⟩
            refine ⟨fun _ => ?_, fun h => absurd hW h⟩
            have hin : InFull n dims (Function.update k m (k m - (dims m).Nl)) := by
              intro d hd
              by_cases hdm : d = m
              · subst hdm; rw [Function.update_self, hfull]; omega
              · rw [Function.update_of_ne hdm]; exact hk d hd
            rw [(hc _ hin).1 ⟨?_, ?_⟩]
            · congr 2
              funext d
              unfold wrap
              by_cases hdm : d = m
              · subst hdm
                rw [Function.update_self, if_neg (by rintro ⟨h, _⟩; omega), if_pos ⟨by omega, hp, hge⟩]
              · rw [Function.update_of_ne hdm]
                have : d < m + 1 ↔ d < m := by omega
                simp only [this]
            · intro d hd hdn hdp
              by_cases hdm : d = m
              · subst hdm; rw [Function.update_self]; omega
              · rw [Function.update_of_ne hdm]; exact hlate d (by omega) hdn hdp
            · intro i j hij hj hi _ _
              rw [Function.update_of_ne (by omega)]
              exact hall i (by omega) hi
          · rw [if_neg (fun h => hr h.2)]
            have hnW : ¬ Written n m dims k := fun h => absurd (h.1 m le_rfl (by omega) hp) (by omega)
            have hnW' : ¬ Written n (m + 1) dims k := by
              rintro ⟨h1, h2⟩
              apply hr
              intro j hj hjm
              have hkj := hk j hj
              rw [hf j]
              by_cases hjp : (dims j).periodic = true
              · rw [DimB.full, if_pos hjp] at hkj
                by_cases hlt' : j < m
                · rw [if_pos ⟨hlt', hjp⟩]
                  exact ⟨h2 j m hlt' (by omega) hjp hp hge, hkj⟩
                · rw [if_neg (fun h => hlt' h.1), DimB.bp, if_pos hjp]
                  exact ⟨Nat.zero_le _, by rw [zero_add]; exact h1 j (by omega) hj hjp⟩
              · rw [DimB.full, if_neg hjp] at hkj
                rw [if_neg (fun h => hjp h.2), DimB.bp, if_neg hjp]
                exact ⟨Nat.zero_le _, by rw [zero_add]; exact hkj⟩
            exact ⟨fun h => absurd h hnW', fun _ => (hc k hk).2 hnW⟩
    · unfold copyDim
      rw [if_neg hp]
      constructor
      · intro d
        rw [hf d]
        by_cases hd : d = m
        · subst hd; rw [if_neg (fun h => hp h.2), if_neg (fun h => hp h.2)]
        · have : d < m + 1 ↔ d < m := by omega
          simp only [this]
      · intro k hk
        have hiff : Written n (m + 1) dims k ↔ Written n m dims k := by
          constructor
          · rintro ⟨h1, h2⟩
            refine ⟨fun d hd hdn hdp => ?_, fun i j hij hj => h2 i j hij (by omega)⟩
            rcases Nat.eq_or_lt_of_le hd with h | h
            · exact absurd hdp (by rw [← h]; exact hp)
            · exact h1 d (by omega) hdn hdp
          · rintro ⟨h1, h2⟩
            refine ⟨fun d hd hdn hdp => h1 d (by omega) hdn hdp, fun i j hij hj hi hjp hle => ?_⟩
            rcases Nat.eq_or_lt_of_le (show j ≤ m by omega) with h | h
            · exact absurd hjp (by rw [h]; exact hp)
            · exact h2 i j hij h hi hjp hle
        have hw : wrap (m + 1) dims k = wrap m dims k := by
          funext d
          unfold wrap
          by_cases hd : d = m
          · rw [hd, if_neg (fun h => hp h.2.1), if_neg (fun h => hp h.2.1)]
          · have : d < m + 1 ↔ d < m := by omega
            simp only [this]
        rw [hiff, hw]
        exact hc k hk

open Classical in
/-- **C73** What the builder writes, for any number of dimensions and any of them periodic (with at least `D + 1` points): the coefficient of a knot is the value at the congruent
point, provided that the periodic dimensions in which the knot is a repeated one are the *first* periodic dimensions; all other coefficients are never written. -/
theorem c73_builder {V : Type*} (n : ℕ) (dims : ℕ → DimB) (hD : ∀ d, (dims d).periodic = true → (dims d).D + 1 ≤ (dims d).Nl)
    (vals : (ℕ → ℕ) → V) (k : ℕ → ℕ) (hk : InFull n dims k) :
    (build n dims vals).coef k =
      if ∀ i j, i < j → j < n → (dims i).periodic = true → (dims j).periodic = true → (dims j).Nl ≤ k j → (dims i).Nl ≤ k i
      then some (vals (wrap n dims k)) else none := by
  have h := (build_inv n dims hD vals n le_rfl).2 k hk
  by_cases hw : ∀ i j, i < j → j < n → (dims i).periodic = true → (dims j).periodic = true → (dims j).Nl ≤ k j → (dims i).Nl ≤ k i
  · rw [if_pos hw]
    exact h.1 ⟨fun d h1 h2 => absurd h1 (by omega), hw⟩
  · rw [if_neg hw]
    exact h.2 fun hW => hw hW.2

/-- **C73** With at most one periodic dimension all the coefficients are written, with the value at the congruent point. -/
theorem c73_builder_one_periodic {V : Type*} (n : ℕ) (dims : ℕ → DimB) (hD : ∀ d, (dims d).periodic = true → (dims d).D + 1 ≤ (dims d).Nl)
    (h1 : ∀ i j, i < n → j < n → (dims i).periodic = true → (dims j).periodic = true → i = j)
    (vals : (ℕ → ℕ) → V) (k : ℕ → ℕ) (hk : InFull n dims k) :
    (build n dims vals).coef k = some (vals fun d => if d < n ∧ (dims d).periodic = true then k d % (dims d).Nl else k d) := by
  rw [c73_builder n dims hD vals k hk, if_pos fun i j hij hj hi hjp _ => absurd (h1 i j (by omega) hj hi hjp) (by omega)]
  congr 2
  funext d
  unfold wrap
  by_cases hd : d < n ∧ (dims d).periodic = true
  · have h := hk d hd.1
    have h' := hD d hd.2
    rw [DimB.full, if_pos hd.2] at h
    rw [if_pos hd]
    by_cases hle : (dims d).Nl ≤ k d
    · rw [if_pos ⟨hd.1, hd.2, hle⟩, Nat.mod_eq_sub_mod hle, Nat.mod_eq_of_lt (by omega)]
    · rw [if_neg (by rintro ⟨_, _, h⟩; exact hle h), Nat.mod_eq_of_lt (by omega)]
  · rw [if_neg hd, if_neg (by rintro ⟨h, h', _⟩; exact hd ⟨h, h'⟩)]

/-- **C73** As soon as two dimensions are periodic, some coefficients of the interpolation range are never written. -/
theorem c73_builder_two_periodic {V : Type*} (n : ℕ) (dims : ℕ → DimB) (hD : ∀ d, (dims d).periodic = true → (dims d).D + 1 ≤ (dims d).Nl)
    (i j : ℕ) (hij : i < j) (hj : j < n) (hi : (dims i).periodic = true) (hjp : (dims j).periodic = true) (vals : (ℕ → ℕ) → V) :
    ∃ k, InFull n dims k ∧ (build n dims vals).coef k = none := by
  refine ⟨fun d => if d = j then (dims j).Nl else 0, ?_, ?_⟩
  · intro d _
    unfold DimB.full
    have := hD d
    by_cases h : d = j
    · subst h; simp [hjp]
    · simp only [h, if_false]; split <;> omega
  · rw [c73_builder n dims hD vals, if_neg]
    · intro h
      have := h i j hij hj hi hjp (by simp)
      have h' := hD i hi
      simp only [show i ≠ j by omega, if_false] at this
      omega
    · intro d _
      unfold DimB.full
      have := hD d
      by_cases h : d = j
      · subst h; simp [hjp]
      · simp only [h, if_false]; split <;> omega

/-- Two dimensions, the first periodic with 4 cells, cubic: all 8 × 4 coefficients. -/
example (vals : (ℕ → ℕ) → ℝ) (k : ℕ → ℕ) (h0 : k 0 < 8) (h1 : k 1 < 4) :
    (build 2 (fun d => if d = 0 then ⟨true, 3, 4⟩ else ⟨false, 3, 3⟩) vals).coef k =
      some (vals fun d => if d = 0 then k 0 % 4 else k d) := by
  rw [c73_builder_one_periodic]
  · congr 2
    funext d
    by_cases h : d = 0
    · subst h; simp
    · simp [h]
  · intro d; by_cases h : d = 0 <;> simp [h]
  · intro i j hi hj
    by_cases h : i = 0 <;> by_cases h' : j = 0 <;> simp [h, h']
  · intro d hd
    have : d = 0 ∨ d = 1 := by omega
    rcases this with rfl | rfl <;> simp [DimB.full] <;> omega

/-! ## Inside of the domain: polynomials -/

/-- **C73** Instance with the evaluators of the code, any number of non-periodic dimensions: a function that is a polynomial of degree at most `D` in each variable is reproduced
(up to the node tolerance on the point), at any point of the domain. -/
theorem c73_polynomials (ds : List (ℝ × ℕ × ℕ × (ℕ → ℝ) × ℝ)) (hne : ds ≠ [])
    (hds : ∀ d ∈ ds, 0 < d.1 ∧ 0 < d.2.1 ∧ d.2.1 ≤ d.2.2.1 ∧ Spaced d.2.2.1 d.1 d.2.2.2.1 ∧ d.2.2.2.1 0 ≤ d.2.2.2.2 ∧ d.2.2.2.2 ≤ d.2.2.2.1 d.2.2.1) :
    ∃ ys : List ℝ, List.Forall₂ (fun d y => |d.2.2.2.2 - y| ≤ d.1) ds ys ∧
      ∀ f : List ℝ → ℝ, (∀ (i : ℕ) (hi : i < ds.length) (before after : List ℝ), before.length = i → after.length + i + 1 = ds.length →
        ∃ p : ℝ[X], p.natDegree ≤ (ds[i]).2.1 ∧ ∀ z, f (before ++ z :: after) = p.eval z) →
      ndOperator (ds.map fun d => evNU d.1 d.2.1 d.2.2.1 d.2.2.2.1) (fun ks => f (List.zipWith (fun d k => d.2.2.2.1 k) ds ks)) (ds.map fun d => d.2.2.2.2) =
        some (f ys) := by
  have hy : ∃ ys : List ℝ, List.Forall₂ (fun d y => |d.2.2.2.2 - y| ≤ d.1 ∧ ∀ p : ℝ[X], p.natDegree ≤ d.2.1 →
      (evNU d.1 d.2.1 d.2.2.1 d.2.2.2.1).noBc 0 (fun k => p.eval (d.2.2.2.1 k)) d.2.2.2.2 = some (p.eval y)) ds ys := by
    clear hne
    induction ds with
    | nil => exact ⟨[], List.Forall₂.nil⟩
    | cons d ds ih =>
      obtain ⟨ys, hys⟩ := ih fun d hd => hds d (by simp [hd])
      obtain ⟨h1, h2, h3, h4, h5, h6⟩ := hds d (by simp)
      obtain ⟨y, hy, hp⟩ := (evNU_acts d.1 h1 d.2.1 d.2.2.1 h2 h3 d.2.2.2.1 h4 0).1 _ h5 h6
      exact ⟨y :: ys, List.Forall₂.cons ⟨hy, hp⟩ hys⟩
  obtain ⟨ys, hys⟩ := hy
  have hlen := hys.length_eq
  refine ⟨ys, hys.imp fun _ _ h => h.1, fun f hf => ?_⟩
  have key := c73_reproduce
    (List.zipWith (fun d y => ((⟨evNU d.1 d.2.1 d.2.2.1 d.2.2.2.1, 0, d.2.2.2.2⟩ : Point),
      (fun g : ℝ → ℝ => ∃ p : ℝ[X], p.natDegree ≤ d.2.1 ∧ ∀ z, g z = p.eval z), y)) ds ys)
    (by
      rcases ds with _ | ⟨d, ds⟩
      · exact absurd rfl hne
      · rcases ys with _ | ⟨y, ys⟩
        · simp at hlen
        · simp)
    (by
      intro p hp g hg
      obtain ⟨i, hi, rfl⟩ := List.mem_iff_getElem.1 hp
      simp only [List.getElem_zipWith] at hg ⊢
      obtain ⟨q, hq, hgq⟩ := hg
      have h := List.forall₂_iff_get.1 hys
      simp at hi
      have := (h.2 i hi.1 hi.2).2 q hq
      simp only [List.get_eq_getElem] at this
      simp only [hgq]
      exact this)
    (by
      intro p hp
      obtain ⟨i, hi, rfl⟩ := List.mem_iff_getElem.1 hp
      simp only [List.getElem_zipWith]
      exact ⟨fun _ => 0, 0, by simp, fun z => by simp⟩)
    f
    (by
      intro i hi before after hb ha
      simp only [List.length_zipWith, hlen, min_self] at hi ha
      simp only [List.getElem_zipWith]
      exact hf i (by omega) before after hb (by omega))
  simp only [List.map_zipWith] at key
  have e1 : ∀ {β : Type} (g : (ℝ × ℕ × ℕ × (ℕ → ℝ) × ℝ) → β), List.zipWith (fun d (_ : ℝ) => g d) ds ys = ds.map g := by
    intro β g
    apply List.ext_getElem
    · simp [hlen]
    · intro i h1 h2; simp
  have e2 : List.zipWith (fun (_ : ℝ × ℕ × ℕ × (ℕ → ℝ) × ℝ) (y : ℝ) => y) ds ys = ys := by
    apply List.ext_getElem
    · simp [hlen]
    · intro i h1 h2; simp
  unfold ndOperator
  rw [List.map_map]
  rw [e1, e1, e1, e2] at key
  have e3 : ∀ ks : List ℕ, List.zipWith (fun (p : Point × ((ℝ → ℝ) → Prop) × ℝ) k => p.1.e.knot k)
      (List.zipWith (fun d y => ((⟨evNU d.1 d.2.1 d.2.2.1 d.2.2.2.1, 0, d.2.2.2.2⟩ : Point),
      (fun g : ℝ → ℝ => ∃ p : ℝ[X], p.natDegree ≤ d.2.1 ∧ ∀ z, g z = p.eval z), y)) ds ys) ks = List.zipWith (fun d k => d.2.2.2.1 k) ds ks := by
    intro ks
    apply List.ext_getElem
    · simp [hlen]
    · intro i h1 h2; simp [evNU]
  simp only [e3] at key
  exact key

/-- Concrete case: bilinear functions on a square with 3 × 2 knots. -/
example : ∃ y z : ℝ, |(3 / 2 : ℝ) - y| ≤ 1 / 100 ∧ |(1 / 3 : ℝ) - z| ≤ 1 / 100 ∧
    ndOperator [evNU (1 / 100) 1 2 (fun k => (k : ℝ)), evNU (1 / 100) 1 1 (fun k => (k : ℝ))]
      (fun ks => match List.zipWith (fun (_ : ℕ) (k : ℕ) => (k : ℝ)) [0, 0] ks with | [a, b] => a * b | _ => 0) [3 / 2, 1 / 3] = some (y * z) := by
  have hs : ∀ n : ℕ, Spaced n (1 / 100) (fun k => (k : ℝ)) := by
    intro n i j hij _
    have : (i : ℝ) + 1 ≤ j := by exact_mod_cast hij
    show (1 / 100 : ℝ) < (j : ℝ) - i
    linarith
  obtain ⟨ys, hys, h⟩ := c73_polynomials [(1 / 100, 1, 2, (fun k => (k : ℝ)), 3 / 2), (1 / 100, 1, 1, (fun k => (k : ℝ)), 1 / 3)] (by simp)
    (by
      intro d hd
      simp only [List.mem_cons, List.not_mem_nil, or_false] at hd
      rcases hd with rfl | rfl
      · exact ⟨by norm_num, by norm_num, by norm_num, hs 2, by norm_num, by norm_num⟩
      · exact ⟨by norm_num, by norm_num, by norm_num, hs 1, by norm_num, by norm_num⟩)
  rcases hys with _ | ⟨hy, _ | ⟨hz, _ | _⟩⟩
  rename_i y z
  refine ⟨y, z, hy, hz, ?_⟩
  have := h (fun zs => match zs with | [a, b] => a * b | _ => 0) (by
    intro i hi before after hb ha
    simp at hi ha
    have hi' : i = 0 ∨ i = 1 := by omega
    rcases hi' with rfl | rfl
    · obtain rfl := List.length_eq_zero_iff.1 hb
      obtain ⟨b, rfl⟩ := List.length_eq_one_iff.1 (show after.length = 1 by omega)
      exact ⟨C b * X, by simpa using natDegree_C_mul_le b X |>.trans natDegree_X_le, fun z => by simp; ring⟩
    · obtain ⟨a, rfl⟩ := List.length_eq_one_iff.1 hb
      obtain rfl := List.length_eq_zero_iff.1 (show after.length = 0 by omega)
      exact ⟨C a * X, by simpa using natDegree_C_mul_le a X |>.trans natDegree_X_le, fun z => by simp⟩)
  have e : ∀ ks : List ℕ, List.zipWith (fun (_ : ℕ) (k : ℕ) => (k : ℝ)) [0, 0] ks =
      List.zipWith (fun (d : ℝ × ℕ × ℕ × (ℕ → ℝ) × ℝ) k => d.2.2.2.1 k)
        [(1 / 100, 1, 2, (fun k => (k : ℝ)), 3 / 2), (1 / 100, 1, 1, (fun k => (k : ℝ)), 1 / 3)] ks := by
    intro ks
    rcases ks with _ | ⟨a, _ | ⟨b, _ | _⟩⟩ <;> rfl
  simp only [e]
  exact this

/-! ## Outside of the domain -/

theorem searchCell_above (knot : ℕ → ℝ) (x : ℝ) (Nl : ℕ) (h : ∀ k ≤ Nl, knot k < x) (a b : ℕ) (hb : b ≤ Nl) (hab : a < b) : searchCell knot x a b = none := by
  induction hn : b - a using Nat.strong_induction_on generalizing a b with
  | _ n ih =>
    rw [searchCell]
    have h1 := h (a + (b - a) / 2 + 1) (by omega)
    have h0 := h (a + (b - a) / 2) (by omega)
    simp only [h1, or_true, if_true, not_lt.2 h0.le, if_false]
    split
    · rfl
    · exact ih _ (by omega) (a + (b - a) / 2) b hb (by omega) rfl

/-- **C73** Outside of the domain the extrapolation rules of the evaluators are not applied (the documentation says that those of the last one are). On a non-uniform grid the
search of the cell does not end, in whatever dimension the coordinate is too large. -/
theorem c73_outside_hangs (eps : ℝ) (D Nl : ℕ) (hNl : 0 < Nl) (knot : ℕ → ℝ) (x : ℝ) (h : ∀ k ≤ Nl, knot k < x) :
    ∀ (pre : List (Ev1 × ℝ)) (post : List (Ev1 × ℝ)) (coef : List ℕ → ℝ),
      ndOperator (pre.map (·.1) ++ evNU eps D Nl knot :: post.map (·.1)) coef (pre.map (·.2) ++ x :: post.map (·.2)) = none := by
  have hcl : (evNU eps D Nl knot).closest x = none := by
    show getclosestNU D Nl knot x = none
    unfold getclosestNU
    rw [searchCell_above knot x Nl h 0 Nl le_rfl hNl]
    rfl
  unfold ndOperator
  intro pre
  induction pre with
  | nil =>
    intro post coef
    rcases post with _ | ⟨q, post⟩
    · simp only [List.map_nil, List.nil_append, List.map_cons, ndEval, Ev1.noBc, evalNoBc]
      rw [hcl]; rfl
    · simp only [List.map_nil, List.nil_append, List.map_cons, ndEval]
      rw [hcl]; rfl
  | cons p pre ih =>
    intro post coef
    have hfold : ∀ (m : ℕ) (b : ℕ → ℝ) (t : ℕ → Option ℝ), (∀ i, t i = none) → 
        (List.range (m + 1)).foldl (fun (acc : Option ℝ) (i : ℕ) => acc.bind fun r => (t i).map fun u => r + b i * u) (some 0) = none := by
      intro m b t ht
      rw [List.range_succ, List.foldl_append]
      simp [ht]
    rcases hp : p.1.closest p.2 with _ | c
    · rcases pre with _ | ⟨q, pre⟩ <;> simp [ndEval, hp]
    · rcases pre with _ | ⟨q, pre⟩
      · simp only [List.map_cons, List.map_nil, List.cons_append, List.nil_append, ndEval, hp, Option.bind_some]
        exact hfold _ _ _ fun i => by
          have := ih post (fun ks => coef (((findStencil p.1.periodic p.1.D p.1.Nl p.1.len p.1.knot c p.2).1 + (i : ℤ)).toNat :: ks))
          simpa using this
      · simp only [List.map_cons, List.cons_append, ndEval, hp, Option.bind_some]
        exact hfold _ _ _ fun i => by
          have := ih post (fun ks => coef (((findStencil p.1.periodic p.1.D p.1.Nl p.1.len p.1.knot c p.2).1 + (i : ℤ)).toNat :: ks))
          simpa using this

/-- The 1D evaluator of a uniform grid `0, 1, …, Nl`. -/
noncomputable def evU (per : Bool) (eps : ℝ) (D Nl : ℕ) : Ev1 where
  periodic := per
  D := D
  Nl := Nl
  len := Nl
  knot := uniformNodes 0 1
  closest := fun y => some (getclosestU D 0 1 y)
  basis := fun _ s y j => evalBasisUniform per Nl eps D (uniformNodes 0 1 s.toNat) 1 y j

/-- **C73** A periodic coordinate is not brought back into the domain: two cells, degree 1 (4 coefficients: indices 0 to 3), the value at `x = 5` is the coefficient of index 5,
not that of the point `1`. -/
theorem c73_periodic_out_of_range (eps : ℝ) (heps : 0 ≤ eps) (coef : List ℕ → ℝ) :
    (DimB.full ⟨true, 1, 2⟩ = 4) ∧ ndOperator [evU true eps 1 2, evU true eps 1 2] coef [1, 5] = some (coef [1, 5]) := by
  refine ⟨rfl, ?_⟩
  have hk : ∀ k : ℕ, 1 ≤ k → ∀ g : ℕ → ℝ, (evU true eps 1 2).noBc 0 g (k : ℝ) = some (g k) := by
    intro k hk1 g
    have hcl : (evU true eps 1 2).closest (k : ℝ) = some k := by
      simp [evU, getclosestU]
    rw [noBc_sum _ _ _ k hcl]
    have hs : findStencil (evU true eps 1 2).periodic (evU true eps 1 2).D (evU true eps 1 2).Nl (evU true eps 1 2).len (evU true eps 1 2).knot k (k : ℝ) = ((k : ℤ), (k : ℝ)) := by
      simp [findStencil, evU, uniformNodes, show ¬ ((k : ℤ) < 0) by omega]
    rw [hs]
    have hb : ∀ j : ℕ, (evU true eps 1 2).basis 0 (k : ℤ) (k : ℝ) j = if j = 0 then 1 else 0 := by
      intro j
      simp [evU, evalBasisUniform, evalBasisU, uniformNodes, checkIfNodeU, offsetU, heps]
    simp only [hb]
    simp [evU]
  have := c73_knots [(⟨evU true eps 1 2, 0, 1⟩, 1), (⟨evU true eps 1 2, 0, 5⟩, 5)] (by simp)
    (by
      intro p hp g
      simp only [List.mem_cons, List.not_mem_nil, or_false] at hp
      rcases hp with rfl | rfl
      · have := hk 1 le_rfl g
        simpa using this
      · have := hk 5 (by omega) g
        exact_mod_cast this) coef
  exact this

end Verif.NDLagrange
