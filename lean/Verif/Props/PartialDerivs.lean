import Verif.Model.PartialDerivs
import Verif.Props.Fdm
import Mathlib.Tactic.Linarith
import Mathlib.Tactic.NormNum
import Mathlib.Tactic.Ring

/-!
# C88: a partial derivative object differentiates the field it was made from, whatever happens to this field afterwards
-/
namespace Verif.PartialDerivs

variable {C : Type}

/-- Specification: number of points and derivative of the field `f` computed by the operators of a class (the finite difference formulas are those of
property C28). -/
noncomputable def derivativeOf (f : ℕ → ℝ) : Kind C → ℕ × (ℕ → ℝ)
  | .fdm n x => (n, Fdm.deriv n x f)
  | .fdmPeriodic n len x => (n, Fdm.derivPeriodic n len x f)
  | .fdmB n x bl br => (n, Fdm.derivB n x f bl br)
  | .spline n build ev => (n, ev (build f))
  | .const n v => (n, fun _ => v)

/-- The grid has the three points which the finite differences need; the spline builder reads the `n` values of the field and nothing else. -/
def Valid : Kind C → Prop
  | .fdm n _ => 3 ≤ n
  | .fdmPeriodic n _ _ => 2 ≤ n
  | .fdmB n _ _ _ => 3 ≤ n
  | .spline n build _ => ∀ f g : ℕ → ℝ, (∀ i < n, f i = g i) → build f = build g
  | .const _ _ => True

theorem deriv_congr {n : ℕ} (hn : 3 ≤ n) (x f g : ℕ → ℝ) (h : ∀ i < n, f i = g i) (i : ℕ) (hi : i < n) :
    Fdm.deriv n x f i = Fdm.deriv n x g i := by
  unfold Fdm.deriv
  split_ifs with h0 h1
  · unfold Fdm.front
    rw [h 0 (by omega), h 1 (by omega), h 2 (by omega)]
  · unfold Fdm.back
    rw [h (n - 1) (by omega), h (n - 2) (by omega), h (n - 3) (by omega)]
  · unfold Fdm.interior
    rw [h (i - 1) (by omega), h i (by omega), h (i + 1) (by omega)]

theorem derivPeriodic_congr {n : ℕ} (hn : 2 ≤ n) (len : ℝ) (x f g : ℕ → ℝ) (h : ∀ i < n, f i = g i) (i : ℕ) (hi : i < n) :
    Fdm.derivPeriodic n len x f i = Fdm.derivPeriodic n len x g i := by
  unfold Fdm.derivPeriodic
  simp only
  split_ifs with h0 h1
  · rw [h 0 (by omega), h 1 (by omega), h (n - 1) (by omega)]
  · rw [h (n - 1) (by omega), h (n - 2) (by omega), h 0 (by omega)]
  · unfold Fdm.interior
    rw [h (i - 1) (by omega), h i (by omega), h (i + 1) (by omega)]

theorem derivB_congr {n : ℕ} (hn : 3 ≤ n) (x f g : ℕ → ℝ) (bl br : ℝ) (h : ∀ i < n, f i = g i) (i : ℕ) (hi : i < n) :
    Fdm.derivB n x f bl br i = Fdm.derivB n x g bl br i := by
  unfold Fdm.derivB
  split_ifs with h0 h1
  · simp only; rw [h 1 (by omega), h 2 (by omega)]
  · simp only; rw [h (n - 2) (by omega), h (n - 3) (by omega)]
  · unfold Fdm.interior
    rw [h (i - 1) (by omega), h i (by omega), h (i + 1) (by omega)]

/-- The values of a new object are the derivative of the field at the points of the grid. -/
theorem create_value (f : ℕ → ℝ) (k : Kind C) (hk : Valid k) :
    (create f k).value.1 = (derivativeOf f k).1 ∧ ∀ i < (derivativeOf f k).1, (create f k).value.2 i = (derivativeOf f k).2 i := by
  have hs : ∀ n, ∀ i < n, snapshot n f i = f i := fun n i hi => by simp [snapshot, hi]
  cases k with
  | fdm n x => exact ⟨rfl, fun i hi => deriv_congr hk x _ f (hs n) i hi⟩
  | fdmPeriodic n len x => exact ⟨rfl, fun i hi => derivPeriodic_congr hk len x _ f (hs n) i hi⟩
  | fdmB n x bl br => exact ⟨rfl, fun i hi => derivB_congr hk x _ f bl br (hs n) i hi⟩
  | spline n build ev =>
    refine ⟨rfl, fun i _ => ?_⟩
    show ev (build (snapshot n f)) i = ev (build f) i
    rw [hk _ _ (hs n)]
  | const n v => exact ⟨rfl, fun _ _ => rfl⟩

theorem applyObj_spec (mem : ℕ → ℕ → ℝ) (o : Obj C) (dst b i : ℕ) :
    applyObj mem o dst b i = if b = dst ∧ i < o.value.1 then o.value.2 i else mem b i := by
  unfold applyObj
  obtain ⟨m, g⟩ := o.value
  simp only
  induction m with
  | zero => simp
  | succ m ih =>
    rw [List.range_succ, List.foldl_append, List.foldl_cons, List.foldl_nil, set, ih]
    by_cases hb : b = dst
    · by_cases hi : i = m
      · simp [hb, hi]
      · have : i < m + 1 ↔ i < m := by omega
        simp [hb, hi, this]
    · simp [hb]

theorem run_append (s : St C) (l l' : List (Op C)) : run s (l ++ l') = run (run s l) l' := by simp [run]

/-- Objects are never changed or destroyed by what follows. -/
theorem objs_persist (s : St C) (ops : List (Op C)) (o : ℕ) (x : Obj C) (h : s.objs[o]? = some x) : (run s ops).objs[o]? = some x := by
  induction ops generalizing s with
  | nil => exact h
  | cons op ops ih =>
    apply ih
    cases op with
    | write a i v => exact h
    | make k a =>
      simp only [step]
      rw [List.getElem?_append_left (by
        by_contra hc
        rw [List.getElem?_eq_none (by omega)] at h
        exact absurd h (by simp))]
      exact h
    | apply o' dst =>
      simp only [step]
      split <;> exact h

/-- **C88** Whatever the program did before, does between and how often the object was used: applying an object which was made from a field gives the
derivative of the field *as it was when the object was made*, in the destination, which may be any field, the original one included; nothing else
changes. -/
theorem c88_snapshot (s : St C) (before between : List (Op C)) (k : Kind C) (hk : Valid k) (a dst : ℕ) :
    let s1 := run s before
    let o := s1.objs.length
    let s2 := run s1 (.make k a :: between)
    let s3 := run s2 [.apply o dst]
    (∀ i < (derivativeOf (s1.mem a) k).1, s3.mem dst i = (derivativeOf (s1.mem a) k).2 i) ∧
    (∀ b i, ¬(b = dst ∧ i < (derivativeOf (s1.mem a) k).1) → s3.mem b i = s2.mem b i) ∧ s3.objs = s2.objs := by
  intro s1 o s2 s3
  have h0 : (run s1 [Op.make k a]).objs[o]? = some (create (s1.mem a) k) := by
    simp [run, step, o]
  have h1 : s2.objs[o]? = some (create (s1.mem a) k) := by
    have : s2 = run (run s1 [Op.make k a]) between := by
      show run s1 ([Op.make k a] ++ between) = _
      rw [run_append]
    rw [this]
    exact objs_persist _ _ _ _ h0
  have h3 : s3 = { s2 with mem := applyObj s2.mem (create (s1.mem a) k) dst } := by
    show step s2 (.apply o dst) = _
    simp only [step, h1]
  obtain ⟨c1, c2⟩ := create_value (s1.mem a) k hk
  refine ⟨fun i hi => ?_, fun b i hbi => ?_, ?_⟩
  · rw [h3]
    simp only [applyObj_spec]
    rw [if_pos ⟨trivial, by rw [c1]; exact hi⟩, c2 i hi]
  · rw [h3]
    simp only [applyObj_spec]
    rw [if_neg (by rw [c1]; exact hbi)]
  · rw [h3]

/-- **C88** Making an object changes no field. -/
theorem c88_make_pure (s : St C) (k : Kind C) (a : ℕ) : (run s [.make k a]).mem = s.mem := rfl

/-- **C88** Finite differences: for every history, if the field held a quadratic function when the object was made, the object gives the exact derivative. -/
theorem c88_quadratic (s : St C) (before between : List (Op C)) (n : ℕ) (hn : 3 ≤ n) (x : ℕ → ℝ) (hx : ∀ i, i + 1 < n → x i < x (i + 1))
    (p q r : ℝ) (a dst : ℕ) (hf : ∀ i < n, (run s before).mem a i = p * x i ^ 2 + q * x i + r) (i : ℕ) (hi : i < n) :
    (run s (before ++ .make (.fdm n x) a :: (between ++ [.apply (run s before).objs.length dst]))).mem dst i = 2 * p * x i + q := by
  have H := (c88_snapshot s before between (.fdm n x : Kind C) hn a dst).1 i hi
  have e : run s (before ++ .make (.fdm n x) a :: (between ++ [.apply (run s before).objs.length dst])) =
      run (run (run s before) (.make (.fdm n x) a :: between)) [.apply (run s before).objs.length dst] := by
    simp only [run, List.foldl_append, List.foldl_cons, List.foldl_nil]
  rw [e, H]
  show Fdm.deriv n x ((run s before).mem a) i = _
  rw [deriv_congr hn x _ (Fdm.quad p q r x) (fun j hj => by rw [hf j hj]; rfl) i hi, Fdm.c28_exact_on_quadratics hn hx p q r hi]

/-- **C88** Differentiating in place twice with the same object gives the first derivative again, not the second. -/
theorem c88_in_place (s : St C) (k : Kind C) (hk : Valid k) (a : ℕ) (i : ℕ) (hi : i < (derivativeOf (s.mem a) k).1) :
    let o := s.objs.length
    (run s [.make k a, .apply o a]).mem a i = (derivativeOf (s.mem a) k).2 i ∧
    (run s [.make k a, .apply o a, .apply o a]).mem a i = (derivativeOf (s.mem a) k).2 i :=
  ⟨(c88_snapshot s [] [] k hk a a).1 i hi, (c88_snapshot s [] [.apply s.objs.length a] k hk a a).1 i hi⟩

/-! ## Gradients -/

theorem gradient_frame (mem : ℕ → ℕ → ℝ) (func : ℕ) (ks : List (Kind C × ℕ)) (b : ℕ) (hb : ∀ q ∈ ks, q.2 ≠ b) :
    gradient mem func ks b = mem b := by
  induction ks generalizing mem with
  | nil => rfl
  | cons q ks ih =>
    obtain ⟨k, dst⟩ := q
    rw [gradient, ih _ fun q hq => hb q (by simp [hq])]
    funext i
    rw [applyObj_spec, if_neg]
    rintro ⟨rfl, _⟩
    exact hb (k, b) (by simp) rfl

/-- **C88** `GradientCreator` with creators of these classes: if the components are different fields and none of them is the function, every component is the
derivative of the function by the creator of its dimension, and the function is unchanged. -/
theorem c88_gradient (mem : ℕ → ℕ → ℝ) (func : ℕ) (ks : List (Kind C × ℕ)) (hv : ∀ q ∈ ks, Valid q.1)
    (hd : (ks.map Prod.snd).Nodup) (hf : ∀ q ∈ ks, q.2 ≠ func) :
    (∀ q ∈ ks, ∀ i < (derivativeOf (mem func) q.1).1, gradient mem func ks q.2 i = (derivativeOf (mem func) q.1).2 i) ∧
    gradient mem func ks func = mem func := by
  refine ⟨?_, gradient_frame mem func ks func hf⟩
  induction ks generalizing mem with
  | nil => simp
  | cons q ks ih =>
    obtain ⟨k, dst⟩ := q
    have hd' := List.nodup_cons.1 hd
    have hfun : (applyObj mem (create (mem func) k) dst) func = mem func := by
      funext i
      rw [applyObj_spec, if_neg]
      rintro ⟨h, _⟩
      exact hf (k, dst) (by simp) h.symm
    intro q hq i hi
    rcases List.mem_cons.1 hq with rfl | hq'
    · rw [gradient, gradient_frame _ _ _ _ fun q' hq' h => hd'.1 (List.mem_map.2 ⟨q', hq', h⟩)]
      obtain ⟨c1, c2⟩ := create_value (mem func) k (hv _ hq)
      simp only [applyObj_spec]
      rw [if_pos ⟨trivial, by rw [c1]; exact hi⟩, c2 i hi]
    · have := ih (applyObj mem (create (mem func) k) dst) (fun q hq => hv q (by simp [hq])) hd'.2 (fun q hq => hf q (by simp [hq])) q hq' i
      rw [hfun] at this
      exact this hi

/-- **C88** (limit) if the first component is stored in the function itself, the second component is a derivative of the first: with two identical creators
on the grid 0, 1, 2 and the function `x ^ 2` the second component is `2` instead of `2 x`. -/
theorem c88_gradient_alias_witness : ∃ mem : ℕ → ℕ → ℝ, (∀ i, mem 0 i = (i : ℝ) ^ 2) ∧
    gradient mem 0 [((.fdm 3 (fun i => (i : ℝ)) : Kind Unit), 0), (.fdm 3 fun i => (i : ℝ), 1)] 1 0 = 2 ∧
    (derivativeOf (mem 0) (.fdm 3 (fun i => (i : ℝ)) : Kind Unit)).2 0 = 0 := by
  refine ⟨fun _ i => (i : ℝ) ^ 2, fun _ => rfl, ?_, ?_⟩
  · norm_num [gradient, applyObj_spec, create, Obj.value, Fdm.deriv, Fdm.front, Fdm.back, Fdm.interior, Fdm.centred, snapshot]
  · norm_num [derivativeOf, Fdm.deriv, Fdm.front]

/-! ## A view, for comparison -/

/-- **C88** `PoissonLikeRHSFunction` is not a snapshot: after any history it evaluates the coefficients as they are then; a write to the coefficients after the
construction does change the function. -/
theorem c88_rhs_view {Coord : Type} (evaluate : (ℕ → ℝ) → Coord → ℝ) (s : St C) (ops : List (Op C)) (coefs i : ℕ) (v : ℝ) (x : Coord) :
    rhsFunction evaluate (run s (ops ++ [.write coefs i v])).mem coefs x =
      evaluate (fun j => if j = i then v else (run s ops).mem coefs j) x := by
  rw [run_append]
  unfold rhsFunction
  congr 1
  funext j
  simp [run, step, set]

/-! ## The hypotheses are met -/

/-- An object made from `x ^ 2` on five points, then the field is overwritten by the derivative and by other values: the object still gives `2 x`. -/
example : (run (C := Unit) ⟨fun _ i => (i : ℝ) ^ 2, []⟩ ([] ++ .make (.fdm 5 fun i => (i : ℝ)) 0 ::
    ([.apply 0 0, .write 0 3 17, .make (.const 5 1) 0, .apply 1 2] ++ [.apply 0 7]))).mem 7 4 = 8 := by
  have := c88_quadratic (C := Unit) ⟨fun _ i => (i : ℝ) ^ 2, []⟩ [] [.apply 0 0, .write 0 3 17, .make (.const 5 1) 0, .apply 1 2] 5 (by norm_num)
    (fun i => (i : ℝ)) (fun i _ => by push_cast; linarith) 1 0 0 0 7 (fun i _ => by simp [run]) 4 (by norm_num)
  rw [show (run (C := Unit) ⟨fun _ i => (i : ℝ) ^ 2, []⟩ []).objs.length = 0 from rfl] at this
  rw [this]; norm_num

example : Valid (.spline 4 (fun f => f 0 + f 3) (fun c _ => c) : Kind ℝ) := by
  intro f g h
  show f 0 + f 3 = g 0 + g 3
  rw [h 0 (by norm_num), h 3 (by norm_num)]

end Verif.PartialDerivs
