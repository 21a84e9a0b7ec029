import Verif.Model.Drivers
import Verif.Model.EdgeTransform
import Verif.Props.TimeLoops
import Mathlib.Tactic.Ring
import Mathlib.Tactic.Linarith
import Mathlib.Tactic.FieldSimp
import Mathlib.Tactic.NormNum
import Mathlib.Tactic.Positivity

/-!
# C80: number of steps, output files and restart of the simulations

Specification: the file number `k` of a run with output every `nb` steps holds the state after `k * nb` steps, at time `k * nb * dt`, with its potential.
-/

namespace Verif.Drivers
open Verif.TimeLoops

variable {F Φ E : Type*}

/-! ## Conversion to `int` -/

/-- Truncation of a non-negative number in range. -/
theorem toInt_nonneg (x : ℝ) (t : ℤ) (hx : 0 ≤ x) : toInt x = some t ↔ t < 2 ^ 31 ∧ (t : ℝ) ≤ x ∧ x < t + 1 := by
  unfold toInt
  simp only [if_pos hx]
  have h0 : 0 ≤ ⌊x⌋ := Int.floor_nonneg.2 hx
  constructor
  · intro h
    split_ifs at h with hc
    · simp at h; subst h
      exact ⟨hc.2, Int.floor_le x, Int.lt_floor_add_one x⟩
  · rintro ⟨h1, h2, h3⟩
    have : ⌊x⌋ = t := Int.floor_eq_iff.2 ⟨h2, h3⟩
    rw [this] at h0 ⊢
    rw [if_pos ⟨by omega, h1⟩]

/-- `int(a / b)` for `a ≥ 0`, `b > 0`: the largest number of intervals `b` that fit in `a`. -/
theorem intDiv_pos (a b : ℝ) (t : ℤ) (ha : 0 ≤ a) (hb : 0 < b) :
    intDiv a b = some t ↔ t < 2 ^ 31 ∧ t * b ≤ a ∧ a < (t + 1) * b := by
  unfold intDiv
  rw [if_neg hb.ne', toInt_nonneg _ _ (by positivity), le_div_iff₀ hb, div_lt_iff₀ hb]

/-! ## Output interval -/

/-- C80: the output interval: the time between two saved states is the largest multiple of the time step not above `time_diag`. -/
theorem c80_interval (timeDiag dt : ℝ) (nb : ℤ) (ht : 0 ≤ timeDiag) (hdt : 0 < dt) (h : nbstepDiag timeDiag dt = some nb) :
    nb * dt ≤ timeDiag ∧ timeDiag < nb * dt + dt ∧ (nb * dt = timeDiag ↔ ∃ k : ℤ, timeDiag = k * dt) := by
  obtain ⟨_, h1, h2⟩ := (intDiv_pos _ _ _ ht hdt).1 h
  refine ⟨h1, by linarith, fun h => ⟨nb, h.symm⟩, ?_⟩
  rintro ⟨k, rfl⟩
  have a1 : (nb : ℝ) ≤ k := le_of_mul_le_mul_right h1 hdt
  have a2 : (k : ℝ) < nb + 1 := lt_of_mul_lt_mul_right h2 hdt.le
  have : nb = k := by
    have a1 : nb ≤ k := by exact_mod_cast a1
    have a2 : k < nb + 1 := by exact_mod_cast a2
    omega
  rw [this]

/-- The interval is defined for the sample input: `deltat: 0.125`, `time_diag: 0.25`. -/
theorem nbstepDiag_sample : nbstepDiag (1 / 4) (1 / 8) = some 2 := by
  rw [nbstepDiag, intDiv_pos _ _ _ (by norm_num) (by norm_num)]; norm_num

/-- C80: the collision simulation: for a usable time step the interval is the same function; with a zero time step every `nbiter`-th state is saved;
a time step above `0.01` raises an exception. -/
theorem c80_coll_interval (timeDiag dt : ℝ) (nbiter : ℤ) :
    (1 / 100 < dt → collNbstepDiag timeDiag dt nbiter = none)
      ∧ (dt ≤ 1 / 100 → dt ≠ 0 → collNbstepDiag timeDiag dt nbiter = nbstepDiag timeDiag dt)
      ∧ (dt = 0 → timeDiag ≠ 0 → 0 < nbiter → nbiter < 2 ^ 31 → collNbstepDiag timeDiag dt nbiter = some nbiter) := by
  refine ⟨fun h => by simp [collNbstepDiag]; intro h'; norm_num at h; linarith, fun h h0 => ?_, fun h ht hn hn' => ?_⟩
  · unfold collNbstepDiag
    rw [if_neg (not_lt.2 h)]; simp [h0, nbstepDiag]
  · subst h
    have hn0 : (nbiter : ℝ) ≠ 0 := by exact_mod_cast hn.ne'
    unfold collNbstepDiag intDiv
    rw [if_neg (by norm_num)]
    simp only [if_true]
    rw [if_neg (div_ne_zero ht hn0), div_div_cancel₀ ht, toInt_nonneg _ _ (by exact_mod_cast hn.le)]
    exact ⟨hn', le_refl _, lt_add_one _⟩

/-! ## The files written by a run -/

/-- Iterations `a, …, a + n - 1` processed by PDI: the file `s + q` holds the content of the iteration `q * nb`. -/
theorem foldlM_onEvent (s : ℤ) (nb : ℕ) (hnb : 0 < nb) (c : ℕ → Saved F Φ) (a n : ℕ) (d : Dir F Φ) :
    (List.range n).foldlM (fun d k => onEvent s nb d ((a + k : ℕ) : ℤ) (c (a + k))) d
      = some (fun j => if (a : ℤ) ≤ (j - s) * nb ∧ (j - s) * nb < a + n then some (c ((j - s) * nb).toNat) else d j) := by
  induction n with
  | zero =>
    simp only [List.range_zero, List.foldlM_nil, Option.pure_def]
    congr 1; funext j
    rw [if_neg]; push_cast; omega
  | succ n ih =>
    rw [List.range_succ, List.foldlM_append, ih]
    simp only [Option.bind_eq_bind, Option.bind_some, List.foldlM_cons, List.foldlM_nil, Option.bind_some, Option.pure_def, Option.bind_fun_some]
    unfold onEvent
    rw [if_neg (by exact_mod_cast hnb.ne')]
    simp only
    have hz : (0 : ℤ) < nb := by exact_mod_cast hnb
    split_ifs with hm
    · congr 1; funext j
      obtain ⟨q, hq⟩ := Int.dvd_of_tmod_eq_zero hm
      have hdiv : ((a + n : ℕ) : ℤ).tdiv nb = q := by rw [hq]; exact Int.mul_tdiv_cancel_left _ hz.ne'
      rw [hdiv]
      by_cases hj : j = s + q
      · subst hj
        have he : (s + q - s) * (nb : ℤ) = ((a + n : ℕ) : ℤ) := by rw [hq]; ring
        rw [Function.update_self, if_pos (by rw [he]; push_cast; omega), he, Int.toNat_natCast]
      · rw [Function.update_of_ne hj]
        have hne : (j - s) * (nb : ℤ) ≠ ((a + n : ℕ) : ℤ) := by
          rw [hq]; intro h
          have : (j - s) = q := by
            have := mul_right_cancel₀ hz.ne' (show (j - s) * (nb : ℤ) = q * nb by rw [h]; ring)
            exact this
          omega
        congr 1
        push_cast at hne ⊢
        apply propext
        omega
    · congr 1; funext j
      have hne : (j - s) * (nb : ℤ) ≠ ((a + n : ℕ) : ℤ) := by
        intro h; apply hm; rw [← h]; exact Int.mul_tmod_left _ _
      congr 1
      push_cast at hne ⊢
      apply propext
      omega

/-- The events of a time loop, processed by PDI. -/
theorem onEvents_expected (s : ℤ) (nb : ℕ) (hnb : 0 < nb) (step : F → F) (phi : F → Φ) (t0 dt : ℝ) (n : ℕ) (f : F) (d : Dir F Φ) :
    onEvents s nb (expected step phi t0 dt 0 n f) d
      = some (fun j => if 0 ≤ (j - s) * nb ∧ (j - s) * nb ≤ n then
          some ⟨t0 + ((((j - s) * nb).toNat : ℕ) : ℝ) * dt, step^[((j - s) * nb).toNat] f, phi (step^[((j - s) * nb).toNat] f)⟩ else d j) := by
  have key := foldlM_onEvent s nb hnb (fun k => (⟨t0 + (k : ℝ) * dt, step^[k] f, phi (step^[k] f)⟩ : Saved F Φ)) 0 (n + 1) d
  have : ∀ (x : ℤ), (((0 : ℕ) : ℤ) ≤ x ∧ x < ((0 : ℕ) : ℤ) + ((n + 1 : ℕ) : ℤ)) = (0 ≤ x ∧ x ≤ n) := by
    intro x; apply propext; push_cast; omega
  simp only [this] at key
  rw [← key]
  unfold onEvents expected
  rw [List.range_succ, List.foldlM_append, List.foldlM_append, List.foldlM_map]
  simp

/-- Specification: the data directory after `n` steps of `step` from `init`, with an output every `nb` steps, in a directory that contained `d`: the file `k`
holds the state after `k * nb` steps; the other files are unchanged. -/
def Holds (step : F → F) (phi : F → Φ) (dt : ℝ) (nb n : ℕ) (init : F) (d d' : Dir F Φ) : Prop :=
  (∀ k : ℕ, k * nb ≤ n → d' k = some ⟨((k * nb : ℕ) : ℝ) * dt, step^[k * nb] init, phi (step^[k * nb] init)⟩)
    ∧ ∀ j : ℤ, (∀ k : ℕ, k * nb ≤ n → j ≠ k) → d' j = d j

theorem holds_unique (step : F → F) (phi : F → Φ) (dt : ℝ) (nb n : ℕ) (init : F) (d d1 d2 : Dir F Φ)
    (h1 : Holds step phi dt nb n init d d1) (h2 : Holds step phi dt nb n init d d2) : d1 = d2 := by
  funext j
  by_cases hj : ∃ k : ℕ, k * nb ≤ n ∧ j = k
  · obtain ⟨k, hk, rfl⟩ := hj
    rw [h1.1 k hk, h2.1 k hk]
  · have : ∀ k : ℕ, k * nb ≤ n → j ≠ k := fun k hk he => hj ⟨k, hk, he⟩
    rw [h1.2 j this, h2.2 j this]

theorem holds_fresh (step : F → F) (phi : F → Φ) (dt : ℝ) (nb : ℕ) (hnb : 0 < nb) (n : ℕ) (init : F) (d : Dir F Φ) :
    ∃ d', onEvents 0 nb (expected step phi 0 dt 0 n init) d = some d' ∧ Holds step phi dt nb n init d d' := by
  refine ⟨_, onEvents_expected 0 nb hnb step phi 0 dt n init d, fun k hk => ?_, fun j hj => ?_⟩
  · have e : ((k : ℤ) - 0) * (nb : ℤ) = ((k * nb : ℕ) : ℤ) := by push_cast; ring
    simp only [e, Int.toNat_natCast]
    rw [if_pos ⟨by positivity, by exact_mod_cast hk⟩]
    simp
  · simp only
    rw [if_neg]
    rintro ⟨h1, h2⟩
    simp only [sub_zero] at h1 h2
    have hz : (0 : ℤ) < nb := by exact_mod_cast hnb
    have hj0 : 0 ≤ j := nonneg_of_mul_nonneg_left h1 hz
    refine hj j.toNat ?_ (by omega)
    have : ((j.toNat : ℕ) : ℤ) * nb ≤ n := by rw [Int.toNat_of_nonneg hj0]; exact h2
    exact_mod_cast this

/-- C80 (1D1V): the output files of a run of `n` steps from the initial condition. -/
theorem c80_xvx_files (boltz : F → E → ℝ → F) (poisson : F → Φ × E) (init : F) (dt timeDiag : ℝ) (nb n : ℕ) (d : Dir F Φ)
    (hnb : 0 < nb) (h : nbstepDiag timeDiag dt = some (nb : ℤ)) :
    ∃ d', runXVx boltz poisson init dt timeDiag 0 n d = some d'
      ∧ Holds (midpoint boltz (fun f => (poisson f).2) dt) (fun f => (poisson f).1) dt nb n init d d' := by
  have := holds_fresh (midpoint boltz (fun f => (poisson f).2) dt) (fun f => (poisson f).1) dt nb hnb n init d
  simpa [runXVx, startState, h, c46_xvx] using this

/-- C80 (2D2V): the output files of a run of `n` steps. -/
theorem c80_xyvxvy_files (vlasov : F → E → ℝ → F) (poisson : F → Φ × E) (init : F) (dt timeDiag : ℝ) (nb n : ℕ) (d : Dir F Φ)
    (hnb : 0 < nb) (h : nbstepDiag timeDiag dt = some (nb : ℤ)) :
    ∃ d', runXYVxVy vlasov poisson init dt timeDiag n d = some d'
      ∧ Holds (midpoint vlasov (fun f => (poisson f).2) dt) (fun f => (poisson f).1) dt nb n init d d' := by
  have := holds_fresh (midpoint vlasov (fun f => (poisson f).2) dt) (fun f => (poisson f).1) dt nb hnb n init d
  simpa [runXYVxVy, h, c46_xyvxvy] using this

/-- Instance (`deltat: 0.125`, `time_diag: 0.25`, five steps of halving): three files. -/
example : ∃ d', runXVx (F := ℝ) (Φ := ℝ) (E := ℝ) (fun f e t => f - e * t) (fun f => (2 * f, f)) 1 (1 / 8) (1 / 4) 0 (5 : ℕ) (fun _ => none) = some d'
    ∧ (d' 1).map (·.time) = some (1 / 4) ∧ (d' 2).isSome ∧ d' 3 = none := by
  obtain ⟨d', h, hk, hj⟩ := c80_xvx_files (F := ℝ) (Φ := ℝ) (E := ℝ) (fun f e t => f - e * t) (fun f => (2 * f, f)) 1 (1 / 8) (1 / 4) 2 5 (fun _ => none)
    (by norm_num) nbstepDiag_sample
  refine ⟨d', h, ?_, ?_, ?_⟩
  · have := hk 1 (by norm_num)
    rw [Nat.cast_one] at this
    rw [this]; norm_num
  · have := hk 2 (by norm_num)
    rw [Nat.cast_ofNat] at this
    rw [this]; rfl
  · exact hj 3 (by intro k hk; omega)

/-! ## Restart -/

/-- C80 (1D1V) restart: a run of `n` steps, then a restart from any of its files `s` with `m` steps, leaves the same data directory as one uninterrupted run
of `max n (s nb + m)` steps. -/
theorem c80_xvx_restart (boltz : F → E → ℝ → F) (poisson : F → Φ × E) (init : F) (dt timeDiag : ℝ) (nb n m s : ℕ) (d : Dir F Φ)
    (hnb : 0 < nb) (h : nbstepDiag timeDiag dt = some (nb : ℤ)) (hs : s * nb ≤ n) :
    ∃ d1 d2, runXVx boltz poisson init dt timeDiag 0 n d = some d1
      ∧ runXVx boltz poisson init dt timeDiag s m d1 = some d2
      ∧ runXVx boltz poisson init dt timeDiag 0 (max n (s * nb + m) : ℕ) d = some d2 := by
  obtain ⟨d1, e1, H1⟩ := c80_xvx_files boltz poisson init dt timeDiag nb n d hnb h
  obtain ⟨d3, e3, H3⟩ := c80_xvx_files boltz poisson init dt timeDiag nb (max n (s * nb + m)) d hnb h
  refine ⟨d1, d3, e1, ?_, e3⟩
  obtain ⟨step, hstep⟩ : ∃ step, step = midpoint boltz (fun f => (poisson f).2) dt := ⟨_, rfl⟩
  have hz : (0 : ℤ) < nb := by exact_mod_cast hnb
  -- the state read from the file
  have hstart : startState (s : ℤ) init d1 = some (step^[s * nb] init, ((s * nb : ℕ) : ℝ) * dt) := by
    unfold startState
    split_ifs with h0
    · have : s = 0 := by exact_mod_cast h0
      subst this; simp
    · rw [H1.1 s hs, hstep]; rfl
  unfold runXVx
  rw [hstart, h]
  simp only [Int.toNat_natCast, c46_xvx, ← hstep]
  rw [onEvents_expected (s : ℤ) nb hnb]
  congr 1
  refine holds_unique step (fun f => (poisson f).1) dt nb (max n (s * nb + m)) init d _ _ ⟨fun k hk => ?_, fun j hj => ?_⟩ (hstep ▸ H3)
  · by_cases hks : s ≤ k ∧ k * nb ≤ s * nb + m
    · obtain ⟨q, rfl⟩ := Nat.exists_eq_add_of_le hks.1
      have e : (((s + q : ℕ) : ℤ) - s) * (nb : ℤ) = ((q * nb : ℕ) : ℤ) := by push_cast; ring
      simp only
      rw [e, if_pos ⟨by positivity, by have := hks.2; rw [add_mul] at this; exact_mod_cast (by omega : q * nb ≤ m)⟩, Int.toNat_natCast,
        ← Function.iterate_add_apply, show q * nb + s * nb = (s + q) * nb by ring]
      congr 2
      push_cast; ring
    · have hkn : k * nb ≤ n := by
        rcases le_max_iff.1 hk with h | h
        · exact h
        · have : ¬ s ≤ k := fun h' => hks ⟨h', h⟩
          calc k * nb ≤ s * nb := Nat.mul_le_mul_right _ (by omega)
            _ ≤ n := hs
      simp only
      rw [if_neg, H1.1 k hkn, hstep]
      rintro ⟨h1, h2⟩
      have h1' : 0 ≤ (k : ℤ) - s := nonneg_of_mul_nonneg_left h1 hz
      apply hks
      refine ⟨by omega, ?_⟩
      have : (k : ℤ) * nb ≤ s * nb + m := by linarith
      exact_mod_cast this
  · simp only
    rw [if_neg, H1.2 j (fun k hk => hj k (le_trans hk (le_max_left _ _)))]
    rintro ⟨h1, h2⟩
    have h1' : 0 ≤ j - s := nonneg_of_mul_nonneg_left h1 hz
    have hjn : ((j.toNat : ℕ) : ℤ) = j := by omega
    refine hj j.toNat (le_trans ?_ (le_max_right _ _)) hjn.symm
    have : ((j.toNat : ℕ) : ℤ) * nb ≤ s * nb + m := by rw [hjn]; linarith
    exact_mod_cast this

/-- C80 (1D1V): a restart from a file that was not written fails. -/
theorem c80_xvx_restart_missing (boltz : F → E → ℝ → F) (poisson : F → Φ × E) (init : F) (dt timeDiag : ℝ) (s n : ℤ) (d : Dir F Φ)
    (hs : s ≠ 0) (hd : d s = none) : runXVx boltz poisson init dt timeDiag s n d = none := by
  simp [runXVx, startState, hs, hd]

/-! ## Limits -/

/-- FINDING: when the requested output interval is smaller than the time step (and for a zero time step), the output interval is `0` (undefined) and every run,
of any number of steps, fails on its first event (`iter % 0`). Nothing checks the input. -/
theorem c80_zero_interval (boltz : F → E → ℝ → F) (poisson : F → Φ × E) (init : F) (dt timeDiag : ℝ) (n : ℤ) (s : ℤ) (d : Dir F Φ)
    (h : (0 ≤ timeDiag ∧ timeDiag < dt) ∨ dt = 0) : runXVx boltz poisson init dt timeDiag s n d = none := by
  have hnb : nbstepDiag timeDiag dt = some 0 ∨ nbstepDiag timeDiag dt = none := by
    rcases h with ⟨h1, h2⟩ | h
    · left
      rw [nbstepDiag, intDiv_pos _ _ _ h1 (by linarith)]
      norm_num; exact ⟨h1, h2⟩
    · right; simp [nbstepDiag, intDiv, h]
  unfold runXVx
  rcases hnb with h0 | h0
  · rw [h0]
    rcases startState s init d with _ | ⟨f, t⟩
    · rfl
    · simp only [c46_xvx]
      rcases n.toNat with _ | k
      · simp [expected, onEvents, onEvent]
      · rw [expected_succ]; simp [onEvents, onEvent]
  · rw [h0]
    rcases startState s init d with _ | ⟨f, t⟩ <;> rfl

/-- C80: the final state of a run is among the saved files exactly when the number of steps is a multiple of the output interval. -/
theorem c80_last_saved (boltz : F → E → ℝ → F) (poisson : F → Φ × E) (init : F) (dt timeDiag : ℝ) (nb n : ℕ)
    (hdt : dt ≠ 0) (hnb : 0 < nb) (h : nbstepDiag timeDiag dt = some (nb : ℤ)) :
    ∃ d', runXVx boltz poisson init dt timeDiag 0 n (fun _ => none) = some d'
      ∧ ((∃ j c, d' j = some c ∧ c.time = n * dt) ↔ nb ∣ n) := by
  obtain ⟨d', e, H⟩ := c80_xvx_files boltz poisson init dt timeDiag nb n (fun _ => none) hnb h
  refine ⟨d', e, ?_, ?_⟩
  · rintro ⟨j, c, hc, ht⟩
    by_cases hj : ∃ k : ℕ, k * nb ≤ n ∧ j = k
    · obtain ⟨k, hk, rfl⟩ := hj
      rw [H.1 k hk] at hc
      simp at hc; subst hc
      have : ((k * nb : ℕ) : ℝ) * dt = n * dt := by push_cast; exact ht
      have := mul_right_cancel₀ hdt this
      exact ⟨k, by have : k * nb = n := by exact_mod_cast this
                   rw [← this]; ring⟩
    · rw [H.2 j (fun k hk he => hj ⟨k, hk, he⟩)] at hc
      simp at hc
  · rintro ⟨k, rfl⟩
    exact ⟨k, _, H.1 k (by rw [mul_comm]), by push_cast; ring⟩

/-- FINDING: in binary64 the quotient `time_diag / deltat` is truncated below the exact number of steps even for an exact multiple: with `time_diag: 0.3` and
`deltat: 0.1` (both rounded to nearest, the division rounded to nearest) the interval is 2 steps, not 3. -/
theorem c80_interval_rounding :
    let t := EdgeTransform.f64Div 3 10
    let d := EdgeTransform.f64Div 1 10
    let q := EdgeTransform.f64Div (t.1 * 2 ^ d.2) (d.1 * 2 ^ t.2)
    q.1 / 2 ^ q.2 = 2 ∧ nbstepDiag (3 / 10) (1 / 10) = some 3 := by
  refine ⟨by decide +kernel, ?_⟩
  rw [nbstepDiag, intDiv_pos _ _ _ (by norm_num) (by norm_num)]; norm_num

/-! ## Guiding-centre simulations: files numbered by the iteration -/

theorem foldlM_onEventByIter (nb : ℕ) (hnb : 0 < nb) (c : ℕ → Saved F Φ) (a n : ℕ) (d : Dir F Φ) :
    (List.range n).foldlM (fun d k => onEventByIter nb d ((a + k : ℕ) : ℤ) (c (a + k))) d
      = some (fun j => if (nb : ℤ) ∣ j ∧ (a : ℤ) ≤ j ∧ j < a + n then some (c j.toNat) else d j) := by
  induction n with
  | zero =>
    simp only [List.range_zero, List.foldlM_nil, Option.pure_def]
    congr 1; funext j
    rw [if_neg]; push_cast; omega
  | succ n ih =>
    rw [List.range_succ, List.foldlM_append, ih]
    simp only [Option.bind_eq_bind, Option.bind_some, List.foldlM_cons, List.foldlM_nil, Option.bind_some, Option.pure_def, Option.bind_fun_some]
    unfold onEventByIter
    rw [if_neg (by exact_mod_cast hnb.ne')]
    split_ifs with hm
    · congr 1; funext j
      have hd := Int.dvd_of_tmod_eq_zero hm
      by_cases hj : j = ((a + n : ℕ) : ℤ)
      · subst hj
        rw [Function.update_self, if_pos ⟨hd, by push_cast; omega, by push_cast; omega⟩, Int.toNat_natCast]
      · rw [Function.update_of_ne hj]
        congr 1
        push_cast at hj ⊢
        apply propext
        omega
    · congr 1; funext j
      by_cases hj : j = ((a + n : ℕ) : ℤ)
      · subst hj
        have hd : ¬ (nb : ℤ) ∣ ((a + n : ℕ) : ℤ) := fun h => hm (Int.tmod_eq_zero_of_dvd h)
        rw [if_neg (fun h => hd h.1), if_neg (fun h => hd h.1)]
      · congr 1
        push_cast at hj ⊢
        apply propext
        omega

/-- C80 (2D guiding centre, Cartesian): after `n` steps the files are those of the iterations `1 ≤ k ≤ n` that are multiples of the interval; each holds the state
after `k` steps at time `k dt`. The initial state is not among them. -/
theorem c80_xy_files {I : Type*} (advX advY : F → (I → ℝ) → ℝ → F) (poisson : F → Φ × ((I → ℝ) × (I → ℝ))) (init : F) (dt : ℝ) (nb n : ℕ) (d : Dir F Φ)
    (hnb : 0 < nb) :
    ∃ d', onEventsByIter nb (predCorrRK2XY advX advY poisson init dt n).2 d = some d'
      ∧ (∀ k : ℕ, nb ∣ k → 1 ≤ k → k ≤ n → d' k = some ⟨k * dt, (predCorrRK2XY advX advY poisson init dt k).1,
            (poisson (predCorrRK2XY advX advY poisson init dt k).1).1⟩)
      ∧ ∀ j : ℤ, (∀ k : ℕ, nb ∣ k → 1 ≤ k → k ≤ n → j ≠ k) → d' j = d j := by
  have key := foldlM_onEventByIter nb hnb (fun k => (⟨(k : ℝ) * dt, (predCorrRK2XY advX advY poisson init dt k).1,
            (poisson (predCorrRK2XY advX advY poisson init dt k).1).1⟩ : Saved F Φ)) 1 n d
  have e : onEventsByIter nb (predCorrRK2XY advX advY poisson init dt n).2 d
      = (List.range n).foldlM (fun d k => onEventByIter nb d ((1 + k : ℕ) : ℤ) (⟨((1 + k : ℕ) : ℝ) * dt, (predCorrRK2XY advX advY poisson init dt (1 + k)).1,
            (poisson (predCorrRK2XY advX advY poisson init dt (1 + k)).1).1⟩ : Saved F Φ)) d := by
    simp only [c46_xy]
    unfold onEventsByIter
    rw [List.foldlM_map]
    simp only [Nat.add_comm 1]
  refine ⟨_, e.trans key, fun k h1 h2 h3 => ?_, fun j hj => ?_⟩
  · rw [if_pos ⟨by exact_mod_cast h1, by exact_mod_cast h2, by omega⟩]
    simp
  · rw [if_neg]
    rintro ⟨h1, h2, h3⟩
    refine hj j.toNat ?_ (by omega) (by omega) (by omega)
    have : (nb : ℤ) ∣ ((j.toNat : ℕ) : ℤ) := by rw [Int.toNat_of_nonneg (by omega)]; exact h1
    exact_mod_cast this

/-- C80 (polar, explicit second order scheme): after `n` steps the files are those of the iterations `0 ≤ k ≤ n` that are multiples of the interval, each with the state after `k`
steps, its potential and its time. -/
theorem c80_polar_files {I X V : Type*} [AddCommGroup V] [Module ℝ V] (o : Ops F Φ I X V) (init : F) (dt : ℝ) (nb n : ℕ) (d : Dir F Φ) (hnb : 0 < nb) :
    ∃ d', onEventsByIter nb (explicitSolver o init dt n).2 d = some d'
      ∧ (∀ k : ℕ, nb ∣ k → k ≤ n → d' k = some ⟨k * dt, (explicitSolver o init dt k).1, o.phiOf (explicitSolver o init dt k).1⟩)
      ∧ ∀ j : ℤ, (∀ k : ℕ, nb ∣ k → k ≤ n → j ≠ k) → d' j = d j := by
  have key := foldlM_onEventByIter nb hnb (fun k => (⟨(k : ℝ) * dt, (explicitSolver o init dt k).1,
            o.phiOf (explicitSolver o init dt k).1⟩ : Saved F Φ)) 0 (n + 1) d
  have e : onEventsByIter nb (explicitSolver o init dt n).2 d
      = (List.range (n + 1)).foldlM (fun d k => onEventByIter nb d ((0 + k : ℕ) : ℤ) (⟨((0 + k : ℕ) : ℝ) * dt, (explicitSolver o init dt (0 + k)).1,
            o.phiOf (explicitSolver o init dt (0 + k)).1⟩ : Saved F Φ)) d := by
    simp only [c46_explicit]
    unfold onEventsByIter expected
    rw [List.range_succ, List.foldlM_append, List.foldlM_append, List.foldlM_map]
    simp
  refine ⟨_, e.trans key, fun k h1 h3 => ?_, fun j hj => ?_⟩
  · rw [if_pos ⟨by exact_mod_cast h1, by simp, by push_cast; omega⟩]
    simp
  · rw [if_neg]
    rintro ⟨h1, h2, h3⟩
    refine hj j.toNat ?_ (by push_cast at *; omega) (by push_cast at *; omega)
    have : (nb : ℤ) ∣ ((j.toNat : ℕ) : ℤ) := by rw [Int.toNat_of_nonneg (by push_cast at *; omega)]; exact h1
    exact_mod_cast this

/-! ## Number of steps -/

/-- C80: number of steps of the Cartesian guiding-centre simulation: the largest number of steps that does not pass the final time. -/
theorem c80_guiding_centre_steps (T dt : ℝ) (n : ℤ) (hT : 0 ≤ T) (hdt : 0 < dt) (h : guidingCentreSteps T dt = some n) :
    n * dt ≤ T ∧ T < n * dt + dt := by
  obtain ⟨_, h1, h2⟩ := (intDiv_pos _ _ _ hT hdt).1 h
  exact ⟨h1, by linarith⟩

/-- The polar drivers' number of steps. -/
theorem polarSteps_iff (T dt : ℝ) (n : ℤ) (hT : 0 ≤ T) (hdt : 0 < dt) :
    polarSteps T dt = some n ↔ ∃ k : ℤ, 0 ≤ k ∧ k < 2 ^ 31 ∧ k * dt ≤ 1 ∧ 1 < (k + 1) * dt ∧ n < 2 ^ 31 ∧ n ≤ T * k ∧ T * k < n + 1 := by
  unfold polarSteps
  rcases hk : intDiv 1 dt with _ | k
  · simp only [Option.bind_eq_bind, Option.bind_none, reduceCtorEq, false_iff, not_exists]
    rintro k ⟨_, k1, k2, k3, _⟩
    rw [(intDiv_pos _ _ _ zero_le_one hdt).2 ⟨k1, k2, k3⟩] at hk
    simp at hk
  · obtain ⟨k1, k2, k3⟩ := (intDiv_pos _ _ _ zero_le_one hdt).1 hk
    have hk0 : 0 ≤ k := by
      by_contra hc
      have : (k : ℝ) + 1 ≤ 0 := by exact_mod_cast (by omega : k + 1 ≤ 0)
      nlinarith
    have hkr : (0 : ℝ) ≤ k := by exact_mod_cast hk0
    simp only [Option.bind_eq_bind, Option.bind_some]
    rw [toInt_nonneg _ _ (by positivity)]
    constructor
    · rintro ⟨a, b, c⟩; exact ⟨k, hk0, k1, k2, k3, a, b, c⟩
    · rintro ⟨k', _, k1', k2', k3', a, b, c⟩
      have : k' = k := by
        have := (intDiv_pos _ _ _ zero_le_one hdt).2 ⟨k1', k2', k3'⟩
        rw [hk] at this; simpa using this.symm
      subst this
      exact ⟨a, b, c⟩

/-- C80: the polar simulations never pass the final time, and reach it exactly when `1/dt` is an integer whose product with the final time is an integer. -/
theorem c80_polar_steps (T dt : ℝ) (n : ℤ) (hT : 0 < T) (hdt : 0 < dt) (h : polarSteps T dt = some n) :
    n * dt ≤ T ∧ (n * dt = T ↔ ∃ k m : ℤ, k * dt = 1 ∧ T * k = m) := by
  obtain ⟨k, k0, k1, k2, k3, _, n1, n2⟩ := (polarSteps_iff T dt n hT.le hdt).1 h
  have hkr : (0 : ℝ) ≤ k := by exact_mod_cast k0
  have hle : n * dt ≤ T := by
    calc n * dt ≤ (T * k) * dt := mul_le_mul_of_nonneg_right n1 hdt.le
      _ = T * (k * dt) := by ring
      _ ≤ T * 1 := mul_le_mul_of_nonneg_left k2 hT.le
      _ = T := mul_one T
  refine ⟨hle, fun he => ?_, ?_⟩
  · have h1 : T * (k * dt) ≥ T * 1 := by
      have : n * dt ≤ (T * k) * dt := mul_le_mul_of_nonneg_right n1 hdt.le
      nlinarith
    have h2 : (k : ℝ) * dt = 1 := le_antisymm k2 (le_of_mul_le_mul_left h1 hT)
    refine ⟨k, n, h2, ?_⟩
    have : (T * k) * dt = n * dt := by rw [he]; rw [mul_assoc, h2, mul_one]
    exact mul_right_cancel₀ hdt.ne' this
  · rintro ⟨k', m, h1, h2⟩
    have hkk : k' = k := by
      have a1 : (k : ℝ) ≤ k' := le_of_mul_le_mul_right (by rw [h1]; exact k2) hdt
      have a2 : (k' : ℝ) < k + 1 := lt_of_mul_lt_mul_right (by rw [h1]; exact k3) hdt.le
      have a1 : k ≤ k' := by exact_mod_cast a1
      have a2 : k' < k + 1 := by exact_mod_cast a2
      omega
    subst hkk
    have hnm : n = m := by
      rw [h2] at n1 n2
      have a1 : n ≤ m := by exact_mod_cast n1
      have a2 : m < n + 1 := by exact_mod_cast n2
      omega
    subst hnm
    rw [← h2, mul_assoc, h1, mul_one]

/-- FINDING: the loss is not bounded by one time step: for a time step strictly between `1/2` and `1` the run stops before `T dt` (for `T = 100`, `dt = 0.6`, 40 time units
are missing), and for a time step above `1` no step at all is made, whatever the final time. -/
theorem c80_polar_loss (T dt : ℝ) (n : ℤ) (hT : 0 < T) (h : polarSteps T dt = some n) :
    (1 / 2 < dt → dt ≤ 1 → n * dt ≤ T * dt) ∧ (1 < dt → n = 0) := by
  refine ⟨fun h1 h2 => ?_, fun h1 => ?_⟩
  · obtain ⟨k, k0, _, k2, k3, _, n1, n2⟩ := (polarSteps_iff T dt n hT.le (by linarith)).1 h
    have : k ≤ 1 := by
      by_contra hc
      have : (2 : ℝ) ≤ k := by exact_mod_cast (by omega : 2 ≤ k)
      nlinarith
    have hk1 : (k : ℝ) ≤ 1 := by exact_mod_cast this
    have : (n : ℝ) ≤ T := by nlinarith
    nlinarith
  · obtain ⟨k, k0, _, k2, k3, _, n1, n2⟩ := (polarSteps_iff T dt n hT.le (by linarith)).1 h
    have : k = 0 := by
      by_contra hc
      have : (1 : ℝ) ≤ k := by exact_mod_cast (by omega : 1 ≤ k)
      nlinarith
    subst this
    simp at n1 n2
    have a1 : n ≤ 0 := by exact_mod_cast n1
    have a2 : (0 : ℤ) < n + 1 := by exact_mod_cast n2
    omega

example : polarSteps 70 (1 / 10) = some 700 ∧ polarSteps 100 (6 / 10) = some 100 ∧ polarSteps 100 2 = some 0 := by
  refine ⟨(polarSteps_iff _ _ _ (by norm_num) (by norm_num)).2 ⟨10, by norm_num⟩, (polarSteps_iff _ _ _ (by norm_num) (by norm_num)).2 ⟨1, by norm_num⟩,
    (polarSteps_iff _ _ _ (by norm_num) (by norm_num)).2 ⟨0, by norm_num⟩⟩

/-! ## Collisions -/

theorem collLoop_eq (coll : F → ℝ → F) (dt : ℝ) (nb : ℤ) (n a : ℕ) (f : F) (d : Dir F Unit) :
    collLoop coll dt nb n a f f d
      = ((List.range n).foldlM (fun d k => onEvent 0 nb d ((a + k : ℕ) : ℤ) ⟨((a + k : ℕ) : ℝ) * dt, (fun f => coll f dt)^[k] f, ()⟩) d).map
          fun d => (d, (fun f => coll f dt)^[n] f) := by
  induction n generalizing a f d with
  | zero => simp [collLoop]
  | succ n ih =>
    rw [collLoop, List.range_succ_eq_map, List.foldlM_cons]
    simp only [zero_add, add_zero, Function.iterate_zero, id_eq, List.foldlM_map, ih]
    rcases onEvent 0 nb d (a : ℤ) ⟨(a : ℝ) * dt, f, ()⟩ with _ | d'
    · simp
    · simp [Nat.add_assoc, Nat.add_comm 1]

/-- C80 (collisions): the file `k` holds the state after `k nb` applications of the collision operator, at time `k nb dt`; the operator is applied `nbiter + 1` times (once
after the last output). -/
theorem c80_coll_files (coll : F → ℝ → F) (init : F) (dt timeDiag : ℝ) (nb n : ℕ) (d : Dir F Unit)
    (hnb : 0 < nb) (h : collNbstepDiag timeDiag dt n = some (nb : ℤ)) :
    ∃ d', runColl coll init dt timeDiag n d = some (d', (fun f => coll f dt)^[n + 1] init)
      ∧ Holds (fun f => coll f dt) (fun _ => ()) dt nb n init d d' := by
  have key := foldlM_onEvent 0 nb hnb (fun k => (⟨(k : ℝ) * dt, (fun f => coll f dt)^[k] init, ()⟩ : Saved F Unit)) 0 (n + 1) d
  simp only [Nat.zero_add] at key
  obtain ⟨d', e', H'⟩ := holds_fresh (fun f => coll f dt) (fun _ => ()) dt nb hnb n init d
  refine ⟨d', ?_, H'⟩
  have e2 := onEvents_expected 0 nb hnb (fun f => coll f dt) (fun _ => ()) 0 dt n init d
  rw [e'] at e2
  unfold runColl
  rw [h]
  simp only
  have hn : ((n : ℤ) + 1).toNat = n + 1 := by omega
  rw [hn, collLoop_eq]
  simp only [Nat.zero_add]
  rw [key]
  simp only [Option.map_some]
  rw [Option.some_inj] at e2 ⊢
  rw [e2]
  simp only [Prod.mk.injEq, and_true]
  funext j
  have : (((0 : ℕ) : ℤ) ≤ (j - 0) * nb ∧ (j - 0) * nb < ((0 : ℕ) : ℤ) + ((n + 1 : ℕ) : ℤ)) = (0 ≤ (j - 0) * (nb : ℤ) ∧ (j - 0) * (nb : ℤ) ≤ n) := by
    apply propext; push_cast; omega
  simp only [this, zero_add]

/-- Instance: the sample input (`deltat: 0.01`, `nbiter: 10`, `time_diag: 0.1`). -/
example : collNbstepDiag (1 / 10) (1 / 100) (10 : ℕ) = some ((10 : ℕ) : ℤ) := by
  rw [(c80_coll_interval _ _ _).2.1 le_rfl (by norm_num), nbstepDiag, intDiv_pos _ _ _ (by norm_num) (by norm_num)]; norm_num

end Verif.Drivers
