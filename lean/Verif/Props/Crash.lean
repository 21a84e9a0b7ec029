import Verif.Model.Crash
import Verif.Props.Drivers
import Mathlib.Data.Set.Card
import Mathlib.Tactic.Linarith
import Mathlib.Tactic.Ring
import Mathlib.Tactic.NormNum

/-!
# C112: killed runs and restarts
-/

namespace Verif.Crash
open Verif.TimeLoops Verif.Drivers

variable {F Φ E : Type*}

/-- Specification: the content of the file number `k` of an uninterrupted run with an output every `nb` steps: the state after `k nb` steps of the scheme, its time and its potential. -/
noncomputable def right (step : F → F) (phi : F → Φ) (dt : ℝ) (nb : ℕ) (init : F) (k : ℕ) : Saved F Φ :=
  ⟨((k * nb : ℕ) : ℝ) * dt, step^[k * nb] init, phi (step^[k * nb] init)⟩

/-! ## The effect of a truncated sequence of writes -/

theorem take_actions (ws : List (ℤ × Saved F Φ)) (cut : ℕ) :
    (actions ws).take cut = actions (ws.take (cut / 2)) ++
      (if cut % 2 = 1 then (ws[cut / 2]?).toList.map fun w => Action.opened w.1 else []) := by
  induction ws generalizing cut with
  | nil => simp [actions]
  | cons w ws ih =>
    match cut with
    | 0 => simp [actions]
    | 1 => simp [actions]
    | n + 2 =>
      have e : (n + 2) / 2 = n / 2 + 1 := by omega
      have e' : (n + 2) % 2 = n % 2 := by omega
      have hc : actions (w :: ws) = .opened w.1 :: .closed w.1 w.2 :: actions ws := rfl
      rw [hc, List.take_succ_cons, List.take_succ_cons, ih, e, e', List.take_succ_cons, List.getElem?_cons_succ]
      rfl

/-- The files after a list of finished writes. -/
def finish (d : Disk F Φ) (ws : List (ℤ × Saved F Φ)) : Disk F Φ :=
  ws.foldl (fun d w => Function.update d w.1 (some (.complete w.2))) d

theorem foldl_actions (ws : List (ℤ × Saved F Φ)) (d : Disk F Φ) : (actions ws).foldl act d = finish d ws := by
  induction ws generalizing d with
  | nil => rfl
  | cons w ws ih =>
    have hc : actions (w :: ws) = .opened w.1 :: .closed w.1 w.2 :: actions ws := rfl
    rw [hc, List.foldl_cons, List.foldl_cons, ih]
    simp [act, finish]

theorem killed_eq (ws : List (ℤ × Saved F Φ)) (cut : ℕ) (d : Disk F Φ) :
    ((actions ws).take cut).foldl act d =
      match (if cut % 2 = 1 then ws[cut / 2]? else none) with
      | some w => Function.update (finish d (ws.take (cut / 2))) w.1 (some .torn)
      | none => finish d (ws.take (cut / 2)) := by
  rw [take_actions, List.foldl_append, foldl_actions]
  split_ifs with h
  · rcases hw : ws[cut / 2]? with _ | w <;> simp [act]
  · simp

theorem finish_spec (ws : List (ℤ × Saved F Φ)) (d : Disk F Φ) (j : ℤ) :
    finish d ws j = d j ∨ ∃ w ∈ ws, w.1 = j ∧ finish d ws j = some (.complete w.2) := by
  induction ws generalizing d with
  | nil => left; rfl
  | cons w ws ih =>
    have hc : finish d (w :: ws) = finish (Function.update d w.1 (some (.complete w.2))) ws := rfl
    rw [hc]
    rcases ih (Function.update d w.1 (some (.complete w.2))) with h | ⟨v, hv, h1, h2⟩
    · by_cases hj : j = w.1
      · right
        refine ⟨w, List.mem_cons_self, hj.symm, ?_⟩
        rw [h, hj, Function.update_self]
      · left; rw [h, Function.update_of_ne hj]
    · right; exact ⟨v, List.mem_cons_of_mem _ hv, h1, h2⟩

/-- A file written at most once has the content that is written. -/
theorem finish_mem (ws : List (ℤ × Saved F Φ)) (hn : (ws.map Prod.fst).Nodup) (d : Disk F Φ) (w : ℤ × Saved F Φ) (hw : w ∈ ws) :
    finish d ws w.1 = some (.complete w.2) := by
  induction ws generalizing d with
  | nil => simp at hw
  | cons v ws ih =>
    have hc : finish d (v :: ws) = finish (Function.update d v.1 (some (.complete v.2))) ws := rfl
    rw [List.map_cons, List.nodup_cons] at hn
    rw [hc]
    rcases List.mem_cons.1 hw with h | h
    · subst h
      rcases finish_spec ws (Function.update d w.1 (some (.complete w.2))) w.1 with h' | ⟨u, hu, h1, _⟩
      · rw [h', Function.update_self]
      · exact absurd (List.mem_map.2 ⟨u, hu, h1⟩) hn.1
    · exact ih hn.2 _ h

/-- A file that is not written is unchanged. -/
theorem finish_other (ws : List (ℤ × Saved F Φ)) (d : Disk F Φ) (j : ℤ) (h : ∀ w ∈ ws, w.1 ≠ j) : finish d ws j = d j := by
  rcases finish_spec ws d j with h' | ⟨u, hu, h1, _⟩
  · exact h'
  · exact absurd h1 (h u hu)

/-! ## The writes of a run -/

theorem writes_expected_mem (s nb : ℤ) (step : F → F) (phi : F → Φ) (t0 dt : ℝ) (n : ℕ) (f : F) (w : ℤ × Saved F Φ)
    (hw : w ∈ writes s nb (expected step phi t0 dt 0 n f)) :
    ∃ i : ℕ, i ≤ n ∧ (i : ℤ).tmod nb = 0 ∧ w = (s + (i : ℤ).tdiv nb, ⟨t0 + i * dt, step^[i] f, phi (step^[i] f)⟩) := by
  unfold writes at hw
  split_ifs at hw with h0
  · simp at hw
  · rw [List.mem_filterMap] at hw
    obtain ⟨ev, hev, h⟩ := hw
    split_ifs at h with hm
    rw [Option.some.injEq] at h
    simp only [expected, List.mem_append, List.mem_map, List.mem_range, List.mem_singleton, Nat.zero_add] at hev
    rcases hev with ⟨k, hk, rfl⟩ | rfl
    · exact ⟨k, hk.le, hm, h.symm⟩
    · exact ⟨n, le_refl _, hm, h.symm⟩

/-- With a positive interval the writes of a run are the files `s, s + 1, …` in order. -/
theorem writes_expected (s : ℤ) (nb : ℕ) (hnb : 0 < nb) (step : F → F) (phi : F → Φ) (t0 dt : ℝ) (n : ℕ) (f : F) :
    writes s nb (expected step phi t0 dt 0 n f) =
      (List.range (n / nb + 1)).map fun q : ℕ => (s + (q : ℤ), ⟨t0 + ((q * nb : ℕ) : ℝ) * dt, step^[q * nb] f, phi (step^[q * nb] f)⟩) := by
  have hz : (nb : ℤ) ≠ 0 := by exact_mod_cast hnb.ne'
  obtain ⟨c, hc⟩ : ∃ c : ℕ → Saved F Φ, c = fun i : ℕ => ⟨t0 + (i : ℝ) * dt, step^[i] f, phi (step^[i] f)⟩ := ⟨_, rfl⟩
  have h1 : writes s nb (expected step phi t0 dt 0 n f) =
      (List.range (n + 1)).filterMap fun i : ℕ => if (i : ℤ).tmod nb = 0 then some (s + (i : ℤ).tdiv nb, c i) else none := by
    unfold writes
    rw [if_neg hz, expected, List.range_succ, List.filterMap_append, List.filterMap_append, List.filterMap_map]
    congr 1
    · simp [hc, Function.comp_def]
    · simp only [hc, List.filterMap_cons, List.filterMap_nil, Nat.zero_add]
  rw [h1]
  have h2 : ∀ m : ℕ, ((List.range m).filterMap fun i : ℕ => if (i : ℤ).tmod nb = 0 then some (s + (i : ℤ).tdiv nb, c i) else none) =
      (List.range ((m + nb - 1) / nb)).map fun q : ℕ => (s + (q : ℤ), c (q * nb)) := by
    intro m
    induction m with
    | zero => rw [Nat.zero_add, Nat.div_eq_of_lt (by omega)]; rfl
    | succ m ih =>
      rw [List.range_succ, List.filterMap_append, ih]
      by_cases hd : nb ∣ m
      · obtain ⟨q, rfl⟩ := hd
        have e1 : (nb * q + nb - 1) / nb = q := by
          rw [show nb * q + nb - 1 = (nb - 1) + nb * q by omega, Nat.add_mul_div_left _ _ hnb, Nat.div_eq_of_lt (by omega), Nat.zero_add]
        have e2 : (nb * q + 1 + nb - 1) / nb = q + 1 := by
          rw [show nb * q + 1 + nb - 1 = 0 + nb * (q + 1) by rw [mul_add]; omega, Nat.add_mul_div_left _ _ hnb, Nat.zero_div, Nat.zero_add]
        have e3 : ((nb * q : ℕ) : ℤ).tmod nb = 0 := by push_cast; exact Int.mul_tmod_right _ _
        have e4 : ((nb * q : ℕ) : ℤ).tdiv nb = q := by push_cast; exact Int.mul_tdiv_cancel_left _ hz
        rw [e1, e2, List.range_succ, List.map_append]
        congr 1
        simp only [List.filterMap_cons, List.filterMap_nil, if_pos e3, List.map_cons, List.map_nil, e4]
        rw [mul_comm nb q]
      · have e3 : ¬ ((m : ℕ) : ℤ).tmod nb = 0 := fun h => hd (by exact_mod_cast Int.dvd_of_tmod_eq_zero h)
        have e1 : (m + 1 + nb - 1) / nb = (m + nb - 1) / nb := by
          have hr : 0 < m % nb := Nat.pos_of_ne_zero fun h => hd (Nat.dvd_of_mod_eq_zero h)
          have hlt := Nat.mod_lt m hnb
          obtain ⟨q, hq⟩ : ∃ q, q = m / nb := ⟨_, rfl⟩
          have hm := Nat.div_add_mod m nb
          rw [← hq] at hm
          have a1 : m + 1 + nb - 1 = (m % nb) + nb * (q + 1) := by rw [mul_add]; omega
          have a2 : m + nb - 1 = (m % nb - 1) + nb * (q + 1) := by rw [mul_add]; omega
          rw [a1, a2, Nat.add_mul_div_left _ _ hnb, Nat.add_mul_div_left _ _ hnb, Nat.div_eq_of_lt hlt, Nat.div_eq_of_lt (by omega)]
        rw [e1]
        simp [e3]
  rw [h2 (n + 1)]
  have e : (n + 1 + nb - 1) / nb = n / nb + 1 := by
    rw [show n + 1 + nb - 1 = n + nb by omega, Nat.add_div_right _ hnb]
  rw [e, hc]

/-! ## Every complete file is right -/

theorem killedRun_files (P : ℤ → Saved F Φ → Prop) (boltz : F → E → ℝ → F) (poisson : F → Φ × E) (init : F) (dt : ℝ) (d : Disk F Φ) (r : Run)
    (hd : ∀ j c, d j = some (.complete c) → P j c)
    (hw : ∀ w ∈ program boltz poisson init dt r.timeDiag r.iterStart r.nbiter d, P w.1 w.2) (j : ℤ) (c : Saved F Φ)
    (h : killedRun boltz poisson init dt d r j = some (.complete c)) : P j c := by
  unfold killedRun at h
  rw [killed_eq] at h
  obtain ⟨ws, hws⟩ : ∃ ws, ws = program boltz poisson init dt r.timeDiag r.iterStart r.nbiter d := ⟨_, rfl⟩
  rw [← hws] at h hw
  have key : ∀ j c, finish d (ws.take (r.killedAfter / 2)) j = some (.complete c) → P j c := by
    intro j c h
    rcases finish_spec (ws.take (r.killedAfter / 2)) d j with h' | ⟨w, hw', h1, h2⟩
    · rw [h'] at h; exact hd j c h
    · rw [h2] at h
      simp only [Option.some.injEq, File.complete.injEq] at h
      rw [← h, ← h1]
      exact hw w (List.mem_of_mem_take hw')
  split at h
  · rename_i w _
    by_cases hj : j = w.1
    · rw [hj, Function.update_self] at h; simp at h
    · rw [Function.update_of_ne hj] at h; exact key j c h
  · exact key j c h

theorem startDisk_some (iterStart : ℤ) (init : F) (d : Disk F Φ) (f : F) (t : ℝ) (h : startDisk iterStart init d = some (f, t)) :
    (iterStart = 0 ∧ f = init ∧ t = 0) ∨ ∃ c, d iterStart = some (.complete c) ∧ f = c.density ∧ t = c.time := by
  unfold startDisk at h
  split_ifs at h with h0
  · simp only [Option.some.injEq, Prod.mk.injEq] at h
    exact .inl ⟨h0, h.1.symm, h.2.symm⟩
  · split at h
    · rename_i c hc
      simp only [Option.some.injEq, Prod.mk.injEq] at h
      exact .inr ⟨c, hc, h.1.symm, h.2.symm⟩
    · simp at h

variable (boltz : F → E → ℝ → F) (poisson : F → Φ × E) (init : F) (dt : ℝ)

/-- **C112** After every history of runs, started from the initial condition or from any complete file, with any numbers of steps and killed at any points, every complete file `k` holds exactly
the state after `k nb` steps, its time and its potential, as in one uninterrupted run. (All runs use the same output interval of `nb` steps.) -/
theorem c112_every_file_right (nb : ℕ) (hnb : 0 < nb) (runs : List Run) (hr : ∀ r ∈ runs, nbstepDiag r.timeDiag dt = some (nb : ℤ))
    (j : ℤ) (c : Saved F Φ) (h : after boltz poisson init dt runs j = some (.complete c)) :
    ∃ k : ℕ, j = k ∧ c = right (midpoint boltz (fun f => (poisson f).2) dt) (fun f => (poisson f).1) dt nb init k := by
  have hz : (nb : ℤ) ≠ 0 := by exact_mod_cast hnb.ne'
  obtain ⟨step, hstep⟩ : ∃ step, step = midpoint boltz (fun f => (poisson f).2) dt := ⟨_, rfl⟩
  rw [← hstep]
  induction runs using List.reverseRecOn generalizing j c with
  | nil => simp [after] at h
  | append_singleton runs r ih =>
    have ih := ih (fun r' hr' => hr r' (List.mem_append_left _ hr'))
    obtain ⟨d, hd⟩ : ∃ d, d = after boltz poisson init dt runs := ⟨_, rfl⟩
    rw [← hd] at ih
    have h' : killedRun boltz poisson init dt d r j = some (.complete c) := by
      rw [hd]; simpa [after, List.foldl_append] using h
    refine killedRun_files (fun j c => ∃ k : ℕ, j = k ∧ c = right step (fun f => (poisson f).1) dt nb init k) boltz poisson init dt d r
      ih ?_ j c h'
    intro w hw
    unfold program at hw
    rw [hr r (by simp)] at hw
    rcases hst : startDisk r.iterStart init d with _ | ⟨f, t⟩
    · rw [hst] at hw; simp at hw
    · rw [hst] at hw
      simp only [c46_xvx, ← hstep] at hw
      have hft : ∃ k : ℕ, r.iterStart = k ∧ f = step^[k * nb] init ∧ t = ((k * nb : ℕ) : ℝ) * dt := by
        rcases startDisk_some _ _ _ _ _ hst with ⟨h0, hf, ht⟩ | ⟨c', hc', hf, ht⟩
        · exact ⟨0, by simpa using h0, by simpa using hf, by simpa using ht⟩
        · obtain ⟨k, hk, hck⟩ := ih _ _ hc'
          exact ⟨k, hk, by rw [hf, hck]; rfl, by rw [ht, hck]; rfl⟩
      obtain ⟨k, hk, hf, ht⟩ := hft
      rw [writes_expected _ nb hnb, List.mem_map] at hw
      obtain ⟨q, _, rfl⟩ := hw
      refine ⟨k + q, by rw [hk]; push_cast; ring, ?_⟩
      simp only [right, hf, ht, ← Function.iterate_add_apply]
      rw [show q * nb + k * nb = (k + q) * nb by ring]
      congr 1
      push_cast; ring

/-- **C112** If the output interval is changed between the runs, the file numbers lose their meaning, but the content of each complete file is still the state after some number of steps, with the
time and the potential of this state. (Also for the unusable intervals that the input file can request.) -/
theorem c112_any_interval (runs : List Run) (j : ℤ) (c : Saved F Φ) (h : after boltz poisson init dt runs j = some (.complete c)) :
    ∃ i : ℕ, c = ⟨(i : ℝ) * dt, (midpoint boltz (fun f => (poisson f).2) dt)^[i] init, (poisson ((midpoint boltz (fun f => (poisson f).2) dt)^[i] init)).1⟩ := by
  obtain ⟨step, hstep⟩ : ∃ step, step = midpoint boltz (fun f => (poisson f).2) dt := ⟨_, rfl⟩
  rw [← hstep]
  induction runs using List.reverseRecOn generalizing j c with
  | nil => simp [after] at h
  | append_singleton runs r ih =>
    obtain ⟨d, hd⟩ : ∃ d, d = after boltz poisson init dt runs := ⟨_, rfl⟩
    rw [← hd] at ih
    have h' : killedRun boltz poisson init dt d r j = some (.complete c) := by
      rw [hd]; simpa [after, List.foldl_append] using h
    refine killedRun_files (fun _ c => ∃ i : ℕ, c = ⟨(i : ℝ) * dt, step^[i] init, (poisson (step^[i] init)).1⟩) boltz poisson init dt d r
      ih ?_ j c h'
    intro w hw
    unfold program at hw
    rcases hst : startDisk r.iterStart init d with _ | ⟨f, t⟩
    · rw [hst] at hw; simp at hw
    · rcases hnb : nbstepDiag r.timeDiag dt with _ | nb
      · rw [hst, hnb] at hw; simp at hw
      · rw [hst, hnb] at hw
        simp only [c46_xvx, ← hstep] at hw
        have hft : ∃ k : ℕ, f = step^[k] init ∧ t = (k : ℝ) * dt := by
          rcases startDisk_some _ _ _ _ _ hst with ⟨h0, hf, ht⟩ | ⟨c', hc', hf, ht⟩
          · exact ⟨0, by simpa using hf, by simpa using ht⟩
          · obtain ⟨k, hck⟩ := ih _ _ hc'
            exact ⟨k, by rw [hf, hck], by rw [ht, hck]⟩
        obtain ⟨k, hf, ht⟩ := hft
        obtain ⟨i, _, _, rfl⟩ := writes_expected_mem _ _ _ _ _ _ _ _ _ hw
        refine ⟨i + k, ?_⟩
        simp only [hf, ht, ← Function.iterate_add_apply]
        congr 1
        push_cast; ring

/-! ## What a killed run can destroy -/

/-- **C112** A killed run destroys at most one file (the one being written): all other complete files are still complete, and no other file becomes torn. -/
theorem c112_damage (d : Disk F Φ) (r : Run) :
    ∃ j : ℤ, ∀ i, i ≠ j → ((∃ c, d i = some (.complete c)) → ∃ c, killedRun boltz poisson init dt d r i = some (.complete c)) ∧
      (killedRun boltz poisson init dt d r i = some .torn → d i = some .torn) := by
  unfold killedRun
  rw [killed_eq]
  obtain ⟨ws, hws⟩ : ∃ ws, ws = (program boltz poisson init dt r.timeDiag r.iterStart r.nbiter d) := ⟨_, rfl⟩
  rw [← hws]
  have key : ∀ i, ((∃ c, d i = some (.complete c)) → ∃ c, finish d (ws.take (r.killedAfter / 2)) i = some (.complete c)) ∧
      (finish d (ws.take (r.killedAfter / 2)) i = some .torn → d i = some .torn) := by
    intro i
    rcases finish_spec (ws.take (r.killedAfter / 2)) d i with h' | ⟨w, hw', h1, h2⟩
    · rw [h']; exact ⟨id, id⟩
    · rw [h2]; exact ⟨fun _ => ⟨_, rfl⟩, fun h => by simp at h⟩
  split
  · rename_i w _
    refine ⟨w.1, fun i hi => ?_⟩
    rw [Function.update_of_ne hi]; exact key i
  · exact ⟨0, fun i _ => key i⟩

/-- **C112** Hence after a history of `n` runs at most `n` files are torn. -/
theorem c112_torn_count (runs : List Run) : {i | after boltz poisson init dt runs i = some .torn}.encard ≤ runs.length := by
  induction runs using List.reverseRecOn with
  | nil => simp [after]
  | append_singleton runs r ih =>
    have e : after boltz poisson init dt (runs ++ [r]) = killedRun boltz poisson init dt (after boltz poisson init dt runs) r := by
      simp [after, List.foldl_append]
    obtain ⟨j, hj⟩ := c112_damage boltz poisson init dt (after boltz poisson init dt runs) r
    rw [e]
    have hsub : {i | killedRun boltz poisson init dt (after boltz poisson init dt runs) r i = some .torn} ⊆
        insert j {i | after boltz poisson init dt runs i = some .torn} := by
      intro i hi
      by_cases h : i = j
      · exact Set.mem_insert_iff.2 (.inl h)
      · exact Set.mem_insert_iff.2 (.inr ((hj i h).2 hi))
    calc _ ≤ _ := Set.encard_le_encard hsub
      _ ≤ _ := Set.encard_insert_le _ _
      _ ≤ _ := by
        rw [List.length_append, List.length_singleton]
        push_cast
        gcongr

/-- **C112** A run killed between two writes (or not at all) leaves no new torn file. -/
theorem c112_between_writes (d : Disk F Φ) (r : Run) (he : r.killedAfter % 2 = 0) (i : ℤ)
    (h : killedRun boltz poisson init dt d r i = some .torn) : d i = some .torn := by
  unfold killedRun at h
  rw [killed_eq, if_neg (by omega)] at h
  simp only at h
  rcases finish_spec _ d i with h' | ⟨w, hw', h1, h2⟩
  · rwa [h'] at h
  · rw [h2] at h; simp at h

/-! ## Going on -/

theorem program_of_start (nb : ℕ) (hnb : 0 < nb) (d : Disk F Φ) (s m : ℕ) (timeDiag : ℝ) (ht : nbstepDiag timeDiag dt = some (nb : ℤ))
    (hs : s = 0 ∨ d s = some (.complete (right (midpoint boltz (fun f => (poisson f).2) dt) (fun f => (poisson f).1) dt nb init s))) :
    program boltz poisson init dt timeDiag s m d = (List.range (m / nb + 1)).map fun q : ℕ =>
      (((s + q : ℕ) : ℤ), right (midpoint boltz (fun f => (poisson f).2) dt) (fun f => (poisson f).1) dt nb init (s + q)) := by
  obtain ⟨step, hstep⟩ : ∃ step, step = midpoint boltz (fun f => (poisson f).2) dt := ⟨_, rfl⟩
  rw [← hstep] at hs ⊢
  have hst : startDisk (s : ℤ) init d = some (step^[s * nb] init, ((s * nb : ℕ) : ℝ) * dt) := by
    unfold startDisk
    split_ifs with h0
    · have : s = 0 := by exact_mod_cast h0
      subst this; simp
    · rcases hs with h | h
      · exact absurd (by exact_mod_cast h) h0
      · rw [h]; rfl
  unfold program
  rw [hst, ht]
  simp only [Int.toNat_natCast, c46_xvx, ← hstep]
  rw [writes_expected _ nb hnb]
  refine List.map_congr_left fun q _ => ?_
  simp only [right, ← Function.iterate_add_apply]
  rw [show q * nb + s * nb = (s + q) * nb by ring]
  refine Prod.ext (by push_cast; rfl) ?_
  simp only
  congr 1
  push_cast; ring

/-- **C112** What a run of `m` steps from the initial condition (`s = 0`) or from a complete and right file `s` has written when it is killed after `cut` actions: the file `s + q` is complete and right if
its write was finished, torn if it was going on, and unchanged if it had not begun; all other files are unchanged. -/
theorem c112_killed_run (nb : ℕ) (hnb : 0 < nb) (d : Disk F Φ) (s m cut : ℕ) (timeDiag : ℝ) (ht : nbstepDiag timeDiag dt = some (nb : ℤ))
    (hs : s = 0 ∨ d s = some (.complete (right (midpoint boltz (fun f => (poisson f).2) dt) (fun f => (poisson f).1) dt nb init s))) :
    (∀ q : ℕ, q * nb ≤ m → killedRun boltz poisson init dt d ⟨s, m, timeDiag, cut⟩ ((s + q : ℕ) : ℤ) =
      if 2 * q + 2 ≤ cut then some (.complete (right (midpoint boltz (fun f => (poisson f).2) dt) (fun f => (poisson f).1) dt nb init (s + q)))
      else if 2 * q + 1 = cut then some .torn else d ((s + q : ℕ) : ℤ)) ∧
    ∀ j : ℤ, (∀ q : ℕ, q * nb ≤ m → j ≠ ((s + q : ℕ) : ℤ)) → killedRun boltz poisson init dt d ⟨s, m, timeDiag, cut⟩ j = d j := by
  obtain ⟨rt, hrt⟩ : ∃ rt, rt = right (midpoint boltz (fun f => (poisson f).2) dt) (fun f => (poisson f).1) dt nb init := ⟨_, rfl⟩
  have hp := program_of_start boltz poisson init dt nb hnb d s m timeDiag ht hs
  rw [← hrt] at hp ⊢
  unfold killedRun
  simp only [hp, killed_eq]
  obtain ⟨ws, hws⟩ : ∃ ws : List (ℤ × Saved F Φ), ws = (List.range (m / nb + 1)).map fun q : ℕ => (((s + q : ℕ) : ℤ), rt (s + q)) := ⟨_, rfl⟩
  rw [← hws]
  have hlt : ∀ q : ℕ, q * nb ≤ m ↔ q < m / nb + 1 := fun q => by rw [Nat.lt_succ_iff, Nat.le_div_iff_mul_le hnb]
  have hget : ∀ q : ℕ, ws[q]? = if q < m / nb + 1 then some (((s + q : ℕ) : ℤ), rt (s + q)) else none := by
    intro q
    rw [hws, List.getElem?_map]
    split_ifs with h
    · rw [List.getElem?_range h]; rfl
    · rw [List.getElem?_eq_none (by simpa using h)]; rfl
  have htake : ∀ c : ℕ, ws.take c = (List.range (min c (m / nb + 1))).map fun q : ℕ => (((s + q : ℕ) : ℤ), rt (s + q)) := by
    intro c
    rw [hws, ← List.map_take, List.take_range]
  have hnd : ∀ c, ((ws.take c).map Prod.fst).Nodup := by
    intro c
    rw [htake, List.map_map]
    refine List.Nodup.map_on ?_ List.nodup_range
    intro a _ b _ hab
    simp only [Function.comp_apply] at hab
    omega
  have hfin : ∀ (c q : ℕ), q < m / nb + 1 → finish d (ws.take c) ((s + q : ℕ) : ℤ) = if q < c then some (.complete (rt (s + q))) else d ((s + q : ℕ) : ℤ) := by
    intro c q hq
    split_ifs with h
    · have hmem : ((((s + q : ℕ) : ℤ), rt (s + q)) : ℤ × Saved F Φ) ∈ ws.take c := by
        rw [htake, List.mem_map]
        exact ⟨q, List.mem_range.2 (lt_min h hq), rfl⟩
      exact finish_mem _ (hnd c) d _ hmem
    · refine finish_other _ _ _ fun w hw => ?_
      rw [htake, List.mem_map] at hw
      obtain ⟨p, hp', rfl⟩ := hw
      rw [List.mem_range] at hp'
      simp only
      omega
  have hoth : ∀ (c : ℕ) (j : ℤ), (∀ q : ℕ, q * nb ≤ m → j ≠ ((s + q : ℕ) : ℤ)) → finish d (ws.take c) j = d j := by
    intro c j hj
    refine finish_other _ _ _ fun w hw => ?_
    rw [htake, List.mem_map] at hw
    obtain ⟨p, hp', rfl⟩ := hw
    rw [List.mem_range] at hp'
    exact (hj p ((hlt p).2 (lt_of_lt_of_le hp' (min_le_right _ _)))).symm
  constructor
  · intro q hq
    rw [hlt] at hq
    by_cases hodd : cut % 2 = 1
    · rw [if_pos hodd, hget]
      by_cases hc : cut / 2 < m / nb + 1
      · rw [if_pos hc]
        simp only
        by_cases hqc : q = cut / 2
        · subst hqc
          rw [Function.update_self, if_neg (by omega), if_pos (by omega)]
        · rw [Function.update_of_ne (by omega), hfin _ _ hq]
          by_cases h : q < cut / 2
          · rw [if_pos h, if_pos (by omega)]
          · rw [if_neg h, if_neg (by omega), if_neg (by omega)]
      · rw [if_neg hc]
        simp only
        rw [hfin _ _ hq, if_pos (by omega), if_pos (by omega)]
    · rw [if_neg hodd]
      simp only
      rw [hfin _ _ hq]
      by_cases h : q < cut / 2
      · rw [if_pos h, if_pos (by omega)]
      · rw [if_neg h, if_neg (by omega), if_neg (by omega)]
  · intro j hj
    by_cases hodd : cut % 2 = 1
    · rw [if_pos hodd, hget]
      by_cases hc : cut / 2 < m / nb + 1
      · rw [if_pos hc]
        simp only
        rw [Function.update_of_ne (hj _ ((hlt _).2 hc)), hoth _ _ hj]
      · rw [if_neg hc]
        exact hoth _ _ hj
    · rw [if_neg hodd]
      exact hoth _ _ hj

/-- Files whose number is not a natural number do not exist. -/
theorem after_not_nat (nb : ℕ) (hnb : 0 < nb) (runs : List Run) (hr : ∀ r ∈ runs, nbstepDiag r.timeDiag dt = some (nb : ℤ)) (j : ℤ) (hj : ∀ k : ℕ, j ≠ k) :
    after boltz poisson init dt runs j = none := by
  induction runs using List.reverseRecOn with
  | nil => rfl
  | append_singleton runs r ih =>
    have hr' : ∀ r ∈ runs, nbstepDiag r.timeDiag dt = some (nb : ℤ) := fun r' h => hr r' (List.mem_append_left _ h)
    have ih := ih hr'
    obtain ⟨d, hd⟩ : ∃ d, d = after boltz poisson init dt runs := ⟨_, rfl⟩
    have e : after boltz poisson init dt (runs ++ [r]) = killedRun boltz poisson init dt d r := by rw [hd]; simp [after, List.foldl_append]
    rw [e]
    rw [← hd] at ih
    by_cases hst : r.iterStart = 0 ∨ ∃ c, d r.iterStart = some (.complete c)
    · have hs : ∃ s : ℕ, r.iterStart = s ∧ (s = 0 ∨ d s =
          some (.complete (right (midpoint boltz (fun f => (poisson f).2) dt) (fun f => (poisson f).1) dt nb init s))) := by
        rcases hst with h | ⟨c, hc⟩
        · exact ⟨0, by simpa using h, .inl rfl⟩
        · have hc' := hc
          rw [hd] at hc'
          obtain ⟨k, hk, rfl⟩ := c112_every_file_right boltz poisson init dt nb hnb runs hr' _ _ hc'
          exact ⟨k, hk, .inr (by rw [← hk]; exact hc)⟩
      obtain ⟨s, hs, hs'⟩ := hs
      have e2 : killedRun boltz poisson init dt d r = killedRun boltz poisson init dt d ⟨s, (r.nbiter.toNat : ℕ), r.timeDiag, r.killedAfter⟩ := by
        unfold killedRun program
        rw [hs]
        simp only [Int.toNat_natCast]
      rw [e2, (c112_killed_run boltz poisson init dt nb hnb d s r.nbiter.toNat r.killedAfter r.timeDiag (hr r (by simp)) hs').2 j fun q _ => hj _]
      exact ih
    · have : program boltz poisson init dt r.timeDiag r.iterStart r.nbiter d = [] := by
        push Not at hst
        unfold program startDisk
        rw [if_neg hst.1]
        rcases hx : d r.iterStart with _ | (_ | c)
        · rfl
        · rfl
        · exact absurd hx (hst.2 c)
      unfold killedRun
      rw [this]
      simpa [actions] using ih

/-- **C112** Going on: after any history, a run of `m` steps from the initial condition or from any complete file `s`, which is not killed, writes all files from `s` to the end, complete and right, and
changes no other file. -/
theorem c112_resume (nb : ℕ) (hnb : 0 < nb) (runs : List Run) (hr : ∀ r ∈ runs, nbstepDiag r.timeDiag dt = some (nb : ℤ))
    (s m cut : ℕ) (timeDiag : ℝ) (ht : nbstepDiag timeDiag dt = some (nb : ℤ)) (hcut : 2 * (m / nb) + 2 ≤ cut)
    (hs : s = 0 ∨ ∃ c, after boltz poisson init dt runs s = some (.complete c)) :
    (∀ k : ℕ, s ≤ k → k * nb ≤ s * nb + m → after boltz poisson init dt (runs ++ [⟨s, m, timeDiag, cut⟩]) k =
      some (.complete (right (midpoint boltz (fun f => (poisson f).2) dt) (fun f => (poisson f).1) dt nb init k))) ∧
    ∀ j : ℤ, (∀ k : ℕ, s ≤ k → k * nb ≤ s * nb + m → j ≠ k) →
      after boltz poisson init dt (runs ++ [⟨s, m, timeDiag, cut⟩]) j = after boltz poisson init dt runs j := by
  have hs' : s = 0 ∨ after boltz poisson init dt runs s =
      some (.complete (right (midpoint boltz (fun f => (poisson f).2) dt) (fun f => (poisson f).1) dt nb init s)) := by
    rcases hs with h | ⟨c, hc⟩
    · exact .inl h
    · obtain ⟨k, hk, rfl⟩ := c112_every_file_right boltz poisson init dt nb hnb runs hr s c hc
      have : s = k := by exact_mod_cast hk
      subst this
      exact .inr hc
  have e : after boltz poisson init dt (runs ++ [⟨s, m, timeDiag, cut⟩]) =
      killedRun boltz poisson init dt (after boltz poisson init dt runs) ⟨s, m, timeDiag, cut⟩ := by
    simp [after, List.foldl_append]
  obtain ⟨h1, h2⟩ := c112_killed_run boltz poisson init dt nb hnb (after boltz poisson init dt runs) s m cut timeDiag ht hs'
  rw [e]
  constructor
  · intro k hk hkm
    obtain ⟨q, rfl⟩ := Nat.exists_eq_add_of_le hk
    have hq : q * nb ≤ m := by rw [add_mul] at hkm; omega
    have hq' : q ≤ m / nb := (Nat.le_div_iff_mul_le hnb).2 hq
    rw [h1 q hq, if_pos (by omega)]
  · intro j hj
    exact h2 j fun q hq => hj (s + q) (Nat.le_add_right _ _) (by rw [add_mul]; omega)

/-- **C112** The history is forgotten: if the files below `s` are all complete and no file beyond the end of the new run exists, the disk after the history and the run from `s` is that of one single
uninterrupted run of `s nb + m` steps on an empty disk. -/
theorem c112_same_as_uninterrupted (nb : ℕ) (hnb : 0 < nb) (runs : List Run) (hr : ∀ r ∈ runs, nbstepDiag r.timeDiag dt = some (nb : ℤ))
    (s m cut cut' : ℕ) (timeDiag : ℝ) (ht : nbstepDiag timeDiag dt = some (nb : ℤ)) (hcut : 2 * (m / nb) + 2 ≤ cut)
    (hcut' : 2 * ((s * nb + m) / nb) + 2 ≤ cut') (hs : s = 0 ∨ ∃ c, after boltz poisson init dt runs s = some (.complete c))
    (hbelow : ∀ k : ℕ, k < s → ∃ c, after boltz poisson init dt runs k = some (.complete c))
    (hbeyond : ∀ k : ℕ, s * nb + m < k * nb → after boltz poisson init dt runs k = none) :
    after boltz poisson init dt (runs ++ [⟨s, m, timeDiag, cut⟩]) = after boltz poisson init dt [⟨0, (s * nb + m : ℕ), timeDiag, cut'⟩] := by
  obtain ⟨a1, a2⟩ := c112_resume boltz poisson init dt nb hnb runs hr s m cut timeDiag ht hcut hs
  obtain ⟨b1, b2⟩ := c112_resume boltz poisson init dt nb hnb [] (by simp) 0 (s * nb + m) cut' timeDiag ht hcut' (.inl rfl)
  simp only [List.nil_append, Nat.cast_zero] at b1 b2
  have hneg := after_not_nat boltz poisson init dt nb hnb runs hr
  funext j
  by_cases hj : ∃ k : ℕ, j = k
  · obtain ⟨k, rfl⟩ := hj
    by_cases hk : k * nb ≤ s * nb + m
    · rw [b1 k (Nat.zero_le _) (by omega)]
      by_cases hks : s ≤ k
      · exact a1 k hks hk
      · rw [a2 k fun k' h1 _ h3 => by omega]
        obtain ⟨c, hc⟩ := hbelow k (by omega)
        obtain ⟨k', hk', rfl⟩ := c112_every_file_right boltz poisson init dt nb hnb runs hr k c hc
        have : k = k' := by exact_mod_cast hk'
        subst this
        exact hc
    · rw [b2 k fun k' _ h2 h3 => hk (by have : k = k' := by exact_mod_cast h3
                                        subst this; omega),
        a2 k fun k' _ h2 h3 => hk (by have : k = k' := by exact_mod_cast h3
                                      subst this; exact h2), hbeyond k (by omega)]
      rfl
  · have hj' : ∀ k : ℕ, j ≠ k := fun k h => hj ⟨k, h⟩
    rw [b2 j fun k _ _ => hj' k, a2 j fun k _ _ => hj' k, hneg j hj']
    rfl

/-- **C112** Starting from the beginning always works: whatever the history, a run from the initial condition which is not killed and covers all files leaves the disk of an uninterrupted run. -/
theorem c112_from_scratch (nb : ℕ) (hnb : 0 < nb) (runs : List Run) (hr : ∀ r ∈ runs, nbstepDiag r.timeDiag dt = some (nb : ℤ))
    (m cut : ℕ) (timeDiag : ℝ) (ht : nbstepDiag timeDiag dt = some (nb : ℤ)) (hcut : 2 * (m / nb) + 2 ≤ cut)
    (hbeyond : ∀ k : ℕ, m < k * nb → after boltz poisson init dt runs k = none) :
    after boltz poisson init dt (runs ++ [⟨0, m, timeDiag, cut⟩]) = after boltz poisson init dt [⟨0, m, timeDiag, cut⟩] := by
  have := c112_same_as_uninterrupted boltz poisson init dt nb hnb runs hr 0 m cut cut timeDiag ht hcut (by simpa using hcut) (.inl rfl)
    (fun k hk => absurd hk (Nat.not_lt_zero k)) (by simpa using hbeyond)
  simpa using this

/-- **C112** The model of the uninterrupted run is the one of property C80: on a disk whose files are all complete, a run which is not killed leaves the directory of the simulation's main program. -/
theorem c112_not_killed (timeDiag : ℝ) (s m : ℤ) (cut : ℕ) (d d' : Dir F Φ) (h : runXVx boltz poisson init dt timeDiag s m d = some d')
    (hcut : 2 * (m.toNat + 1) ≤ cut) :
    killedRun boltz poisson init dt (fun j => (d j).map .complete) ⟨s, m, timeDiag, cut⟩ = fun j => (d' j).map .complete := by
  have hst : startDisk s init (fun j => (d j).map File.complete) = startState s init d := by
    unfold startDisk startState
    split_ifs
    · rfl
    · beta_reduce
      rcases d s with _ | c <;> rfl
  unfold runXVx at h
  rcases hs : startState s init d with _ | ⟨f, t⟩
  · rw [hs] at h; simp at h
  rcases hnb : nbstepDiag timeDiag dt with _ | nb
  · rw [hs, hnb] at h; simp at h
  rw [hs, hnb] at h
  simp only at h
  unfold killedRun program
  rw [hst, hs, hnb]
  simp only
  obtain ⟨log, hlog⟩ : ∃ log, log = (predCorrXVx boltz poisson f t dt m.toNat).2 := ⟨_, rfl⟩
  have hlen : log.length = m.toNat + 1 := by rw [hlog]; exact c46_xvx_count boltz poisson f t dt m.toNat
  rw [← hlog] at h ⊢
  have hn0 : nb ≠ 0 := by
    rintro rfl
    rcases log with _ | ⟨ev, log⟩
    · simp at hlen
    · simp [onEvents, onEvent] at h
  have htake : (actions (writes s nb log)).take cut = actions (writes s nb log) := by
    refine List.take_of_length_le (le_trans ?_ hcut)
    have h1 : ∀ ws : List (ℤ × Saved F Φ), (actions ws).length = 2 * ws.length := by
      intro ws
      induction ws with
      | nil => rfl
      | cons w ws ih =>
        have hc : actions (w :: ws) = .opened w.1 :: .closed w.1 w.2 :: actions ws := rfl
        rw [hc]; simp [ih]; omega
    rw [h1, ← hlen]
    have : (writes s nb log).length ≤ log.length := by
      unfold writes; rw [if_neg hn0]; exact List.length_filterMap_le _ _
    omega
  rw [htake, foldl_actions]
  clear hlog hlen htake hs
  induction log generalizing d with
  | nil => simp [onEvents] at h; subst h; simp [writes, finish]
  | cons ev log ih =>
    simp only [onEvents, List.foldlM_cons, Option.bind_eq_bind] at h
    rcases hev : onEvent s nb d ev.iter ⟨ev.time, ev.density, ev.phi⟩ with _ | d1
    · rw [hev] at h; simp at h
    rw [hev, Option.bind_some] at h
    have := ih d1 (by unfold startDisk startState; split_ifs; · rfl
                      · beta_reduce; rcases d1 s with _ | c <;> rfl) h
    rw [← this]
    unfold onEvent at hev
    rw [if_neg hn0] at hev
    simp only at hev
    unfold writes
    rw [if_neg hn0, if_neg hn0, List.filterMap_cons]
    split_ifs at hev ⊢ with hm
    · simp only [Option.some.injEq] at hev
      simp only [finish, List.foldl_cons]
      congr 1
      rw [← hev]
      funext j
      by_cases hj : j = s + (ev.iter : ℤ).tdiv nb
      · rw [hj, Function.update_self, Function.update_self]; rfl
      · rw [Function.update_of_ne hj, Function.update_of_ne hj]
    · simp only [Option.some.injEq] at hev
      rw [hev]

/-! ## Findings -/

/-- **C112** (finding) A restarted run begins by replacing the file it was started from (the event of its iteration 0 has the number of this file): killed during this first write, it destroys a complete file, which
is the newest one in the usual case. -/
theorem c112_restart_destroys_its_file (nb : ℕ) (hnb : 0 < nb) (runs : List Run) (hr : ∀ r ∈ runs, nbstepDiag r.timeDiag dt = some (nb : ℤ))
    (s m : ℕ) (timeDiag : ℝ) (ht : nbstepDiag timeDiag dt = some (nb : ℤ)) (hs : s = 0 ∨ ∃ c, after boltz poisson init dt runs s = some (.complete c)) :
    after boltz poisson init dt (runs ++ [⟨s, m, timeDiag, 1⟩]) s = some .torn ∧
      ∀ j : ℤ, j ≠ s → after boltz poisson init dt (runs ++ [⟨s, m, timeDiag, 1⟩]) j = after boltz poisson init dt runs j := by
  have hs' : s = 0 ∨ after boltz poisson init dt runs s =
      some (.complete (right (midpoint boltz (fun f => (poisson f).2) dt) (fun f => (poisson f).1) dt nb init s)) := by
    rcases hs with h | ⟨c, hc⟩
    · exact .inl h
    · obtain ⟨k, hk, rfl⟩ := c112_every_file_right boltz poisson init dt nb hnb runs hr s c hc
      have : s = k := by exact_mod_cast hk
      subst this
      exact .inr hc
  have e : after boltz poisson init dt (runs ++ [⟨s, m, timeDiag, 1⟩]) =
      killedRun boltz poisson init dt (after boltz poisson init dt runs) ⟨s, m, timeDiag, 1⟩ := by
    simp [after, List.foldl_append]
  obtain ⟨h1, h2⟩ := c112_killed_run boltz poisson init dt nb hnb (after boltz poisson init dt runs) s m 1 timeDiag ht hs'
  rw [e]
  refine ⟨by simpa using h1 0 (by simp), fun j hj => ?_⟩
  by_cases hq : ∃ q : ℕ, q * nb ≤ m ∧ j = ((s + q : ℕ) : ℤ)
  · obtain ⟨q, hq, rfl⟩ := hq
    have : q ≠ 0 := by rintro rfl; exact hj (by simp)
    rw [h1 q hq, if_neg (by omega), if_neg (by omega)]
  · exact h2 j fun q hq' h => hq ⟨q, hq', h⟩

/-- **C112** (finding) Repeated bad luck loses everything: for every number `N` there is a history in which the first run ends normally with the files `0, …, N`, and after `N + 1` runs, each restarted from the newest
complete file and killed in its first write, no complete file is left. -/
theorem c112_all_lost (nb : ℕ) (hnb : 0 < nb) (timeDiag : ℝ) (ht : nbstepDiag timeDiag dt = some (nb : ℤ)) (N : ℕ) :
    ∃ first : Run, ∃ killed : List Run, killed.length = N + 1 ∧
      (∀ k : ℕ, k ≤ N → ∃ c, after boltz poisson init dt [first] k = some (.complete c)) ∧
      (∀ i (hi : i < killed.length), killed[i].iterStart = ((N - i : ℕ) : ℤ) ∧ killed[i].killedAfter = 1 ∧
        ∃ c, after boltz poisson init dt (first :: killed.take i) (killed[i].iterStart) = some (.complete c)) ∧
      ∀ j c, after boltz poisson init dt (first :: killed) j ≠ some (.complete c) := by
  obtain ⟨first, hf⟩ : ∃ r : Run, r = ⟨0, ((N * nb : ℕ) : ℤ), timeDiag, 2 * (N * nb / nb) + 2⟩ := ⟨_, rfl⟩
  obtain ⟨kl, hkl⟩ : ∃ kl : ℕ → Run, kl = fun i => ⟨((N - i : ℕ) : ℤ), 1, timeDiag, 1⟩ := ⟨_, rfl⟩
  obtain ⟨hfull, hfull'⟩ := c112_resume boltz poisson init dt nb hnb [] (by simp) 0 (N * nb) (2 * (N * nb / nb) + 2) timeDiag ht (le_refl _) (.inl rfl)
  have hfirst : after boltz poisson init dt ([] ++ [(⟨((0 : ℕ) : ℤ), ((N * nb : ℕ) : ℤ), timeDiag, 2 * (N * nb / nb) + 2⟩ : Run)]) = after boltz poisson init dt [first] := by
    rw [hf]; rfl
  rw [hfirst] at hfull hfull'
  have hcomp : ∀ k : ℕ, k ≤ N → ∃ c, after boltz poisson init dt [first] k = some (.complete c) := by
    intro k hk
    exact ⟨_, hfull k (Nat.zero_le _) (by have := Nat.mul_le_mul_right nb hk; omega)⟩
  have hdt : ∀ i, ∀ r ∈ first :: (List.range i).map kl, nbstepDiag r.timeDiag dt = some (nb : ℤ) := by
    intro i r hr
    rcases List.mem_cons.1 hr with h | h
    · rw [h, hf]; exact ht
    · obtain ⟨a, _, rfl⟩ := List.mem_map.1 h
      rw [hkl]; exact ht
  -- after `i` killed runs: the files above `N - i` are torn, the others complete
  have main : ∀ i ≤ N + 1, (∀ k : ℕ, k + i ≤ N → ∃ c, after boltz poisson init dt (first :: (List.range i).map kl) k = some (.complete c)) ∧
      ∀ j : ℤ, (∀ k : ℕ, k + i ≤ N → j ≠ k) → ∀ c, after boltz poisson init dt (first :: (List.range i).map kl) j ≠ some (.complete c) := by
    intro i
    induction i with
    | zero =>
      intro _
      refine ⟨fun k hk => hcomp k (by omega), fun j hj c hc => ?_⟩
      have := hfull' j fun k _ hk => hj k (by
        have : k * nb ≤ N * nb := by omega
        have := Nat.le_of_mul_le_mul_right this hnb
        omega)
      simp only [List.range_zero, List.map_nil] at hc
      rw [this] at hc
      simp [after] at hc
    | succ i ih =>
      intro hi
      obtain ⟨i1, i2⟩ := ih (by omega)
      have e : (first :: (List.range (i + 1)).map kl) = (first :: (List.range i).map kl) ++ [⟨((N - i : ℕ) : ℤ), ((1 : ℕ) : ℤ), timeDiag, 1⟩] := by
        rw [List.range_succ, List.map_append, hkl]; rfl
      obtain ⟨k1, k2⟩ := c112_restart_destroys_its_file boltz poisson init dt nb hnb (first :: (List.range i).map kl) (hdt i) (N - i) 1 timeDiag ht
        (.inr (i1 (N - i) (by omega)))
      rw [e]
      refine ⟨fun k hk => ?_, fun j hj c hc => ?_⟩
      · rw [k2 k (by intro h; have : k = N - i := by exact_mod_cast h
                     omega)]
        exact i1 k (by omega)
      · by_cases h : j = ((N - i : ℕ) : ℤ)
        · rw [h, k1] at hc; simp at hc
        · rw [k2 j h] at hc
          refine i2 j (fun k hk he => ?_) c hc
          by_cases h' : k = N - i
          · exact h (by rw [he, h'])
          · exact hj k (by omega) he
  refine ⟨first, (List.range (N + 1)).map kl, by simp, hcomp, fun i hi => ?_, fun j c => ?_⟩
  · have hiN : i < N + 1 := by simpa using hi
    have e : ((List.range (N + 1)).map kl).take i = (List.range i).map kl := by
      rw [← List.map_take, List.take_range, min_eq_left hiN.le]
    rw [e]
    simp only [List.getElem_map, List.getElem_range, hkl]
    refine ⟨trivial, trivial, ?_⟩
    have := (main i hiN.le).1 (N - i) (by omega)
    rwa [hkl] at this
  · exact (main (N + 1) (le_refl _)).2 j (fun k hk => by omega) c

/-! ## Instances -/

/-- The hypotheses are met: `deltat: 0.125`, `time_diag: 0.25` (`nb = 2`), a first run of five steps killed inside of its second write; the file 0 is complete, the file 1 torn; going on from the file 0
gives the disk of an uninterrupted run. -/
example (boltz : ℝ → ℝ → ℝ → ℝ) (poisson : ℝ → ℝ × ℝ) (init : ℝ) :
    (∃ c, after boltz poisson init (1 / 8) [⟨0, (5 : ℕ), 1 / 4, 3⟩] 0 = some (.complete c)) ∧ after boltz poisson init (1 / 8) [⟨0, (5 : ℕ), 1 / 4, 3⟩] 1 = some .torn ∧
    after boltz poisson init (1 / 8) ([⟨0, (5 : ℕ), 1 / 4, 3⟩] ++ [⟨0, (5 : ℕ), 1 / 4, 6⟩]) = after boltz poisson init (1 / 8) [⟨0, (5 : ℕ), 1 / 4, 6⟩] := by
  obtain ⟨h1, h2⟩ := c112_killed_run boltz poisson init (1 / 8) 2 (by norm_num) (fun _ => none) 0 5 3 (1 / 4) nbstepDiag_sample (.inl rfl)
  have e : after boltz poisson init (1 / 8) [⟨0, (5 : ℕ), 1 / 4, 3⟩] = killedRun boltz poisson init (1 / 8) (fun _ => none) ⟨((0 : ℕ) : ℤ), (5 : ℕ), 1 / 4, 3⟩ := by
    simp [after]
  refine ⟨⟨_, by rw [e]; simpa using h1 0 (by norm_num)⟩, by rw [e]; simpa using h1 1 (by norm_num), ?_⟩
  refine c112_from_scratch boltz poisson init (1 / 8) 2 (by norm_num) _ ?_ 5 6 (1 / 4) nbstepDiag_sample (by norm_num) fun k hk => ?_
  · intro r hr
    rw [List.mem_singleton] at hr
    rw [hr]; exact nbstepDiag_sample
  · rw [e]
    exact h2 k fun q hq h => by
      have : k = 0 + q := by exact_mod_cast h
      omega

end Verif.Crash
