import Verif.Model.Species
import Mathlib.Tactic.NormNum
import Mathlib.Tactic.Ring
import Mathlib.Tactic.Linarith

/-!
# C48: species initialisation
-/

namespace Verif.Species

/-- Specification: an electron is a species of charge `-1`, every other kinetic species is an ion. -/
def HasElectron (l : List ℚ) : Prop := ∃ q ∈ l, q = -1
/-- Specification: some kinetic species is not an electron. -/
def HasIon (l : List ℚ) : Prop := ∃ q ∈ l, q ≠ -1

instance (l : List ℚ) : Decidable (HasElectron l) := inferInstanceAs (Decidable (∃ q ∈ l, q = -1))
instance (l : List ℚ) : Decidable (HasIon l) := inferInstanceAs (Decidable (∃ q ∈ l, q ≠ -1))

theorem adiabFlags_eq (l : List ℚ) (e i : ℕ) :
    adiabFlags l (e, i) = (if HasElectron l then 0 else e, if HasIon l then 0 else i) := by
  induction l generalizing e i with
  | nil => simp [adiabFlags, HasElectron, HasIon]
  | cons q qs ih =>
    by_cases h : q = -1
    · have e1 : HasElectron (q :: qs) := ⟨q, by simp, h⟩
      have e2 : HasIon (q :: qs) ↔ HasIon qs := by simp [HasIon, h]
      rw [adiabFlags, if_pos h, ih, if_pos e1]
      by_cases hi : HasIon qs
      · rw [if_pos hi, if_pos (e2.2 hi)]; simp
      · rw [if_neg hi, if_neg (fun h => hi (e2.1 h))]; simp
    · have e1 : HasIon (q :: qs) := ⟨q, by simp, h⟩
      have e2 : HasElectron (q :: qs) ↔ HasElectron qs := by simp [HasElectron, Ne.symm h]
      rw [adiabFlags, if_neg h, ih, if_pos e1]
      by_cases hi : HasElectron qs
      · rw [if_pos hi, if_pos (e2.2 hi)]; simp
      · rw [if_neg hi, if_neg (fun h => hi (e2.1 h))]; simp

theorem findElec_spec (l : List ℚ) (i : ℕ) (acc : Option ℕ) :
    (findElec l i acc = acc ∧ ¬ HasElectron l) ∨
    (∃ k, findElec l i acc = some (i + k) ∧ l[k]? = some (-1) ∧ ∀ j, k < j → l[j]? ≠ some (-1)) := by
  induction l generalizing i acc with
  | nil => left; simp [findElec, HasElectron]
  | cons q qs ih =>
    rw [findElec]
    rcases ih (i + 1) (if q = -1 then some i else acc) with ⟨h1, h2⟩ | ⟨k, h1, h2, h3⟩
    · by_cases hq : q = -1
      · right
        refine ⟨0, by rw [h1]; simp [hq], by simp [hq], ?_⟩
        intro j hj hc
        obtain ⟨j, rfl⟩ : ∃ j', j = j' + 1 := ⟨j - 1, by omega⟩
        rw [List.getElem?_cons_succ] at hc
        exact h2 ⟨-1, List.mem_of_getElem? hc, rfl⟩
      · left
        refine ⟨by rw [h1]; simp [hq], ?_⟩
        rintro ⟨x, hx, rfl⟩
        rcases List.mem_cons.1 hx with rfl | hx
        · exact hq rfl
        · exact h2 ⟨_, hx, rfl⟩
    · right
      refine ⟨k + 1, by rw [h1]; congr 1; omega, by simpa using h2, ?_⟩
      intro j hj
      obtain ⟨j, rfl⟩ : ∃ j', j = j' + 1 := ⟨j - 1, by omega⟩
      rw [List.getElem?_cons_succ]
      exact h3 j (by omega)

/-- C48: `ielec()` designates a species of charge `-1` (the last one), or an error is raised exactly when there is none. -/
theorem c48_ielec (charges masses : List ℚ) :
    (∃ s, mkInfo charges masses = .ok s ∧ s.charges = charges ∧ s.masses = masses ∧ s.charge s.ielec = some (-1)
        ∧ ∀ j, s.ielec < j → s.charge j ≠ some (-1)) ∨
    (mkInfo charges masses = .error .electronNotFound ∧ ¬ HasElectron charges) := by
  rw [mkInfo]
  rcases findElec_spec charges 0 none with ⟨h1, h2⟩ | ⟨k, h1, h2, h3⟩
  · right; simp [h1, h2]
  · left; simp only [h1]
    exact ⟨_, rfl, rfl, rfl, by simpa [Info.charge] using h2, by simpa [Info.charge] using h3⟩

example : mkInfo [1, -1, 2] [1, 2, 3] = .ok ⟨[1, -1, 2], [1, 2, 3], 1⟩ := by decide
example : mkInfo [1, 2] [1, 2] = .error .electronNotFound := by decide

/-- Specification of the whole list of charges: kinetic species, then neutral fluid species, then the adiabatic species if one is needed. -/
def adiabatic (kin : List ℚ) : List ℚ :=
  if ¬ HasElectron kin then [-1] else if ¬ HasIon kin then [1] else []

/-- C48: `init_all_species` throws exactly when there is no kinetic species; otherwise the species are the kinetic ones in order, the neutral fluid ones in order and
then exactly the missing adiabatic species: an electron of charge `-1` if no kinetic species is an electron, an ion of charge `+1` if all are electrons,
nothing otherwise. The "electron not found" error is never reached. -/
theorem c48_init (kin : List (ℚ × ℚ)) (fluid : List ℚ) :
    (kin = [] ∧ initAllSpecies kin fluid = .error .bothAdiabatic) ∨
    (kin ≠ [] ∧ ∃ s, initAllSpecies kin fluid = .ok (kin.length, (kin.length, fluid.length), s) ∧
      s.charges = kin.map Prod.fst ++ List.replicate fluid.length 0 ++ adiabatic (kin.map Prod.fst) ∧
      s.masses = kin.map Prod.snd ++ fluid ∧
      s.charge s.ielec = some (-1)) := by
  rw [initAllSpecies]
  simp only [adiabFlags_eq]
  set l := kin.map Prod.fst with hl
  have hrep : fluid.map (fun _ => (0 : ℚ)) = List.replicate fluid.length 0 := by simp
  by_cases hk : kin = []
  · left; refine ⟨hk, ?_⟩
    have : l = [] := by simp [hl, hk]
    simp [this, HasElectron, HasIon]
  right; refine ⟨hk, ?_⟩
  by_cases he : HasElectron l <;> by_cases hi : HasIon l
  · simp only [he, hi, if_true, hrep, adiabatic, not_true_eq_false, if_false]
    norm_num
    rcases c48_ielec (l ++ List.replicate fluid.length 0) (kin.map Prod.snd ++ fluid) with ⟨s, h1, h2, h3, h4, _⟩ | ⟨_, h⟩
    · rw [h1]; exact ⟨s, rfl, h2, h3, h4⟩
    · exact absurd (by obtain ⟨q, hq, h'⟩ := he; exact ⟨q, by simp [hq], h'⟩) h
  · simp only [he, hi, if_true, hrep, adiabatic, not_true_eq_false, not_false_eq_true, if_false]
    norm_num
    rcases c48_ielec (l ++ (List.replicate fluid.length 0 ++ [1])) (kin.map Prod.snd ++ fluid) with ⟨s, h1, h2, h3, h4, _⟩ | ⟨_, h⟩
    · rw [h1]; exact ⟨s, rfl, h2, h3, h4⟩
    · exact absurd (by obtain ⟨q, hq, h'⟩ := he; exact ⟨q, by simp [hq], h'⟩) h
  · simp only [he, hi, if_true, hrep, adiabatic, not_true_eq_false, not_false_eq_true, if_false]
    norm_num
    rcases c48_ielec (l ++ (List.replicate fluid.length 0 ++ [-1])) (kin.map Prod.snd ++ fluid) with ⟨s, h1, h2, h3, h4, _⟩ | ⟨_, h⟩
    · rw [h1]; exact ⟨s, rfl, h2, h3, h4⟩
    · exact absurd ⟨-1, by simp, rfl⟩ h
  · exfalso
    obtain ⟨x, xs, rfl⟩ := List.exists_cons_of_ne_nil hk
    by_cases hx : x.1 = -1
    · exact he ⟨x.1, by simp [hl], hx⟩
    · exact hi ⟨x.1, by simp [hl], hx⟩

/-- C48: `init_species` (no fluid species): the kinetic species and exactly the missing adiabatic one. -/
theorem c48_init_species (kin : List (ℚ × ℚ)) :
    (kin = [] ∧ initSpecies kin = .error .bothAdiabatic) ∨
    (kin ≠ [] ∧ ∃ s, initSpecies kin = .ok (kin.length, (kin.length, 0), s) ∧ s.charges = kin.map Prod.fst ++ adiabatic (kin.map Prod.fst) ∧ s.masses = kin.map Prod.snd ∧
      s.charge s.ielec = some (-1)) := by
  rcases c48_init kin [] with h | ⟨h1, s, h2, h3, h4, h5⟩
  · exact Or.inl h
  · exact Or.inr ⟨h1, s, h2, by simpa using h3, by simpa using h4, h5⟩

example : initSpecies [(1, 2)] = .ok (1, (1, 0), ⟨[1, -1], [2], 1⟩) := by decide +kernel
example : initSpecies [(-1, 1/400)] = .ok (1, (1, 0), ⟨[-1, 1], [1/400], 0⟩) := by decide +kernel
example : initAllSpecies [(-1, 1/400), (1, 1)] [5] = .ok (2, (2, 1), ⟨[-1, 1, 0], [1/400, 1, 5], 0⟩) := by decide +kernel
example : initSpecies [] = .error .bothAdiabatic := by decide

/-- At most one adiabatic species is appended. -/
theorem c48_at_most_one (kin : List ℚ) : (adiabatic kin).length ≤ 1 := by
  unfold adiabatic; split_ifs <;> simp

/-- When electrons are kinetic, `ielec()` is a kinetic species and its mass is the one that was read. -/
theorem c48_kinetic_electron_mass (kin : List (ℚ × ℚ)) (fluid : List ℚ) (s : Info)
    (h : initAllSpecies kin fluid = .ok (kin.length, (kin.length, fluid.length), s))
    (he : HasElectron (kin.map Prod.fst)) :
    ∃ k, s.ielec < kin.length ∧ kin[s.ielec]? = some k ∧ k.1 = -1 ∧ s.mass s.ielec = some k.2 := by
  rcases c48_init kin fluid with ⟨_, h'⟩ | ⟨_, s', h', hc, hm, hq⟩
  · rw [h'] at h; cases h
  · rw [h'] at h
    injection h with h; injection h with _ h; injection h with _ h
    subst h
    have hlt : s'.ielec < kin.length := by
      by_contra hge
      rw [Info.charge, hc, adiabatic] at hq
      simp only [he, not_true_eq_false, if_false] at hq
      rw [List.append_assoc, List.getElem?_append_right (by simpa using hge)] at hq
      have hmem := List.mem_of_getElem? hq
      split_ifs at hmem <;> simp [List.mem_replicate] at hmem <;> norm_num at hmem
    refine ⟨kin[s'.ielec], hlt, by simp [hlt], ?_, ?_⟩
    · rw [Info.charge, hc, List.append_assoc, List.getElem?_append_left (by simpa using hlt)] at hq
      simpa [hlt] using hq
    · rw [Info.mass, hm, List.getElem?_append_left (by simpa using hlt)]
      simp [hlt]

/-- FINDING: when the electrons are adiabatic, `mass(ielec())` reads out of the range of the masses: the advection operators
(`src/advection/bsl_advection_x.hpp:106`, `src/advection/bsl_advection_vx.hpp:112`), which call it for every species, cannot be
used with adiabatic electrons. -/
theorem c48_adiabatic_electron_mass (kin : List (ℚ × ℚ)) (fluid : List ℚ) (hk : kin ≠ [])
    (he : ¬ HasElectron (kin.map Prod.fst)) :
    ∃ s, initAllSpecies kin fluid = .ok (kin.length, (kin.length, fluid.length), s) ∧ s.mass s.ielec = none := by
  rcases c48_init kin fluid with ⟨h0, _⟩ | ⟨_, s, h', hc, hm, hq⟩
  · exact absurd h0 hk
  refine ⟨s, h', ?_⟩
  rw [Info.mass, hm]
  rw [List.getElem?_eq_none_iff]
  by_contra hlt
  rw [not_le] at hlt
  rw [Info.charge, hc, List.getElem?_append_left (by simpa using hlt)] at hq
  have hmem := List.mem_of_getElem? hq
  rw [List.mem_append] at hmem
  rcases hmem with hmem | hmem
  · exact he ⟨-1, hmem, rfl⟩
  · have := (List.mem_replicate.1 hmem).2; norm_num at this

example : ¬ HasElectron ([(1, 2)].map Prod.fst : List ℚ) := by decide +kernel

/-- Restart: `init_kinetic_species` adds nothing; it fails exactly when no saved species is an electron. -/
theorem c48_kinetic (charges masses : List ℚ) :
    (∃ s, initKineticSpecies charges masses = .ok (charges.length, s) ∧ s.charges = charges ∧ s.masses = masses ∧
        s.charge s.ielec = some (-1)) ∨
    (initKineticSpecies charges masses = .error .electronNotFound ∧ ¬ HasElectron charges) := by
  rw [initKineticSpecies]
  rcases c48_ielec charges masses with ⟨s, h1, h2, h3, h4, _⟩ | ⟨h1, h2⟩
  · left; rw [h1]; exact ⟨s, rfl, h2, h3, h4⟩
  · right; rw [h1]; exact ⟨rfl, h2⟩

end Verif.Species
