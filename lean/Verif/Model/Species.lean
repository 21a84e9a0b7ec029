import Mathlib.Data.Rat.Defs
import Mathlib.Data.Rat.Lemmas
import Mathlib.Data.List.Range

/-!
# Species (src/speciesinfo)

Charges and masses are rational numbers (every finite `double` is one; only comparisons with `-1.` are made).  A field over the species is a list; reading it out of
range is the outcome `none`.
-/

namespace Verif.Species

/-- The two exceptions of the species code. `src/speciesinfo/species_init.cpp:46-48` and `src/speciesinfo/species_info.hpp:92-94`. -/
inductive Err
  | bothAdiabatic
  | electronNotFound
deriving DecidableEq, Repr

/-- The state of `SpeciesInformation::Impl`: charges, masses and `m_ielec`. `src/speciesinfo/species_info.hpp:38-50`. -/
structure Info where
  charges : List ℚ
  masses : List ℚ
  ielec : ℕ
deriving DecidableEq, Repr

/-- The search loop of `src/speciesinfo/species_info.hpp:85-91`: the last index whose charge is `-1`, scanning from index `i`. -/
def findElec : List ℚ → ℕ → Option ℕ → Option ℕ
  | [], _, acc => acc
  | q :: qs, i, acc => findElec qs (i + 1) (if q = -1 then some i else acc)

/-- Constructor of `SpeciesInformation::Impl`, `src/speciesinfo/species_info.hpp:77-95` (the `assert` of line 84 is not modelled). -/
def mkInfo (charges masses : List ℚ) : Except Err Info :=
  match findElec charges 0 none with
  | some i => .ok ⟨charges, masses, i⟩
  | none => .error .electronNotFound

/-- `charge(isp)`, `src/speciesinfo/species_info.hpp:107-110`; `none`: out of range. -/
def Info.charge (s : Info) (i : ℕ) : Option ℚ := s.charges[i]?

/-- `mass(isp)`, `src/speciesinfo/species_info.hpp:116-119`; `none`: out of range (the field of masses has no entry for an adiabatic species). -/
def Info.mass (s : Info) (i : ℕ) : Option ℚ := s.masses[i]?

/-- The flags `nb_elec_adiabspecies` and `nb_ion_adiabspecies`, `src/speciesinfo/species_init.cpp:37-45`. -/
def adiabFlags : List ℚ → ℕ × ℕ → ℕ × ℕ
  | [], fl => fl
  | q :: qs, (e, i) => adiabFlags qs (if q = -1 then (0, i) else (e, 0))

/-- `init_all_species`, `src/speciesinfo/species_init.cpp:13-91`: from the (charge, mass) of the kinetic species and the masses of the fluid species read in the configuration to the
kinetic range size, the fluid range (start, size) and the species information. -/
def initAllSpecies (kin : List (ℚ × ℚ)) (fluidMasses : List ℚ) : Except Err (ℕ × (ℕ × ℕ) × Info) :=
  let kinCharges := kin.map Prod.fst
  let kinMasses := kin.map Prod.snd
  let fl := adiabFlags kinCharges (1, 1)
  let nbElec := fl.1
  let nbIon := fl.2
  if nbElec + nbIon > 1 then .error .bothAdiabatic
  else
    let fluidCharges := fluidMasses.map fun _ => (0 : ℚ)
    let charges := kinCharges ++ fluidCharges ++
      (if nbElec + nbIon > 0 then [(nbIon : ℚ) - (nbElec : ℚ)] else [])
    let masses := kinMasses ++ fluidMasses
    match mkInfo charges masses with
    | .ok s => .ok (kin.length, (kin.length, fluidMasses.length), s)
    | .error e => .error e

/-- `init_species`, `src/speciesinfo/species_init.cpp:99-112`. -/
def initSpecies (kin : List (ℚ × ℚ)) : Except Err (ℕ × (ℕ × ℕ) × Info) := initAllSpecies kin []

/-- `init_kinetic_species`, `src/speciesinfo/species_init.cpp:142-160`. -/
def initKineticSpecies (charges masses : List ℚ) : Except Err (ℕ × Info) :=
  match mkInfo charges masses with
  | .ok s => .ok (charges.length, s)
  | .error e => .error e

end Verif.Species
