import Verif.Model.IdealVlasov
import Verif.Props.TimeLoops
import Mathlib.MeasureTheory.Measure.Prod
import Mathlib.MeasureTheory.Group.LIntegral
import Mathlib.MeasureTheory.Integral.IntervalIntegral.Periodic
import Mathlib.MeasureTheory.Measure.Lebesgue.Basic

/-!
# C105: the Vlasov solvers transport the distribution without changing the volume of its level sets
-/

open MeasureTheory Set

namespace Verif.IdealVlasov

open Verif.Advection Verif.Splitting Verif.TimeLoops

variable {Sp : Type*}

/-! ## What the operators do -/

theorem advecX_eq (me : ℝ) (mass : Sp → ℝ) (f : Dist Sp (ℝ × ℝ)) (dt : ℝ) (s : Sp) (x v : ℝ) : advecX me mass f dt s (x, v) = f s (x - Real.sqrt (me / mass s) * dt * v, v) := rfl
theorem advecVx_eq (me : ℝ) (mass charge : Sp → ℝ) (f : Dist Sp (ℝ × ℝ)) (e : ℝ → ℝ) (dt : ℝ) (s : Sp) (x v : ℝ) :
    advecVx me mass charge f e dt s (x, v) = f s (x, v - charge s * Real.sqrt (me / mass s) * dt * e x) := rfl

/-! ## Measure of a set section by section -/

section sections

variable {α β : Type*} [MeasurableSpace α] [MeasurableSpace β] {μ : Measure α} {ν : Measure β} [SFinite μ] [SFinite ν]

theorem eq_of_right {P Q : Set (α × β)} (hP : MeasurableSet P) (hQ : MeasurableSet Q) (h : ∀ a, ν (Prod.mk a ⁻¹' P) = ν (Prod.mk a ⁻¹' Q)) : μ.prod ν P = μ.prod ν Q := by
  rw [Measure.prod_apply hP, Measure.prod_apply hQ]
  simp only [h]

theorem eq_of_left {P Q : Set (α × β)} (hP : MeasurableSet P) (hQ : MeasurableSet Q) (h : ∀ b, μ ((fun a => (a, b)) ⁻¹' P) = μ ((fun a => (a, b)) ⁻¹' Q)) : μ.prod ν P = μ.prod ν Q := by
  rw [Measure.prod_apply_symm hP, Measure.prod_apply_symm hQ]
  simp only [h]

end sections

theorem preimage_sub (A : Set ℝ) (a : ℝ) : volume ((fun x => x - a) ⁻¹' A) = volume A := by
  simp only [sub_eq_add_neg]
  exact measure_preimage_add_right volume (-a) A

/-- A shift does not change the measure. -/
theorem shift_measure (A : Set ℝ) (a : ℝ) (p : Prop) : volume {v : ℝ | p ∧ v - a ∈ A} = volume {v : ℝ | p ∧ v ∈ A} := by
  by_cases hp : p
  · simp only [hp, true_and]
    exact preimage_sub A a
  · simp [hp]

/-- A shift does not change the measure of a periodic set in one period. -/
theorem shift_measure_periodic {A : Set ℝ} (hA : MeasurableSet A) {L : ℝ} (hL : 0 < L) (hper : ∀ x, x + L ∈ A ↔ x ∈ A) (a : ℝ) :
    volume {x : ℝ | x ∈ Ioc 0 L ∧ x - a ∈ A} = volume {x : ℝ | x ∈ Ioc 0 L ∧ x ∈ A} := by
  have e1 : {x : ℝ | x ∈ Ioc 0 L ∧ x - a ∈ A} = (fun x => x - a) ⁻¹' (A ∩ Ioc (-a) (-a + L)) := by
    ext x
    simp only [mem_ofPred_eq, mem_preimage, mem_inter_iff, mem_Ioc]
    constructor
    · rintro ⟨⟨h1, h2⟩, h3⟩
      exact ⟨h3, by linarith, by linarith⟩
    · rintro ⟨h3, h1, h2⟩
      exact ⟨⟨by linarith, by linarith⟩, h3⟩
  have e2 : {x : ℝ | x ∈ Ioc 0 L ∧ x ∈ A} = A ∩ Ioc 0 (0 + L) := by
    ext x
    simp only [mem_ofPred_eq, mem_inter_iff, mem_Ioc, zero_add]
    tauto
  rw [e1, preimage_sub, e2]
  have hper' : ∀ (n : ℤ) x, x + n * L ∈ A ↔ x ∈ A := by
    intro n
    induction n using Int.induction_on with
    | zero => intro x; simp
    | succ n ih =>
      intro x
      rw [← ih x, ← hper (x + ((n : ℤ) : ℝ) * L)]
      push_cast
      rw [add_mul, one_mul, ← add_assoc]
    | pred n ih =>
      intro x
      rw [← ih x, ← hper (x + ((-(n : ℤ) - 1 : ℤ) : ℝ) * L)]
      push_cast
      ring_nf
  refine (isAddFundamentalDomain_Ioc hL (-a)).measure_set_eq (isAddFundamentalDomain_Ioc hL 0) hA ?_
  rintro ⟨g, hg⟩
  obtain ⟨n, rfl⟩ := AddSubgroup.mem_zmultiples_iff.1 hg
  ext x
  rw [mem_preimage]
  have : ((⟨n • L, hg⟩ : AddSubgroup.zmultiples L) +ᵥ x : ℝ) = x + n * L := by
    show n • L + x = x + n * L
    rw [zsmul_eq_mul, add_comm]
  rw [this, hper']

/-! ## 1D1V -/

/-- Specification: a distribution that is measurable and periodic in space. -/
def Ok (L : ℝ) (f : Dist Sp (ℝ × ℝ)) : Prop := ∀ s, Measurable (f s) ∧ ∀ x v, f s (x + L, v) = f s (x, v)

/-- Specification: the volume, in one period of phase space, of the points where the distribution of species `s` has a value in `S`. -/
noncomputable def amount (L : ℝ) (f : Dist Sp (ℝ × ℝ)) (s : Sp) (S : Set ℝ) : ENNReal := volume {z : ℝ × ℝ | z.1 ∈ Ioc 0 L ∧ f s z ∈ S}

theorem measurable_cell {L : ℝ} {f : Dist Sp (ℝ × ℝ)} (hf : Ok L f) (s : Sp) {S : Set ℝ} (hS : MeasurableSet S) : MeasurableSet {z : ℝ × ℝ | z.1 ∈ Ioc 0 L ∧ f s z ∈ S} :=
  (measurable_fst measurableSet_Ioc).inter ((hf s).1 hS)

theorem advecX_ok {L : ℝ} (me : ℝ) (mass : Sp → ℝ) {f : Dist Sp (ℝ × ℝ)} (hf : Ok L f) (dt : ℝ) : Ok L (advecX me mass f dt) := by
  intro s
  refine ⟨?_, fun x v => ?_⟩
  · have h : Measurable fun z : ℝ × ℝ => (z.1 - Real.sqrt (me / mass s) * dt * z.2, z.2) := by fun_prop
    exact (hf s).1.comp h
  · rw [advecX_eq, advecX_eq, add_sub_right_comm, (hf s).2]

theorem advecVx_ok {L : ℝ} (me : ℝ) (mass charge : Sp → ℝ) {f : Dist Sp (ℝ × ℝ)} (hf : Ok L f) {e : ℝ → ℝ} (he : Measurable e) (hper : ∀ x, e (x + L) = e x) (dt : ℝ) :
    Ok L (advecVx me mass charge f e dt) := by
  intro s
  refine ⟨?_, fun x v => ?_⟩
  · have h : Measurable fun z : ℝ × ℝ => (z.1, z.2 - charge s * Real.sqrt (me / mass s) * dt * e z.1) := by fun_prop
    exact (hf s).1.comp h
  · rw [advecVx_eq, advecVx_eq, hper, (hf s).2]

theorem advecX_amount {L : ℝ} (hL : 0 < L) (me : ℝ) (mass : Sp → ℝ) {f : Dist Sp (ℝ × ℝ)} (hf : Ok L f) (dt : ℝ) (s : Sp) {S : Set ℝ} (hS : MeasurableSet S) :
    amount L (advecX me mass f dt) s S = amount L f s S := by
  refine eq_of_left (measurable_cell (advecX_ok me mass hf dt) s hS) (measurable_cell hf s hS) fun v => ?_
  have hm : MeasurableSet {x : ℝ | f s (x, v) ∈ S} := ((hf s).1.comp (measurable_id.prodMk measurable_const)) hS
  exact shift_measure_periodic hm hL (fun x => by simp only [mem_ofPred_eq, (hf s).2]) (Real.sqrt (me / mass s) * dt * v)

theorem advecVx_amount {L : ℝ} (me : ℝ) (mass charge : Sp → ℝ) {f : Dist Sp (ℝ × ℝ)} (hf : Ok L f) {e : ℝ → ℝ} (he : Measurable e) (hper : ∀ x, e (x + L) = e x) (dt : ℝ) (s : Sp) {S : Set ℝ}
    (hS : MeasurableSet S) : amount L (advecVx me mass charge f e dt) s S = amount L f s S := by
  refine eq_of_right (measurable_cell (advecVx_ok me mass charge hf he hper dt) s hS) (measurable_cell hf s hS) fun x => ?_
  exact shift_measure {v | f s (x, v) ∈ S} (charge s * Real.sqrt (me / mass s) * dt * e x) (x ∈ Ioc 0 L)

/-- The field solver gives a measurable periodic field. -/
def FieldOk {Φ : Type*} (L : ℝ) (poisson : Dist Sp (ℝ × ℝ) → Φ × (ℝ → ℝ)) : Prop := ∀ f, Ok L f → Measurable (poisson f).2 ∧ ∀ x, (poisson f).2 (x + L) = (poisson f).2 x

theorem split_ok {L : ℝ} (hL : 0 < L) (me : ℝ) (mass charge : Sp → ℝ) {f : Dist Sp (ℝ × ℝ)} (hf : Ok L f) {e : ℝ → ℝ} (he : Measurable e) (hper : ∀ x, e (x + L) = e x) (dt : ℝ) :
    Ok L (splitVlasovXVx (advecX me mass) (advecVx me mass charge) f e dt) ∧
      ∀ s S, MeasurableSet S → amount L (splitVlasovXVx (advecX me mass) (advecVx me mass charge) f e dt) s S = amount L f s S := by
  have h1 := advecX_ok me mass hf (dt / 2)
  have h2 := advecVx_ok me mass charge h1 he hper dt
  refine ⟨advecX_ok me mass h2 (dt / 2), fun s S hS => ?_⟩
  simp only [splitVlasovXVx]
  rw [advecX_amount hL me mass h2 (dt / 2) s hS, advecVx_amount me mass charge h1 he hper dt s hS, advecX_amount hL me mass hf (dt / 2) s hS]

theorem run_ok {Φ : Type*} {L : ℝ} (hL : 0 < L) (me : ℝ) (mass charge : Sp → ℝ) {poisson : Dist Sp (ℝ × ℝ) → Φ × (ℝ → ℝ)} (hp : FieldOk L poisson) {f : Dist Sp (ℝ × ℝ)} (hf : Ok L f) (dt : ℝ) (n : ℕ) :
    Ok L ((TimeLoops.midpoint (splitVlasovXVx (advecX me mass) (advecVx me mass charge)) (fun f => (poisson f).2) dt)^[n] f) ∧
      ∀ s S, MeasurableSet S → amount L ((TimeLoops.midpoint (splitVlasovXVx (advecX me mass) (advecVx me mass charge)) (fun f => (poisson f).2) dt)^[n] f) s S = amount L f s S := by
  induction n with
  | zero => exact ⟨hf, fun s S _ => rfl⟩
  | succ n ih =>
    rw [Function.iterate_succ_apply']
    obtain ⟨i1, i2⟩ := ih
    obtain ⟨g, hg⟩ : ∃ g, g = (TimeLoops.midpoint (splitVlasovXVx (advecX me mass) (advecVx me mass charge)) (fun f => (poisson f).2) dt)^[n] f := ⟨_, rfl⟩
    rw [← hg] at i1 i2 ⊢
    obtain ⟨p1, p2⟩ := hp g i1
    have hh := (split_ok hL me mass charge i1 p1 p2 (dt / 2)).1
    obtain ⟨q1, q2⟩ := hp _ hh
    obtain ⟨r1, r2⟩ := split_ok hL me mass charge i1 q1 q2 dt
    exact ⟨r1, fun s S hS => (r2 s S hS).trans (i2 s S hS)⟩

/-- **C105, 1D1V.** For every field solver, mass, charge, time step (of any sign and size) and number of steps, and every set `S` of values, the volume of the part of phase space where the
distribution has a value in `S` is the same at the end of the run as at the beginning. -/
theorem c105_xvx {Φ : Type*} {L : ℝ} (hL : 0 < L) (me : ℝ) (mass charge : Sp → ℝ) {poisson : Dist Sp (ℝ × ℝ) → Φ × (ℝ → ℝ)} (hp : FieldOk L poisson) {f : Dist Sp (ℝ × ℝ)} (hf : Ok L f)
    (t0 dt : ℝ) (n : ℕ) (s : Sp) (S : Set ℝ) (hS : MeasurableSet S) : amount L (runXVx me mass charge poisson f t0 dt n).1 s S = amount L f s S := by
  rw [runXVx, c46_xvx]
  exact (run_ok hL me mass charge hp hf dt n).2 s S hS

/-- The restriction of Lebesgue's measure to one period. -/
noncomputable abbrev cell (L : ℝ) : Measure (ℝ × ℝ) := volume.restrict {z | z.1 ∈ Ioc 0 L}

/-- **C105, consequence:** every integral `∫∫ β(f) dx dv` is conserved: the number of particles, all the norms, the entropies (integrals that diverge are handled by Lean's convention). -/
theorem c105_xvx_integrals {Φ : Type*} {L : ℝ} (hL : 0 < L) (me : ℝ) (mass charge : Sp → ℝ) {poisson : Dist Sp (ℝ × ℝ) → Φ × (ℝ → ℝ)} (hp : FieldOk L poisson) {f : Dist Sp (ℝ × ℝ)} (hf : Ok L f)
    (t0 dt : ℝ) (n : ℕ) (s : Sp) (β : ℝ → ℝ) (hβ : Measurable β) :
    ∫ z, β ((runXVx me mass charge poisson f t0 dt n).1 s z) ∂cell L = ∫ z, β (f s z) ∂cell L ∧
    (Integrable (fun z => β ((runXVx me mass charge poisson f t0 dt n).1 s z)) (cell L) ↔ Integrable (fun z => β (f s z)) (cell L)) := by
  obtain ⟨g, hg⟩ : ∃ g, g = (runXVx me mass charge poisson f t0 dt n).1 := ⟨_, rfl⟩
  have hgo : Ok L g := by rw [hg, runXVx, c46_xvx]; exact (run_ok hL me mass charge hp hf dt n).1
  have hm : Measure.map (g s) (cell L) = Measure.map (f s) (cell L) := by
    ext S hS
    rw [Measure.map_apply (hgo s).1 hS, Measure.map_apply (hf s).1 hS, Measure.restrict_apply ((hgo s).1 hS), Measure.restrict_apply ((hf s).1 hS)]
    have := c105_xvx hL me mass charge hp hf t0 dt n s S hS
    rw [← hg] at this
    simp only [amount] at this
    have e : ∀ h : Dist Sp (ℝ × ℝ), h s ⁻¹' S ∩ {z : ℝ × ℝ | z.1 ∈ Ioc 0 L} = {z : ℝ × ℝ | z.1 ∈ Ioc 0 L ∧ h s z ∈ S} := fun h => by
      ext z; simp [and_comm]
    rw [e, e, this]
  rw [← hg]
  have b : ∀ h : Dist Sp (ℝ × ℝ), Ok L h → ∫ z, β (h s z) ∂cell L = ∫ r, β r ∂Measure.map (h s) (cell L) := fun h hh =>
    (integral_map (hh s).1.aemeasurable hβ.aestronglyMeasurable).symm
  have c : ∀ h : Dist Sp (ℝ × ℝ), Ok L h → (Integrable (fun z => β (h s z)) (cell L) ↔ Integrable β (Measure.map (h s) (cell L))) := fun h hh =>
    (integrable_map_measure hβ.aestronglyMeasurable (hh s).1.aemeasurable).symm
  exact ⟨by rw [b g hgo, b f hf, hm], by rw [c g hgo, c f hf, hm]⟩

/-- **C105, values:** the distribution takes exactly the values it had at the beginning (so it stays positive and keeps its maximum). -/
theorem c105_xvx_values {Φ : Type*} (me : ℝ) (mass charge : Sp → ℝ) (poisson : Dist Sp (ℝ × ℝ) → Φ × (ℝ → ℝ)) (f : Dist Sp (ℝ × ℝ)) (t0 dt : ℝ) (n : ℕ) (s : Sp) :
    range ((runXVx me mass charge poisson f t0 dt n).1 s) = range (f s) := by
  rw [runXVx, c46_xvx]
  have hx : ∀ (f : Dist Sp (ℝ × ℝ)) dt, range (advecX me mass f dt s) = range (f s) := by
    intro f dt
    ext r
    constructor
    · rintro ⟨⟨x, v⟩, rfl⟩; exact ⟨_, (advecX_eq me mass f dt s x v).symm⟩
    · rintro ⟨⟨x, v⟩, rfl⟩
      refine ⟨(x + Real.sqrt (me / mass s) * dt * v, v), ?_⟩
      rw [advecX_eq, add_sub_cancel_right]
  have hv : ∀ (f : Dist Sp (ℝ × ℝ)) e dt, range (advecVx me mass charge f e dt s) = range (f s) := by
    intro f e dt
    ext r
    constructor
    · rintro ⟨⟨x, v⟩, rfl⟩; exact ⟨_, (advecVx_eq me mass charge f e dt s x v).symm⟩
    · rintro ⟨⟨x, v⟩, rfl⟩
      refine ⟨(x, v + charge s * Real.sqrt (me / mass s) * dt * e x), ?_⟩
      rw [advecVx_eq, add_sub_cancel_right]
  induction n with
  | zero => rfl
  | succ n ih =>
    rw [Function.iterate_succ_apply', ← ih]
    simp only [TimeLoops.midpoint, splitVlasovXVx, hx, hv]

/-- Instance: a drifting population in a field that depends on the distribution. -/
example : Ok (Sp := Unit) 1 (fun _ z => Real.cos (2 * Real.pi * z.1) + z.2) ∧ FieldOk (Sp := Unit) 1 (fun f => ((), fun x => f () (x, 0))) := by
  refine ⟨fun s => ⟨by fun_prop, fun x v => ?_⟩, fun f hf => ⟨(hf ()).1.comp (by fun_prop), fun x => (hf ()).2 x 0⟩⟩
  simp only
  rw [mul_add, mul_one, Real.cos_add_two_pi]

/-! ## 2D2V -/

theorem advecX4_eq (me : ℝ) (mass : Sp → ℝ) (f : Dist Sp Z4) (dt : ℝ) (s : Sp) (x y vx vy : ℝ) : advecX4 me mass f dt s (x, y, vx, vy) = f s (x - Real.sqrt (me / mass s) * dt * vx, y, vx, vy) := rfl
theorem advecY4_eq (me : ℝ) (mass : Sp → ℝ) (f : Dist Sp Z4) (dt : ℝ) (s : Sp) (x y vx vy : ℝ) : advecY4 me mass f dt s (x, y, vx, vy) = f s (x, y - Real.sqrt (me / mass s) * dt * vy, vx, vy) := rfl
theorem advecVx4_eq (me : ℝ) (mass charge : Sp → ℝ) (f : Dist Sp Z4) (e : ℝ × ℝ → ℝ) (dt : ℝ) (s : Sp) (x y vx vy : ℝ) :
    advecVx4 me mass charge f e dt s (x, y, vx, vy) = f s (x, y, vx - charge s * Real.sqrt (me / mass s) * dt * e (x, y), vy) := rfl
theorem advecVy4_eq (me : ℝ) (mass charge : Sp → ℝ) (f : Dist Sp Z4) (e : ℝ × ℝ → ℝ) (dt : ℝ) (s : Sp) (x y vx vy : ℝ) :
    advecVy4 me mass charge f e dt s (x, y, vx, vy) = f s (x, y, vx, vy - charge s * Real.sqrt (me / mass s) * dt * e (x, y)) := rfl

/-- Specification: measurable and periodic in `x` and `y`. -/
def Ok4 (Lx Ly : ℝ) (f : Dist Sp Z4) : Prop := ∀ s, Measurable (f s) ∧ (∀ x b, f s (x + Lx, b) = f s (x, b)) ∧ ∀ x y w, f s (x, y + Ly, w) = f s (x, y, w)

/-- A measurable field that is periodic in `x` and `y`. -/
def PerField (Lx Ly : ℝ) (e : ℝ × ℝ → ℝ) : Prop := Measurable e ∧ (∀ x y, e (x + Lx, y) = e (x, y)) ∧ ∀ x y, e (x, y + Ly) = e (x, y)

/-- Specification: the volume, in one period of phase space, of the points where the distribution of species `s` has a value in `S`. -/
noncomputable def amount4 (Lx Ly : ℝ) (f : Dist Sp Z4) (s : Sp) (S : Set ℝ) : ENNReal := volume {z : Z4 | z.1 ∈ Ioc 0 Lx ∧ z.2.1 ∈ Ioc 0 Ly ∧ f s z ∈ S}

theorem measurable_cell4 {Lx Ly : ℝ} {f : Dist Sp Z4} (hf : Ok4 Lx Ly f) (s : Sp) {S : Set ℝ} (hS : MeasurableSet S) : MeasurableSet {z : Z4 | z.1 ∈ Ioc 0 Lx ∧ z.2.1 ∈ Ioc 0 Ly ∧ f s z ∈ S} :=
  (measurable_fst measurableSet_Ioc).inter (((measurable_fst.comp measurable_snd) measurableSet_Ioc).inter ((hf s).1 hS))

section steps4

variable {Lx Ly : ℝ} (me : ℝ) (mass charge : Sp → ℝ) {f : Dist Sp Z4} (hf : Ok4 Lx Ly f) (dt : ℝ)
include hf

theorem advecX4_ok : Ok4 Lx Ly (advecX4 me mass f dt) := by
  intro s
  refine ⟨?_, fun x b => ?_, fun x y w => ?_⟩
  · have h : Measurable fun z : Z4 => (z.1 - Real.sqrt (me / mass s) * dt * z.2.2.1, z.2) := by fun_prop
    exact (hf s).1.comp h
  · obtain ⟨y, vx, vy⟩ := b
    rw [advecX4_eq, advecX4_eq, add_sub_right_comm, (hf s).2.1]
  · obtain ⟨vx, vy⟩ := w
    rw [advecX4_eq, advecX4_eq, (hf s).2.2]

theorem advecY4_ok : Ok4 Lx Ly (advecY4 me mass f dt) := by
  intro s
  refine ⟨?_, fun x b => ?_, fun x y w => ?_⟩
  · have h : Measurable fun z : Z4 => (z.1, z.2.1 - Real.sqrt (me / mass s) * dt * z.2.2.2, z.2.2) := by fun_prop
    exact (hf s).1.comp h
  · obtain ⟨y, vx, vy⟩ := b
    rw [advecY4_eq, advecY4_eq, (hf s).2.1]
  · obtain ⟨vx, vy⟩ := w
    rw [advecY4_eq, advecY4_eq, add_sub_right_comm, (hf s).2.2]

variable {e : ℝ × ℝ → ℝ} (he : PerField Lx Ly e)
include he

theorem advecVx4_ok : Ok4 Lx Ly (advecVx4 me mass charge f e dt) := by
  intro s
  refine ⟨?_, fun x b => ?_, fun x y w => ?_⟩
  · have he1 := he.1
    have h : Measurable fun z : Z4 => (z.1, z.2.1, z.2.2.1 - charge s * Real.sqrt (me / mass s) * dt * e (z.1, z.2.1), z.2.2.2) := by fun_prop
    exact (hf s).1.comp h
  · obtain ⟨y, vx, vy⟩ := b
    rw [advecVx4_eq, advecVx4_eq, (hf s).2.1, he.2.1]
  · obtain ⟨vx, vy⟩ := w
    rw [advecVx4_eq, advecVx4_eq, (hf s).2.2, he.2.2]

theorem advecVy4_ok : Ok4 Lx Ly (advecVy4 me mass charge f e dt) := by
  intro s
  refine ⟨?_, fun x b => ?_, fun x y w => ?_⟩
  · have he1 := he.1
    have h : Measurable fun z : Z4 => (z.1, z.2.1, z.2.2.1, z.2.2.2 - charge s * Real.sqrt (me / mass s) * dt * e (z.1, z.2.1)) := by fun_prop
    exact (hf s).1.comp h
  · obtain ⟨y, vx, vy⟩ := b
    rw [advecVy4_eq, advecVy4_eq, (hf s).2.1, he.2.1]
  · obtain ⟨vx, vy⟩ := w
    rw [advecVy4_eq, advecVy4_eq, (hf s).2.2, he.2.2]

omit he

theorem advecX4_amount (hLx : 0 < Lx) (s : Sp) {S : Set ℝ} (hS : MeasurableSet S) : amount4 Lx Ly (advecX4 me mass f dt) s S = amount4 Lx Ly f s S := by
  refine eq_of_left (measurable_cell4 (advecX4_ok me mass hf dt) s hS) (measurable_cell4 hf s hS) fun b => ?_
  obtain ⟨y, vx, vy⟩ := b
  have hm : MeasurableSet {x : ℝ | y ∈ Ioc 0 Ly ∧ f s (x, y, vx, vy) ∈ S} :=
    (MeasurableSet.const _).inter (((hf s).1.comp (measurable_id.prodMk measurable_const)) hS)
  exact shift_measure_periodic hm hLx (fun x => by simp only [mem_ofPred_eq, (hf s).2.1]) (Real.sqrt (me / mass s) * dt * vx)

theorem advecY4_amount (hLy : 0 < Ly) (s : Sp) {S : Set ℝ} (hS : MeasurableSet S) : amount4 Lx Ly (advecY4 me mass f dt) s S = amount4 Lx Ly f s S := by
  have m1 := measurable_cell4 (advecY4_ok me mass hf dt) s hS
  have m2 := measurable_cell4 hf s hS
  refine eq_of_right m1 m2 fun x => ?_
  refine eq_of_left (measurable_prodMk_left m1) (measurable_prodMk_left m2) fun b => ?_
  obtain ⟨vx, vy⟩ := b
  have hm : MeasurableSet {y : ℝ | x ∈ Ioc 0 Lx ∧ f s (x, y, vx, vy) ∈ S} :=
    (MeasurableSet.const _).inter (((hf s).1.comp (measurable_const.prodMk (measurable_id.prodMk measurable_const))) hS)
  have := shift_measure_periodic hm hLy (fun y => by simp only [mem_ofPred_eq, (hf s).2.2]) (Real.sqrt (me / mass s) * dt * vy)
  simp only [mem_ofPred_eq, and_left_comm] at this
  exact this

include he

theorem advecVx4_amount (s : Sp) {S : Set ℝ} (hS : MeasurableSet S) : amount4 Lx Ly (advecVx4 me mass charge f e dt) s S = amount4 Lx Ly f s S := by
  have m1 := measurable_cell4 (advecVx4_ok me mass charge hf dt he) s hS
  have m2 := measurable_cell4 hf s hS
  refine eq_of_right m1 m2 fun x => ?_
  refine eq_of_right (measurable_prodMk_left m1) (measurable_prodMk_left m2) fun y => ?_
  refine eq_of_left (measurable_prodMk_left (measurable_prodMk_left m1)) (measurable_prodMk_left (measurable_prodMk_left m2)) fun vy => ?_
  have := shift_measure {vx | f s (x, y, vx, vy) ∈ S} (charge s * Real.sqrt (me / mass s) * dt * e (x, y)) (x ∈ Ioc 0 Lx ∧ y ∈ Ioc 0 Ly)
  simp only [and_assoc] at this
  exact this

theorem advecVy4_amount (s : Sp) {S : Set ℝ} (hS : MeasurableSet S) : amount4 Lx Ly (advecVy4 me mass charge f e dt) s S = amount4 Lx Ly f s S := by
  have m1 := measurable_cell4 (advecVy4_ok me mass charge hf dt he) s hS
  have m2 := measurable_cell4 hf s hS
  refine eq_of_right m1 m2 fun x => ?_
  refine eq_of_right (measurable_prodMk_left m1) (measurable_prodMk_left m2) fun y => ?_
  refine eq_of_right (measurable_prodMk_left (measurable_prodMk_left m1)) (measurable_prodMk_left (measurable_prodMk_left m2)) fun vx => ?_
  have := shift_measure {vy | f s (x, y, vx, vy) ∈ S} (charge s * Real.sqrt (me / mass s) * dt * e (x, y)) (x ∈ Ioc 0 Lx ∧ y ∈ Ioc 0 Ly)
  simp only [and_assoc] at this
  exact this

end steps4

/-- The field solver gives measurable periodic fields. -/
def FieldOk4 {Φ : Type*} (Lx Ly : ℝ) (poisson : Dist Sp Z4 → Φ × ((ℝ × ℝ → ℝ) × (ℝ × ℝ → ℝ))) : Prop :=
  ∀ f, Ok4 Lx Ly f → PerField Lx Ly (poisson f).2.1 ∧ PerField Lx Ly (poisson f).2.2

theorem split4_ok {Lx Ly : ℝ} (hLx : 0 < Lx) (hLy : 0 < Ly) (me : ℝ) (mass charge : Sp → ℝ) {f : Dist Sp Z4} (hf : Ok4 Lx Ly f) {e : (ℝ × ℝ → ℝ) × (ℝ × ℝ → ℝ)} (he1 : PerField Lx Ly e.1)
    (he2 : PerField Lx Ly e.2) (dt : ℝ) :
    Ok4 Lx Ly (splitVlasovXYVxVy (advecX4 me mass) (advecY4 me mass) (advecVx4 me mass charge) (advecVy4 me mass charge) f e dt) ∧
      ∀ s S, MeasurableSet S → amount4 Lx Ly (splitVlasovXYVxVy (advecX4 me mass) (advecY4 me mass) (advecVx4 me mass charge) (advecVy4 me mass charge) f e dt) s S = amount4 Lx Ly f s S := by
  have h1 := advecX4_ok me mass hf (dt / 2)
  have h2 := advecY4_ok me mass h1 (dt / 2)
  have h3 := advecVx4_ok me mass charge h2 (dt / 2) he1
  have h4 := advecVy4_ok me mass charge h3 dt he2
  have h5 := advecVx4_ok me mass charge h4 (dt / 2) he1
  have h6 := advecY4_ok me mass h5 (dt / 2)
  refine ⟨advecX4_ok me mass h6 (dt / 2), fun s S hS => ?_⟩
  simp only [splitVlasovXYVxVy]
  rw [advecX4_amount me mass h6 (dt / 2) hLx s hS, advecY4_amount me mass h5 (dt / 2) hLy s hS, advecVx4_amount me mass charge h4 (dt / 2) he1 s hS, advecVy4_amount me mass charge h3 dt he2 s hS,
    advecVx4_amount me mass charge h2 (dt / 2) he1 s hS, advecY4_amount me mass h1 (dt / 2) hLy s hS, advecX4_amount me mass hf (dt / 2) hLx s hS]

theorem run4_ok {Φ : Type*} {Lx Ly : ℝ} (hLx : 0 < Lx) (hLy : 0 < Ly) (me : ℝ) (mass charge : Sp → ℝ) {poisson : Dist Sp Z4 → Φ × ((ℝ × ℝ → ℝ) × (ℝ × ℝ → ℝ))} (hp : FieldOk4 Lx Ly poisson)
    {f : Dist Sp Z4} (hf : Ok4 Lx Ly f) (dt : ℝ) (n : ℕ) :
    Ok4 Lx Ly ((TimeLoops.midpoint (splitVlasovXYVxVy (advecX4 me mass) (advecY4 me mass) (advecVx4 me mass charge) (advecVy4 me mass charge)) (fun f => (poisson f).2) dt)^[n] f) ∧
      ∀ s S, MeasurableSet S →
        amount4 Lx Ly ((TimeLoops.midpoint (splitVlasovXYVxVy (advecX4 me mass) (advecY4 me mass) (advecVx4 me mass charge) (advecVy4 me mass charge)) (fun f => (poisson f).2) dt)^[n] f) s S = amount4 Lx Ly f s S := by
  induction n with
  | zero => exact ⟨hf, fun s S _ => rfl⟩
  | succ n ih =>
    rw [Function.iterate_succ_apply']
    obtain ⟨i1, i2⟩ := ih
    obtain ⟨p1, p2⟩ := hp _ i1
    have hh := (split4_ok hLx hLy me mass charge i1 p1 p2 (dt / 2)).1
    obtain ⟨q1, q2⟩ := hp _ hh
    obtain ⟨r1, r2⟩ := split4_ok hLx hLy me mass charge i1 q1 q2 dt
    exact ⟨r1, fun s S hS => (r2 s S hS).trans (i2 s S hS)⟩

/-- **C105, 2D2V.** -/
theorem c105_xyvxvy {Φ : Type*} {Lx Ly : ℝ} (hLx : 0 < Lx) (hLy : 0 < Ly) (me : ℝ) (mass charge : Sp → ℝ) {poisson : Dist Sp Z4 → Φ × ((ℝ × ℝ → ℝ) × (ℝ × ℝ → ℝ))} (hp : FieldOk4 Lx Ly poisson)
    {f : Dist Sp Z4} (hf : Ok4 Lx Ly f) (dt : ℝ) (n : ℕ) (s : Sp) (S : Set ℝ) (hS : MeasurableSet S) : amount4 Lx Ly (runXYVxVy me mass charge poisson f dt n).1 s S = amount4 Lx Ly f s S := by
  rw [runXYVxVy, c46_xyvxvy]
  exact (run4_ok hLx hLy me mass charge hp hf dt n).2 s S hS

/-- The restriction of Lebesgue's measure to one period in `x` and `y`. -/
noncomputable abbrev cell4 (Lx Ly : ℝ) : Measure Z4 := volume.restrict {z | z.1 ∈ Ioc 0 Lx ∧ z.2.1 ∈ Ioc 0 Ly}

/-- **C105, 2D2V, consequence:** every integral `∫∫ β(f) dx dy dvx dvy` is conserved. -/
theorem c105_xyvxvy_integrals {Φ : Type*} {Lx Ly : ℝ} (hLx : 0 < Lx) (hLy : 0 < Ly) (me : ℝ) (mass charge : Sp → ℝ) {poisson : Dist Sp Z4 → Φ × ((ℝ × ℝ → ℝ) × (ℝ × ℝ → ℝ))}
    (hp : FieldOk4 Lx Ly poisson) {f : Dist Sp Z4} (hf : Ok4 Lx Ly f) (dt : ℝ) (n : ℕ) (s : Sp) (β : ℝ → ℝ) (hβ : Measurable β) :
    ∫ z, β ((runXYVxVy me mass charge poisson f dt n).1 s z) ∂cell4 Lx Ly = ∫ z, β (f s z) ∂cell4 Lx Ly ∧
    (Integrable (fun z => β ((runXYVxVy me mass charge poisson f dt n).1 s z)) (cell4 Lx Ly) ↔ Integrable (fun z => β (f s z)) (cell4 Lx Ly)) := by
  obtain ⟨g, hg⟩ : ∃ g, g = (runXYVxVy me mass charge poisson f dt n).1 := ⟨_, rfl⟩
  have hgo : Ok4 Lx Ly g := by rw [hg, runXYVxVy, c46_xyvxvy]; exact (run4_ok hLx hLy me mass charge hp hf dt n).1
  have hm : Measure.map (g s) (cell4 Lx Ly) = Measure.map (f s) (cell4 Lx Ly) := by
    ext S hS
    rw [Measure.map_apply (hgo s).1 hS, Measure.map_apply (hf s).1 hS, Measure.restrict_apply ((hgo s).1 hS), Measure.restrict_apply ((hf s).1 hS)]
    have := c105_xyvxvy hLx hLy me mass charge hp hf dt n s S hS
    rw [← hg] at this
    simp only [amount4] at this
    have e : ∀ h : Dist Sp Z4, h s ⁻¹' S ∩ {z : Z4 | z.1 ∈ Ioc 0 Lx ∧ z.2.1 ∈ Ioc 0 Ly} = {z : Z4 | z.1 ∈ Ioc 0 Lx ∧ z.2.1 ∈ Ioc 0 Ly ∧ h s z ∈ S} := fun h => by
      ext z
      simp only [mem_inter_iff, mem_preimage, mem_ofPred_eq]
      tauto
    rw [e, e, this]
  rw [← hg]
  have b : ∀ h : Dist Sp Z4, Ok4 Lx Ly h → ∫ z, β (h s z) ∂cell4 Lx Ly = ∫ r, β r ∂Measure.map (h s) (cell4 Lx Ly) := fun h hh =>
    (integral_map (hh s).1.aemeasurable hβ.aestronglyMeasurable).symm
  have c : ∀ h : Dist Sp Z4, Ok4 Lx Ly h → (Integrable (fun z => β (h s z)) (cell4 Lx Ly) ↔ Integrable β (Measure.map (h s) (cell4 Lx Ly))) := fun h hh =>
    (integrable_map_measure hβ.aestronglyMeasurable (hh s).1.aemeasurable).symm
  exact ⟨by rw [b g hgo, b f hf, hm], by rw [c g hgo, c f hf, hm]⟩

/-- **C105, 2D2V, values.** -/
theorem c105_xyvxvy_values {Φ : Type*} (me : ℝ) (mass charge : Sp → ℝ) (poisson : Dist Sp Z4 → Φ × ((ℝ × ℝ → ℝ) × (ℝ × ℝ → ℝ))) (f : Dist Sp Z4) (dt : ℝ) (n : ℕ) (s : Sp) :
    range ((runXYVxVy me mass charge poisson f dt n).1 s) = range (f s) := by
  rw [runXYVxVy, c46_xyvxvy]
  have hx : ∀ (f : Dist Sp Z4) dt, range (advecX4 me mass f dt s) = range (f s) := by
    intro f dt
    ext r
    constructor
    · rintro ⟨⟨x, y, vx, vy⟩, rfl⟩; exact ⟨_, (advecX4_eq me mass f dt s x y vx vy).symm⟩
    · rintro ⟨⟨x, y, vx, vy⟩, rfl⟩
      refine ⟨(x + Real.sqrt (me / mass s) * dt * vx, y, vx, vy), ?_⟩
      rw [advecX4_eq, add_sub_cancel_right]
  have hy : ∀ (f : Dist Sp Z4) dt, range (advecY4 me mass f dt s) = range (f s) := by
    intro f dt
    ext r
    constructor
    · rintro ⟨⟨x, y, vx, vy⟩, rfl⟩; exact ⟨_, (advecY4_eq me mass f dt s x y vx vy).symm⟩
    · rintro ⟨⟨x, y, vx, vy⟩, rfl⟩
      refine ⟨(x, y + Real.sqrt (me / mass s) * dt * vy, vx, vy), ?_⟩
      rw [advecY4_eq, add_sub_cancel_right]
  have hvx : ∀ (f : Dist Sp Z4) e dt, range (advecVx4 me mass charge f e dt s) = range (f s) := by
    intro f e dt
    ext r
    constructor
    · rintro ⟨⟨x, y, vx, vy⟩, rfl⟩; exact ⟨_, (advecVx4_eq me mass charge f e dt s x y vx vy).symm⟩
    · rintro ⟨⟨x, y, vx, vy⟩, rfl⟩
      refine ⟨(x, y, vx + charge s * Real.sqrt (me / mass s) * dt * e (x, y), vy), ?_⟩
      rw [advecVx4_eq, add_sub_cancel_right]
  have hvy : ∀ (f : Dist Sp Z4) e dt, range (advecVy4 me mass charge f e dt s) = range (f s) := by
    intro f e dt
    ext r
    constructor
    · rintro ⟨⟨x, y, vx, vy⟩, rfl⟩; exact ⟨_, (advecVy4_eq me mass charge f e dt s x y vx vy).symm⟩
    · rintro ⟨⟨x, y, vx, vy⟩, rfl⟩
      refine ⟨(x, y, vx, vy + charge s * Real.sqrt (me / mass s) * dt * e (x, y)), ?_⟩
      rw [advecVy4_eq, add_sub_cancel_right]
  induction n with
  | zero => rfl
  | succ n ih =>
    rw [Function.iterate_succ_apply', ← ih]
    simp only [TimeLoops.midpoint, splitVlasovXYVxVy, hx, hy, hvx, hvy]

/-- Instance of the hypotheses. -/
example : Ok4 (Sp := Unit) 1 1 (fun _ z => Real.cos (2 * Real.pi * z.1) * Real.cos (2 * Real.pi * z.2.1) + z.2.2.1) ∧
    FieldOk4 (Sp := Unit) 1 1 (fun f => ((), (fun p => f () (p.1, p.2, 0, 0), fun p => 2 * f () (p.1, p.2, 1, 0)))) := by
  refine ⟨fun s => ⟨by fun_prop, fun x v => ?_, fun x y w => ?_⟩, fun f hf => ⟨⟨?_, fun x y => (hf ()).2.1 _ _, fun x y => (hf ()).2.2 _ _ _⟩, ⟨?_, fun x y => ?_, fun x y => ?_⟩⟩⟩
  · simp only
    rw [mul_add, mul_one, Real.cos_add_two_pi]
  · simp only
    rw [mul_add (2 * Real.pi) y 1, mul_one, Real.cos_add_two_pi]
  · exact (hf ()).1.comp (by fun_prop)
  · exact ((hf ()).1.comp (by fun_prop)).const_mul 2
  · simp only [(hf ()).2.1]
  · simp only [(hf ()).2.2]

end Verif.IdealVlasov
