import Verif.Model.CollisionInterface
import Mathlib.Data.List.Basic
import Mathlib.Data.List.Count
import Mathlib.Tactic.Ring
import Mathlib.Tactic.Linarith
import Mathlib.Tactic.NormNum

/-!
# C82: the collision operator receives the right data
-/

namespace Verif.CollisionInterface

/-! ## Extents -/

/-- C82: the test of the constructor accepts exactly the powers of two. -/
theorem c82_pow2 (n : ℕ) : pow2Check n = true ↔ ∃ k, n = 2 ^ k := by
  unfold pow2Check
  simp only [gt_iff_lt, Bool.and_eq_true, decide_eq_true_eq, beq_iff_eq]
  have := @Nat.ne_zero_and_sub_one_eq_zero_iff_isPowerOfTwo n
  rw [Nat.isPowerOfTwo] at this
  rw [← this]
  constructor
  · rintro ⟨h1, h2⟩; exact ⟨by omega, h2⟩
  · rintro ⟨h1, h2⟩; exact ⟨by omega, h2⟩

/-! ## Layout -/

theorem addr_append (ext : Dim → ℕ) (dims : List Dim) (d : Dim) (i : Pos) : addr ext (dims ++ [d]) i = addr ext dims i * ext d + i d := by
  simp [addr, List.foldl_append]

/-- The positions that exist. -/
def InRange (ext : Dim → ℕ) (dims : List Dim) (i : Pos) : Prop := ∀ d ∈ dims, i d < ext d

theorem addr_inj (ext : Dim → ℕ) (dims : List Dim) (i j : Pos) (hi : InRange ext dims i) (hj : InRange ext dims j) (h : addr ext dims i = addr ext dims j) :
    ∀ d ∈ dims, i d = j d := by
  induction dims using List.reverseRecOn with
  | nil => simp
  | append_singleton dims d ih =>
    rw [addr_append, addr_append] at h
    have hi' := hi d (by simp)
    have hj' := hj d (by simp)
    have h1 : i d = j d := by
      have := congrArg (· % ext d) h
      simpa [Nat.mul_add_mod_self_right, Nat.mod_eq_of_lt hi', Nat.mod_eq_of_lt hj'] using this
    have hpos : 0 < ext d := by omega
    have h2 : addr ext dims i = addr ext dims j := by
      rw [h1] at h
      exact Nat.eq_of_mul_eq_mul_right hpos (by omega)
    have := ih (fun d hd => hi d (by simp [hd])) (fun d hd => hj d (by simp [hd])) h2
    intro d' hd'
    rw [List.mem_append, List.mem_singleton] at hd'
    rcases hd' with hd' | rfl
    · exact this d' hd'
    · exact h1

theorem addr_congr (ext : Dim → ℕ) (dims : List Dim) (i j : Pos) (h : ∀ d ∈ dims, i d = j d) : addr ext dims i = addr ext dims j := by
  induction dims using List.reverseRecOn with
  | nil => rfl
  | append_singleton dims d ih =>
    rw [addr_append, addr_append, ih (fun d hd => h d (by simp [hd])), h d (by simp)]

/-- C82: dimensions that the geometry does not have can be added anywhere in the layout without changing the address: the array that koliop reads as
`[sp, phi, theta, r, vpar, mu]` is the array of the geometry. -/
theorem c82_spoofed_layout (g : Geometry) (dims : List Dim) (i : Pos) (hi : InRange (extent g) dims i) :
    addr (extent g) dims i = addr (extent g) (dims.filter fun d => (g d).isSome) i := by
  induction dims using List.reverseRecOn with
  | nil => rfl
  | append_singleton dims d ih =>
    rw [addr_append, List.filter_append, ih (fun d hd => hi d (by simp [hd]))]
    rcases hd : g d with _ | n
    · have h1 : extent g d = 1 := by simp [extent, hd]
      have h0 : i d = 0 := by have := hi d (by simp); omega
      rw [List.filter_cons_of_neg (by simp [hd])]
      simp [h1, h0]
    · rw [List.filter_cons_of_pos (by simp [hd])]
      simp [addr_append]

/-! ## Copy -/

/-- C82: `transpose_replicate_deep_copy`: whatever the order of the parallel loop, every element of the destination receives the element of the source at the same position in
the dimensions of the source (replicated along the others), for any order of the dimensions in both. -/
theorem c82_replicate (ext : Dim → ℕ) (dstDims srcDims : List Dim) (src dst : Mem) (order : List Pos)
    (hsub : ∀ d ∈ srcDims, d ∈ dstDims) (hin : ∀ i ∈ order, InRange ext dstDims i)
    (hall : ∀ i, InRange ext dstDims i → ∃ j ∈ order, ∀ d ∈ dstDims, j d = i d)
    (i : Pos) (hi : InRange ext dstDims i) :
    transposeReplicate ext dstDims srcDims src order dst (addr ext dstDims i) = src (addr ext srcDims i) := by
  have key : ∀ (order : List Pos), (∀ j ∈ order, InRange ext dstDims j) →
      ((∃ j ∈ order, ∀ d ∈ dstDims, j d = i d) → transposeReplicate ext dstDims srcDims src order dst (addr ext dstDims i) = src (addr ext srcDims i)) := by
    intro order hin
    unfold transposeReplicate
    induction order using List.reverseRecOn with
    | nil => simp
    | append_singleton order k ih =>
      intro hex
      rw [List.foldl_append]
      simp only [List.foldl_cons, List.foldl_nil]
      by_cases hk : addr ext dstDims i = addr ext dstDims k
      · rw [hk, Function.update_self]
        have := addr_inj ext dstDims i k hi (hin k (by simp)) hk
        rw [addr_congr ext srcDims i k (fun d hd => this d (hsub d hd))]
      · rw [Function.update_of_ne hk]
        refine ih (fun j hj => hin j (by simp [hj])) ?_
        obtain ⟨j, hj, hjd⟩ := hex
        rw [List.mem_append, List.mem_singleton] at hj
        rcases hj with hj | rfl
        · exact ⟨j, hj, hjd⟩
        · exact absurd (addr_congr ext dstDims i j (fun d hd => (hjd d hd).symm)) hk
  exact key order hin (hall i hi)

/-- Instance: `[vpar, sp]` into `[sp, r, vpar]` (the example of the documentation), 2 species, 2 radii, 2 velocities: the positions in any order. -/
example : ∃ order : List Pos, (∀ i ∈ order, InRange (fun _ => 2) [.sp, .r, .vpar] i)
    ∧ ∀ i, InRange (fun _ => 2) [.sp, .r, .vpar] i → ∃ j ∈ order, ∀ d ∈ [Dim.sp, .r, .vpar], j d = i d := by
  refine ⟨((List.range 2).flatMap fun a => (List.range 2).flatMap fun b => (List.range 2).map fun c => fun d => match d with | .sp => a | .r => b | .vpar => c | _ => 0), ?_, ?_⟩
  · intro i hi
    simp only [List.mem_flatMap, List.mem_map, List.mem_range] at hi
    obtain ⟨a, ha, b, hb, c, hc, rfl⟩ := hi
    intro d hd
    simp only [List.mem_cons, List.not_mem_nil, or_false] at hd
    rcases hd with rfl | rfl | rfl <;> assumption
  · intro i hi
    refine ⟨fun d => match d with | .sp => i .sp | .r => i .r | .vpar => i .vpar | _ => 0, ?_, ?_⟩
    · simp only [List.mem_flatMap, List.mem_map, List.mem_range]
      exact ⟨i .sp, hi _ (by simp), i .r, hi _ (by simp), i .vpar, hi _ (by simp), rfl⟩
    · intro d hd
      simp only [List.mem_cons, List.not_mem_nil, or_false] at hd
      rcases hd with rfl | rfl | rfl <;> rfl

/-! ## The (species, vpar, mu) geometry -/

/-- The geometry of `src/geometryVparMu`. -/
def vparMu (nsp nvpar nmu : ℕ) : Geometry
  | .sp => some nsp
  | .vpar => some nvpar
  | .mu => some nmu
  | _ => none

/-- C82: any geometry (with or without the three spatial dimensions) which is accepted: koliop receives the extents of the dimensions which exist and 1 for the others, no domain
decomposition, no scrape-off layer, a limiter mask and a buffer mask that are zero everywhere, the constants `√2` and `|B|` everywhere, each array having exactly one element per
point of its dimensions, the masses, charges, coordinates and quadrature coefficients unchanged, and `Bstar_s` at every point, replicated along the dimensions it does not have. -/
theorem c82_arguments (g : Geometry) (inp : Inputs) (bDims : List Dim) (order : List Pos) (garbage : Mem) (a : Args)
    (ha : create g inp bDims order garbage = .ok a) (hb : ∀ d ∈ bDims, d ∈ [Dim.sp, .theta, .r, .vpar])
    (hin : ∀ i ∈ order, InRange (extent g) [.sp, .theta, .r, .vpar] i)
    (hall : ∀ i, InRange (extent g) [.sp, .theta, .r, .vpar] i → ∃ j ∈ order, ∀ d ∈ [Dim.sp, .theta, .r, .vpar], j d = i d) :
    (a.muExtent = (g .mu).getD 1 ∧ a.vparExtent = (g .vpar).getD 1 ∧ a.tor1Extent = (g .r).getD 1 ∧ a.tor2Extent = (g .theta).getD 1
      ∧ a.tor3Extent = (g .phi).getD 1 ∧ a.speciesExtent = (g .sp).getD 1)
    ∧ (a.tor1Local = a.tor1Extent ∧ a.tor2Local = a.tor2Extent ∧ a.rOffset = 0 ∧ a.thetaOffset = 0)
    ∧ (a.interspecies = inp.interspecies ∧ a.solEnabled = false ∧ a.limiterMask = true ∧ a.irSolSeparatrix = (a.tor1Extent : ℤ) - 1)
    ∧ (a.hatAs = inp.masses ∧ a.hatZs = inp.charges ∧ a.mug = inp.coordMu ∧ a.vparg = inp.coordVpar ∧ a.coeffIntdmu = inp.intdmu
      ∧ a.coeffIntdvpar = inp.intdvpar)
    ∧ (∀ k, a.coeffAD k = if k < a.tor1Extent then some (Real.sqrt 2) else none)
    ∧ (∀ k, a.maskBuffer k = if k < a.tor1Extent then some 0 else none)
    ∧ (∀ k, a.maskLimiter k = if k < a.tor2Extent * a.tor1Extent then some 0 else none)
    ∧ (∀ k, a.bNorm k = if k < a.tor2Extent * a.tor1Extent then some inp.bNorm else none)
    ∧ ∀ i, InRange (extent g) [.sp, .theta, .r, .vpar] i →
        a.bStar (addr (extent g) [.sp, .theta, .r, .vpar] i) = inp.bStarS (addr (extent g) bDims i) := by
  unfold create at ha
  simp only at ha
  split_ifs at ha
  simp only [Except.ok.injEq] at ha
  subst ha
  have he : ∀ d, extent g d = (g d).getD 1 := fun d => by rcases h : g d with _ | n <;> simp [extent, h]
  refine ⟨⟨he _, he _, he _, he _, he _, he _⟩, ⟨rfl, rfl, rfl, rfl⟩, ⟨rfl, rfl, rfl, by simp⟩, ⟨rfl, rfl, rfl, rfl, rfl, rfl⟩,
    fun _ => rfl, fun _ => rfl, fun _ => rfl, fun _ => rfl, fun i hi => ?_⟩
  exact c82_replicate _ _ _ _ _ _ hb hin hall i hi

/-- C82: the (species, vpar, mu) configuration: any number of species and points is accepted, the only error is `nustar0 ≠ 1`. Otherwise koliop receives the extents of the grids (1 in the three spatial
dimensions), no domain decomposition, no scrape-off layer, zero masks, the normalised masses and charges, the coordinates of the grids, the quadrature coefficients, `√2`, the norm of the
magnetic field, and `Bstar_s` element by element as `[sp, vpar]`. -/
theorem c82_vparMu (nsp nvpar nmu : ℕ) (inp : Inputs) (order : List Pos) (garbage : Mem)
    (hin : ∀ i ∈ order, InRange (extent (vparMu nsp nvpar nmu)) [.sp, .theta, .r, .vpar] i)
    (hall : ∀ i, InRange (extent (vparMu nsp nvpar nmu)) [.sp, .theta, .r, .vpar] i → ∃ j ∈ order, ∀ d ∈ [Dim.sp, .theta, .r, .vpar], j d = i d) :
    (inp.nustar0 ≠ 1 → create (vparMu nsp nvpar nmu) inp [.sp, .vpar] order garbage = .error .nustar)
      ∧ (inp.nustar0 = 1 → ∃ a, create (vparMu nsp nvpar nmu) inp [.sp, .vpar] order garbage = .ok a
        ∧ a.muExtent = nmu ∧ a.vparExtent = nvpar ∧ a.tor1Extent = 1 ∧ a.tor2Extent = 1 ∧ a.tor3Extent = 1 ∧ a.speciesExtent = nsp
        ∧ a.tor1Local = 1 ∧ a.tor2Local = 1 ∧ a.rOffset = 0 ∧ a.thetaOffset = 0
        ∧ a.interspecies = inp.interspecies ∧ a.solEnabled = false ∧ a.irSolSeparatrix = 0
        ∧ a.hatAs = inp.masses ∧ a.hatZs = inp.charges ∧ a.mug = inp.coordMu ∧ a.vparg = inp.coordVpar
        ∧ a.coeffIntdmu = inp.intdmu ∧ a.coeffIntdvpar = inp.intdvpar
        ∧ a.coeffAD 0 = some (Real.sqrt 2) ∧ a.maskBuffer 0 = some 0 ∧ a.maskLimiter 0 = some 0 ∧ a.bNorm 0 = some inp.bNorm
        ∧ ∀ s < nsp, ∀ v < nvpar, a.bStar (s * nvpar + v) = inp.bStarS (s * nvpar + v)) := by
  have hp : (!(pow2Check (extent (vparMu nsp nvpar nmu) .r) && pow2Check (extent (vparMu nsp nvpar nmu) .theta) && pow2Check (extent (vparMu nsp nvpar nmu) .phi))) = false := by
    have : pow2Check 1 = true := by decide
    simp [extent, vparMu, this]
  constructor
  · intro h
    unfold create
    simp only
    rw [hp, if_neg (by simp), if_pos h]
  · intro h
    unfold create
    simp only
    rw [hp, if_neg (by simp), if_neg (by simp [h])]
    refine ⟨_, rfl, rfl, rfl, rfl, rfl, rfl, rfl, rfl, rfl, rfl, rfl, rfl, rfl, by simp [extent, vparMu], rfl, rfl, rfl, rfl, rfl, rfl, ?_, ?_, ?_, ?_, ?_⟩
    · simp [fill, extent, vparMu]
    · simp [fill, extent, vparMu]
    · simp [fill, extent, vparMu]
    · simp [fill, extent, vparMu]
    · intro s hs v hv
      obtain ⟨i, hi⟩ : ∃ i : Pos, i = fun d => match d with | .sp => s | .vpar => v | _ => 0 := ⟨_, rfl⟩
      have hr : InRange (extent (vparMu nsp nvpar nmu)) [.sp, .theta, .r, .vpar] i := by
        intro d hd
        simp only [List.mem_cons, List.not_mem_nil, or_false] at hd
        rcases hd with rfl | rfl | rfl | rfl <;> simp [hi, extent, vparMu, hs, hv]
      have := c82_replicate (extent (vparMu nsp nvpar nmu)) [.sp, .theta, .r, .vpar] [.sp, .vpar] inp.bStarS garbage order
        (by intro d hd; simp at hd ⊢; tauto) hin hall i hr
      have e1 : addr (extent (vparMu nsp nvpar nmu)) [.sp, .theta, .r, .vpar] i = s * nvpar + v := by
        simp [addr, hi, extent, vparMu]
      have e2 : addr (extent (vparMu nsp nvpar nmu)) [.sp, .vpar] i = s * nvpar + v := by
        simp [addr, hi, extent, vparMu]
      rw [e1, e2] at this
      exact this

/-- C82: the distribution function: the element `(sp, vpar, mu)` of the field is where koliop reads the element `[sp, phi = 0, theta = 0, r = 0, vpar, mu]`. -/
theorem c82_distribution (nsp nvpar nmu : ℕ) (i : Pos) (hi : InRange (extent (vparMu nsp nvpar nmu)) [.sp, .phi, .theta, .r, .vpar, .mu] i) :
    addr (extent (vparMu nsp nvpar nmu)) [.sp, .phi, .theta, .r, .vpar, .mu] i = (i .sp * nvpar + i .vpar) * nmu + i .mu := by
  rw [c82_spoofed_layout _ _ _ hi]
  simp [vparMu, addr, extent]

example : InRange (extent (vparMu 2 8 6)) [.sp, .phi, .theta, .r, .vpar, .mu] (fun d => match d with | .sp => 1 | .vpar => 7 | .mu => 5 | _ => 0) := by
  intro d hd
  simp only [List.mem_cons, List.not_mem_nil, or_false] at hd
  rcases hd with rfl | rfl | rfl | rfl | rfl | rfl <;> decide

/-- C82: a geometry with spatial dimensions is accepted exactly when their numbers of points are powers of two (and `nustar0 = 1`). -/
theorem c82_accepted (g : Geometry) (inp : Inputs) (bDims : List Dim) (order : List Pos) (garbage : Mem) :
    (∃ a, create g inp bDims order garbage = .ok a) ↔
      ((∃ k, extent g .r = 2 ^ k) ∧ (∃ k, extent g .theta = 2 ^ k) ∧ (∃ k, extent g .phi = 2 ^ k)) ∧ inp.nustar0 = 1 := by
  simp only [← c82_pow2]
  unfold create
  simp only
  rcases h1 : pow2Check (extent g .r) <;> rcases h2 : pow2Check (extent g .theta) <;> rcases h3 : pow2Check (extent g .phi) <;> simp
  by_cases h : inp.nustar0 = 1 <;> simp [h]

/-- FINDING: the second static assertion, announced for the mu direction, tests the vpar direction: a grid that is not uniform in mu is accepted. -/
theorem c82_mu_unchecked : ∃ u : Dim → Bool, u .mu = false ∧ uniformAsserts u = true :=
  ⟨fun d => decide (d ≠ .mu), by decide, by decide⟩

/-! ## The handle -/

/-- Without copies: the living objects hold different handles, none of them released. -/
theorem handles_inv (ops : List Op) (h : ∀ o, Op.copy o ∉ ops) :
    ((run ops).released ++ (run ops).objs.filterMap id).Nodup ∧ ∀ x ∈ (run ops).released ++ (run ops).objs.filterMap id, x < (run ops).created := by
  induction ops using List.reverseRecOn with
  | nil => simp [run]
  | append_singleton ops op ih =>
    have ih := ih (fun o ho => h o (by simp [ho]))
    have hrun : run (ops ++ [op]) = step (run ops) op := by simp [run, List.foldl_append]
    rw [hrun]
    obtain ⟨s, hs⟩ : ∃ s, s = run ops := ⟨_, rfl⟩
    rw [← hs] at ih ⊢
    cases op with
    | construct =>
      simp only [step, List.filterMap_append, ← List.append_assoc]
      constructor
      · rw [List.nodup_append]
        refine ⟨ih.1, by simp, ?_⟩
        intro a ha b hb
        simp at hb
        subst hb
        have := ih.2 a ha
        omega
      · intro x hx
        rw [List.mem_append] at hx
        rcases hx with hx | hx
        · have := ih.2 x hx; omega
        · simp at hx; omega
    | copy o => exact absurd (List.mem_append_right _ (List.mem_singleton_self _)) (h o)
    | destroy o =>
      simp only [step]
      split
      · next hd heq =>
        obtain ⟨ho, he⟩ := List.getElem?_eq_some_iff.1 heq
        have hperm : (s.released ++ s.objs.filterMap id).Perm ((s.released ++ [hd]) ++ (s.objs.set o none).filterMap id) := by
          rw [List.append_assoc]
          refine List.Perm.append_left _ ?_
          conv_lhs => rw [show s.objs = s.objs.take o ++ some hd :: s.objs.drop (o + 1) by rw [← he]; simp]
          rw [List.set_eq_take_append_cons_drop, if_pos ho]
          simp only [List.filterMap_append, List.filterMap_cons, id, List.singleton_append]
          exact List.perm_middle
        exact ⟨hperm.nodup_iff.1 ih.1, fun x hx => ih.2 x (hperm.mem_iff.2 hx)⟩
      · exact ih

/-- C82: in every program that does not copy operators, each koliop handle is released at most once, and only a handle that was created. -/
theorem c82_released_once (ops : List Op) (h : ∀ o, Op.copy o ∉ ops) :
    (∀ x, (run ops).released.count x ≤ 1) ∧ ∀ x ∈ (run ops).released, x < (run ops).created := by
  obtain ⟨h1, h2⟩ := handles_inv ops h
  refine ⟨fun x => List.nodup_iff_count_le_one.1 (List.nodup_append.1 h1).1 x, fun x hx => h2 x (List.mem_append_left _ hx)⟩

/-- C82: and when all the objects are destroyed every handle has been released exactly once. -/
theorem c82_all_released (ops : List Op) (h : ∀ o, Op.copy o ∉ ops) (hd : ∀ o ∈ (run ops).objs, o = none) :
    ∀ x < (run ops).created, (run ops).released.count x = 1 := by
  have key : ∀ ops : List Op, (∀ o, Op.copy o ∉ ops) → ∀ x < (run ops).created, x ∈ (run ops).released ++ (run ops).objs.filterMap id := by
    intro ops h
    induction ops using List.reverseRecOn with
    | nil => simp [run]
    | append_singleton ops op ih =>
      have ih := ih (fun o ho => h o (by simp [ho]))
      have hrun : run (ops ++ [op]) = step (run ops) op := by simp [run, List.foldl_append]
      rw [hrun]
      obtain ⟨s, hs⟩ : ∃ s, s = run ops := ⟨_, rfl⟩
      rw [← hs] at ih ⊢
      cases op with
      | construct =>
        intro x hx
        simp only [step] at hx
        simp only [step, List.filterMap_append, ← List.append_assoc]
        rw [List.mem_append]
        rcases Nat.lt_or_eq_of_le (Nat.lt_succ_iff.1 hx) with hx | hx
        · exact Or.inl (ih x hx)
        · right; simp [hx]
      | copy o => exact absurd (List.mem_append_right _ (List.mem_singleton_self _)) (h o)
      | destroy o =>
        simp only [step]
        split
        · next hd heq =>
          obtain ⟨ho, he⟩ := List.getElem?_eq_some_iff.1 heq
          have hperm : (s.released ++ s.objs.filterMap id).Perm ((s.released ++ [hd]) ++ (s.objs.set o none).filterMap id) := by
            rw [List.append_assoc]
            refine List.Perm.append_left _ ?_
            conv_lhs => rw [show s.objs = s.objs.take o ++ some hd :: s.objs.drop (o + 1) by rw [← he]; simp]
            rw [List.set_eq_take_append_cons_drop, if_pos ho]
            simp only [List.filterMap_append, List.filterMap_cons, id, List.singleton_append]
            exact List.perm_middle
          exact fun x hx => hperm.mem_iff.1 (ih x hx)
        · exact ih
  intro x hx
  have hmem := key ops h x hx
  have hnil : (run ops).objs.filterMap id = [] := by
    rw [List.filterMap_eq_nil_iff]
    intro o ho; exact hd o ho
  rw [hnil, List.append_nil] at hmem
  have h1 := (c82_released_once ops h).1 x
  have h2 := List.count_pos_iff.2 hmem
  omega

example : (run [.construct, .construct, .destroy 1, .destroy 0]).released = [1, 0] := by decide

/-- FINDING: the class declares a destructor but neither forbids nor defines copies: after a copy, the two destructors release the same handle. -/
theorem c82_copy_releases_twice (ops : List Op) (o h : ℕ) (hs : (run ops).objs[o]? = some (some h)) :
    2 ≤ (run (ops ++ [.copy o, .destroy o, .destroy (run ops).objs.length])).released.count h := by
  have hrun : run (ops ++ [.copy o, .destroy o, .destroy (run ops).objs.length])
      = step (step (step (run ops) (.copy o)) (.destroy o)) (.destroy (run ops).objs.length) := by
    simp [run, List.foldl_append]
  rw [hrun]
  obtain ⟨s, e⟩ : ∃ s, s = run ops := ⟨_, rfl⟩
  rw [← e] at hs ⊢
  obtain ⟨ho, he⟩ := List.getElem?_eq_some_iff.1 hs
  have e1 : step s (.copy o) = { s with objs := s.objs ++ [some h] } := by simp [step, hs]
  have e2 : step { s with objs := s.objs ++ [some h] } (.destroy o) = { s with objs := (s.objs ++ [some h]).set o none, released := s.released ++ [h] } := by
    simp [step, List.getElem?_append_left ho, hs]
  have e3 : ((s.objs ++ [some h]).set o none)[s.objs.length]? = some (some h) := by
    rw [List.getElem?_set_ne (by omega)]; simp
  rw [e1, e2]
  simp only [step, e3]
  simp [List.count_append]

example : (run [.construct]).objs[0]? = some (some 0) := by decide

end Verif.CollisionInterface
