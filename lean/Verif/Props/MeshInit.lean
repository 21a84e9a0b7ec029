import Verif.Model.MeshInit
import Verif.Props.Pdi
import Verif.Props.GridTools

/-!
# C91: splines and grids are initialised once, in the right order, from the data which the kind of mesh calls for
-/
namespace Verif.MeshInit

open Pdi (St Dataset Consistent)

/-- Specification: the file holds the array `d` under the name `n`, with its size. -/
def Holds (E : Env) (n : String) (d : List ℝ) : Prop :=
  E.file n = some (.array d) ∧ E.file (n ++ "_extents") = some (.scalar d.length)

/-- Specification: at the events of the reading of mesh `id` the configuration of PDI reads these names and their sizes. -/
def Reads (E : Env) (id : String) (names : List String) : Prop :=
  (∀ n, n ∈ E.reads ("read_" ++ id) ↔ n ∈ names) ∧ ∀ n, n ∈ E.reads ("read_" ++ id ++ "_extents") ↔ n ∈ names.map (· ++ "_extents")

/-- No space is initialised yet. -/
def fresh : Spaces := ⟨none, none⟩

theorem readArrays_one (E : Env) (id n : String) (v : ℕ) (hr : Reads E id [n]) :
    (∀ d, Holds E n d → ∃ f, readArrays E.reads E.file ("read_" ++ id) [(n, v)] E.pdi = .ok f ∧ f v = d) ∧
    ((¬ ∃ d, Holds E n d) → readArrays E.reads E.file ("read_" ++ id) [(n, v)] E.pdi = .error .pdi) := by
  obtain ⟨h1, h2⟩ := Pdi.c89_read (0 : ℝ) E.reads E.file ("read_" ++ id) [(n, v)] { E.pdi with vecs := fun _ => [] } (by simp) (by simp)
    (fun m => by rw [hr.2]; simp) (fun m => by rw [hr.1]; simp)
  have hc : Consistent E.file [(n, v)] ↔ ∃ d, Holds E n d := by
    unfold Consistent Holds; simp
  refine ⟨fun d hd => ?_, fun hd => ?_⟩
  · obtain ⟨s', e, hp, -⟩ := h1 (hc.2 ⟨d, hd⟩)
    refine ⟨s'.vecs, by unfold readArrays; rw [e], ?_⟩
    obtain ⟨d', hd', hv⟩ := hp (n, v) (by simp)
    rw [hd.1] at hd'
    simp only [Option.some.injEq, Dataset.array.injEq] at hd'
    rw [hd']; exact hv
  · unfold readArrays
    rw [h2 (fun h => hd (hc.1 h))]

theorem readArrays_two (E : Env) (id n m : String) (hnm : n ≠ m) (hr : Reads E id [n, m]) :
    (∀ d d', Holds E n d → Holds E m d' → ∃ f, readArrays E.reads E.file ("read_" ++ id) [(n, 0), (m, 1)] E.pdi = .ok f ∧ f 0 = d ∧ f 1 = d') ∧
    ((¬ ∃ d d', Holds E n d ∧ Holds E m d') → readArrays E.reads E.file ("read_" ++ id) [(n, 0), (m, 1)] E.pdi = .error .pdi) := by
  obtain ⟨h1, h2⟩ := Pdi.c89_read (0 : ℝ) E.reads E.file ("read_" ++ id) [(n, 0), (m, 1)] { E.pdi with vecs := fun _ => [] } (by simp [hnm]) (by simp)
    (fun k => by rw [hr.2]; simp) (fun k => by rw [hr.1]; simp)
  have hc : Consistent E.file [(n, 0), (m, 1)] ↔ ∃ d d', Holds E n d ∧ Holds E m d' := by
    unfold Consistent Holds; simp
  refine ⟨fun d d' hd hd' => ?_, fun hd => ?_⟩
  · obtain ⟨s', e, hp, -⟩ := h1 (hc.2 ⟨d, d', hd, hd'⟩)
    refine ⟨s'.vecs, by unfold readArrays; rw [e], ?_, ?_⟩
    · obtain ⟨a, ha, hv⟩ := hp (n, 0) (by simp)
      rw [hd.1] at ha
      simp only [Option.some.injEq, Dataset.array.injEq] at ha
      rw [ha]; exact hv
    · obtain ⟨a, ha, hv⟩ := hp (m, 1) (by simp)
      rw [hd'.1] at ha
      simp only [Option.some.injEq, Dataset.array.injEq] at ha
      rw [ha]; exact hv
  · unfold readArrays
    rw [h2 (fun h => hd (hc.1 h))]

/-- Specification: the three numbers of the configuration for a mesh. -/
def Configured (E : Env) (id : String) (min max : ℝ) (n : ℤ) : Prop :=
  E.conf.double (".SplineMesh." ++ id ++ "_min") = some min ∧ E.conf.double (".SplineMesh." ++ id ++ "_max") = some max ∧
    E.conf.int (".SplineMesh." ++ id ++ "_ncells") = some n

/-- **C91** Uniform B-splines, computed interpolation points: `n` equal cells between `min` and `max` of the configuration, the grid computed from
them; the file is not needed. -/
theorem c91_uniform (E : Env) (id : String) (min max : ℝ) (n : ℕ) (hn : 0 < n) (h : Configured E id min max n) :
    ∃ b, initSpline true false E id fresh = .ok ⟨some b, some (E.sample b)⟩ ∧ b.length = n + 1 ∧ ∀ i ≤ n, b[i]? = some (min + i * ((max - min) / n)) := by
  obtain ⟨h1, h2, h3⟩ := h
  refine ⟨_, ?_, GridTools.c50_uniform min max n hn⟩
  have hb : uniformBreaks min max (n : ℤ) = .ok (GridTools.uniformBreakPoints min max n) := by
    rw [uniformBreaks, if_pos (by exact_mod_cast hn)]; rfl
  simp [initSpline, initFirst, initSecond, getDouble, getInt, h1, h2, h3, hb, initB, initG, useB, fresh, bind, Except.bind]

/-- **C91** Non-uniform B-splines, computed interpolation points: the break points are the array `breakpoints_<id>` of the file. -/
theorem c91_non_uniform (E : Env) (id : String) (hr : Reads E id ["breakpoints_" ++ id]) :
    (∀ d, Holds E ("breakpoints_" ++ id) d → initSpline false false E id fresh = .ok ⟨some d, some (E.sample d)⟩) ∧
    ((¬ ∃ d, Holds E ("breakpoints_" ++ id) d) → initSpline false false E id fresh = .error .pdi) := by
  obtain ⟨h1, h2⟩ := readArrays_one E id ("breakpoints_" ++ id) 0 hr
  refine ⟨fun d hd => ?_, fun hd => ?_⟩
  · obtain ⟨f, hf, hf0⟩ := h1 d hd
    simp [initSpline, initFirst, initSecond, hf, hf0, initB, initG, useB, fresh, bind, Except.bind]
  · simp [initSpline, initFirst, h2 hd, bind, Except.bind]

/-- **C91** Uniform B-splines, interpolation points of the user: the points are the array `grid_<id>`; points which the sampling refuses stop the
program. -/
theorem c91_uniform_user (E : Env) (id : String) (min max : ℝ) (n : ℕ) (hn : 0 < n) (h : Configured E id min max n)
    (hr : Reads E id ["grid_" ++ id]) (mesh : List ℝ) (hm : Holds E ("grid_" ++ id) mesh) :
    initSpline true true E id fresh =
      match E.sampleUser (GridTools.uniformBreakPoints min max n) mesh with
      | some g => .ok ⟨some (GridTools.uniformBreakPoints min max n), some g⟩
      | none => .error .points := by
  obtain ⟨h1, h2, h3⟩ := h
  have hb : uniformBreaks min max (n : ℤ) = .ok (GridTools.uniformBreakPoints min max n) := by
    rw [uniformBreaks, if_pos (by exact_mod_cast hn)]; rfl
  obtain ⟨f, hf, hf1⟩ := (readArrays_one E id ("grid_" ++ id) 1 hr).1 mesh hm
  simp only [initSpline, initFirst, initSecond, getDouble, getInt, h1, h2, h3, hb, initB, useB, fresh, bind, Except.bind, if_true, hf, hf1, pure, Except.pure]
  cases E.sampleUser (GridTools.uniformBreakPoints min max n) mesh <;> rfl

theorem breakpoints_ne (id : String) : "breakpoints_" ++ id ≠ id := by
  intro h
  have := congrArg (fun s : String => s.toList.length) h
  simp only [String.toList_append, List.length_append] at this
  have e : "breakpoints_".toList.length = 12 := by decide
  omega

/-- **C91** Non-uniform B-splines, interpolation points of the user: break points `breakpoints_<id>`, points `<id>` (not `grid_<id>`). -/
theorem c91_non_uniform_user (E : Env) (id : String) (hr : Reads E id ["breakpoints_" ++ id, id]) :
    (∀ b mesh, Holds E ("breakpoints_" ++ id) b → Holds E id mesh → initSpline false true E id fresh =
      match E.sampleUser b mesh with
      | some g => .ok ⟨some b, some g⟩
      | none => .error .points) ∧
    ((¬ ∃ b mesh, Holds E ("breakpoints_" ++ id) b ∧ Holds E id mesh) → initSpline false true E id fresh = .error .pdi) := by
  obtain ⟨h1, h2⟩ := readArrays_two E id ("breakpoints_" ++ id) id (breakpoints_ne id) hr
  refine ⟨fun b mesh hb hm => ?_, fun hd => ?_⟩
  · obtain ⟨f, hf, hf0, hf1⟩ := h1 b mesh hb hm
    simp only [initSpline, initFirst, initSecond, initB, useB, fresh, bind, Except.bind, if_true, hf, hf0, hf1, pure, Except.pure,
      Bool.false_eq_true, if_false, Bool.not_true]
    cases E.sampleUser b mesh <;> rfl
  · simp [initSpline, initFirst, initSecond, h2 hd, bind, Except.bind]

/-- **C91** Whatever the configuration, the file and the kind of mesh: when the function returns, both spaces are initialised, and neither of them
had been before; the grid is made from the B-splines of this call. -/
theorem c91_once (uniform user : Bool) (E : Env) (id : String) (w w' : Spaces) (h : initSpline uniform user E id w = .ok w') :
    w.bsplines = none ∧ w.grid = none ∧ ∃ b g, w' = ⟨some b, some g⟩ ∧ (g = E.sample b ∨ ∃ mesh, E.sampleUser b mesh = some g) := by
  obtain ⟨wb, wg⟩ := w
  cases uniform <;> cases user <;> cases wb <;> cases wg <;>
    simp only [initSpline, initFirst, initSecond, initB, initG, useB, bind, Except.bind, if_true, if_false, Bool.false_eq_true, Bool.not_true, Bool.not_false,
      pure, Except.pure, getDouble, getInt] at h <;>
    (repeat' split at h) <;> simp_all <;> grind

/-- **C91** A key missing from the configuration is an error before any space is initialised or any file read, also for pseudo-uniform splines. -/
theorem c91_missing (user : Bool) (E : Env) (id : String) (w : Spaces)
    (h : E.conf.double (".SplineMesh." ++ id ++ "_min") = none ∨ E.conf.double (".SplineMesh." ++ id ++ "_max") = none ∨
      E.conf.int (".SplineMesh." ++ id ++ "_ncells") = none) :
    initSpline true user E id w = .error .config ∧ initPseudo E id w = .error .config := by
  constructor
  · simp only [initSpline, initFirst, getDouble, getInt, if_true, bind, Except.bind]
    rcases h1 : E.conf.double (".SplineMesh." ++ id ++ "_min") with _ | a
    · rfl
    rcases h2 : E.conf.double (".SplineMesh." ++ id ++ "_max") with _ | b
    · rfl
    rcases h3 : E.conf.int (".SplineMesh." ++ id ++ "_ncells") with _ | c
    · rfl
    simp [h1, h2, h3] at h
  · simp only [initPseudo, getDouble, getInt, bind, Except.bind]
    rcases h1 : E.conf.double (".SplineMesh." ++ id ++ "_min") with _ | a
    · rfl
    rcases h2 : E.conf.double (".SplineMesh." ++ id ++ "_max") with _ | b
    · rfl
    rcases h3 : E.conf.int (".SplineMesh." ++ id ++ "_ncells") with _ | c
    · rfl
    simp [h1, h2, h3] at h

/-- **C91** Pseudo-uniform splines have the break points of the uniform splines of the same configuration, and the same grid. -/
theorem c91_pseudo_uniform (E : Env) (id : String) (min max : ℝ) (n : ℕ) (hn : 0 < n) (h : Configured E id min max n) (w : Spaces) :
    initPseudo E id w = initSpline true false E id w := by
  obtain ⟨h1, h2, h3⟩ := h
  have hb : uniformBreaks min max (n : ℤ) = .ok (GridTools.uniformBreakPoints min max n) := by
    rw [uniformBreaks, if_pos (by exact_mod_cast hn)]; rfl
  simp [initPseudo, initSpline, initFirst, initSecond, getDouble, getInt, h1, h2, h3, hb, bind, Except.bind]

/-- **C91** (finding) Non-uniform B-splines do not depend on the configuration at all; in particular the key `.SplineMesh.<id>_MeshFile`, which the
documentation says is read, has no effect. -/
theorem c91_mesh_file (user : Bool) (E : Env) (c : Conf) (id : String) (w : Spaces) :
    initSpline false user { E with conf := c } id w = initSpline false user E id w := by
  cases user <;> rfl

/-- **C91** (finding) The same file, with the points of the user under the name used for uniform B-splines, is refused when the B-splines are
non-uniform. -/
theorem c91_grid_name (E : Env) (b mesh : List ℝ) (hr : Reads E "x" ["breakpoints_x", "x"]) (_h1 : Holds E "breakpoints_x" b) (_h2 : Holds E "grid_x" mesh)
    (h3 : E.file "x" = none) : initSpline false true E "x" fresh = .error .pdi := by
  have e : ("breakpoints_" ++ "x" : String) = "breakpoints_x" := by decide
  refine (c91_non_uniform_user E "x" (by rw [e]; exact hr)).2 fun ⟨_, _, _, h⟩ => ?_
  rw [Holds, h3] at h
  exact absurd h.1 (by simp)

/-- **C91** (finding) A negative number of cells is not refused: pseudo-uniform splines write outside of an empty vector. -/
theorem c91_negative_cells (E : Env) (id : String) (min max : ℝ) (n : ℤ) (hn : n < 0) (h : Configured E id min max n) (w : Spaces) :
    initPseudo E id w = .error .ub := by
  obtain ⟨h1, h2, h3⟩ := h
  simp [initPseudo, getDouble, getInt, h1, h2, h3, bind, Except.bind, not_le.2 hn]

/-! ## Examples: the hypotheses are met -/

/-- A configuration with four cells between 0 and 2. -/
noncomputable def exampleEnv : Env where
  conf := ⟨fun p => if p = ".SplineMesh.x_min" then some 0 else if p = ".SplineMesh.x_max" then some 2 else none, fun _ => some 4⟩
  reads e := if e = "read_x" then ["breakpoints_x"] else ["breakpoints_x_extents"]
  file n := if n = "breakpoints_x" then some (.array [0, 1, 3]) else some (.scalar 3)
  pdi := ⟨fun _ => none, fun _ => [], fun _ => [], fun _ => none⟩
  sample b := b.tail
  sampleUser _ m := some m

example : Configured exampleEnv "x" 0 2 (4 : ℕ) := by
  refine ⟨?_, ?_, rfl⟩
  · have : (".SplineMesh." ++ "x" ++ "_min" : String) = ".SplineMesh.x_min" := by decide
    rw [this]; simp [exampleEnv]
  · have : (".SplineMesh." ++ "x" ++ "_max" : String) = ".SplineMesh.x_max" := by decide
    rw [this]; simp [exampleEnv]

example : initSpline false false exampleEnv "x" fresh = .ok ⟨some [0, 1, 3], some [1, 3]⟩ := by
  have e : ("breakpoints_" ++ "x" : String) = "breakpoints_x" := by decide
  have e' : ("breakpoints_x" ++ "_extents" : String) = "breakpoints_x_extents" := by decide
  have e2 : ("read_" ++ "x" : String) = "read_x" := by decide
  have e3 : ("read_x" ++ "_extents" : String) = "read_x_extents" := by decide
  exact (c91_non_uniform exampleEnv "x" ⟨fun n => by simp [exampleEnv, e, e2], fun n => by simp [exampleEnv, e, e2, e3, e']⟩).1 [0, 1, 3]
    ⟨by simp [exampleEnv, e], by simp [exampleEnv, e, e']⟩

end Verif.MeshInit
