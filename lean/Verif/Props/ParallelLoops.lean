import Verif.Model.ParallelLoops
import Mathlib.Algebra.BigOperators.Group.Finset.Basic
import Mathlib.Algebra.BigOperators.Group.Finset.Piecewise
import Mathlib.Data.Fintype.Basic
import Mathlib.Data.Fintype.BigOperators
import Mathlib.Data.List.FinRange
import Mathlib.Logic.Hydra
import Mathlib.Tactic.Ring
import Mathlib.Tactic.Linarith
import Mathlib.Tactic.NormNum

/-! # C96: a parallel loop without races gives the result of the sequential loop under every schedule -/

namespace Verif.Parallel
open Prog

variable {ι L V : Type*}

/-! ## Specification -/

/-- The accesses of an iteration: it loads from `R` (read only) or `W` (its own locations), stores to `W`, adds atomically to `A`. -/
def Within (R W A : Set L) : Prog L V → Prop
  | .done => True
  | .read l k => (l ∈ R ∨ l ∈ W) ∧ ∀ v, Within R W A (k v)
  | .write l _ k => l ∈ W ∧ Within R W A k
  | .atomicAdd l _ k => l ∈ A ∧ Within R W A k

/-- The iterations own disjoint sets of locations `W i`; what is read by several is not written; atomic accumulators are neither read nor stored to. -/
structure RaceFree (R : Set L) (W : ι → Set L) (A : Set L) (P : ι → Prog L V) : Prop where
  within : ∀ i, Within R (W i) A (P i)
  own : ∀ i j l, l ∈ W i → l ∈ W j → i = j
  readOnly : ∀ i l, l ∈ R → l ∉ W i
  accRead : ∀ l, l ∈ A → l ∉ R
  accOwn : ∀ i l, l ∈ A → l ∉ W i

/-- The sum of what an iteration adds to the accumulator `l0`. -/
def added [DecidableEq L] [AddCommMonoid V] (l0 : L) : Prog L V → (L → V) → V
  | .done, _ => 0
  | .read l k, m => added l0 (k (m l)) m
  | .write l v k, m => added l0 k (Function.update m l v)
  | .atomicAdd l v k, m => (if l = l0 then v else 0) + added l0 k (Function.update m l (m l + v))

/-! ## Lemmas -/

section lemmas
variable [DecidableEq L]

theorem within_andThen {R W A : Set L} : ∀ {p q : Prog L V}, Within R W A p → Within R W A q → Within R W A (andThen p q)
  | .done, _, _, hq => hq
  | .read _ _, _, hp, hq => ⟨hp.1, fun v => within_andThen (hp.2 v) hq⟩
  | .write _ _ _, _, hp, hq => ⟨hp.1, within_andThen hp.2 hq⟩
  | .atomicAdd _ _ _, _, hp, hq => ⟨hp.1, within_andThen hp.2 hq⟩

theorem within_forEach {β : Type*} {R W A : Set L} {body : β → Prog L V} : ∀ {s : List β}, (∀ a ∈ s, Within R W A (body a)) → Within R W A (forEach body s)
  | [], _ => trivial
  | a :: _, h => within_andThen (h a (by simp)) (within_forEach fun b hb => h b (by simp [hb]))

theorem run_andThen [Add V] : ∀ (p q : Prog L V) (m : L → V), run (andThen p q) m = run q (run p m)
  | .done, _, _ => rfl
  | .read l k, q, m => run_andThen (k (m l)) q m
  | .write _ _ k, q, _ => run_andThen k q _
  | .atomicAdd _ _ k, q, _ => run_andThen k q _

theorem run_forEach [Add V] {β : Type*} (body : β → Prog L V) : ∀ (s : List β) (m : L → V), run (forEach body s) m = s.foldl (fun m a => run (body a) m) m
  | [], _ => rfl
  | a :: s, m => by rw [forEach, run_andThen, run_forEach body s]; rfl

theorem run_congr [AddCommMonoid V] {R W A : Set L} (hR : ∀ l ∈ A, l ∉ R) (hW : ∀ l ∈ A, l ∉ W) :
    ∀ (p : Prog L V), Within R W A p → ∀ m1 m2 : L → V, (∀ l, l ∈ R ∨ l ∈ W → m1 l = m2 l) →
      (∀ l ∈ W, run p m1 l = run p m2 l) ∧ ∀ l, added l p m1 = added l p m2 := by
  intro p
  induction p with
  | done => exact fun _ m1 m2 h => ⟨fun l hl => h l (Or.inr hl), fun _ => rfl⟩
  | read l k ih =>
    intro hp m1 m2 h
    simp only [run, added]
    rw [h l hp.1]
    exact ih _ (hp.2 _) m1 m2 h
  | write l v k ih =>
    intro hp m1 m2 h
    simp only [run, added]
    refine ih hp.2 _ _ fun l' hl' => ?_
    by_cases e : l' = l
    · subst e; simp
    · simp [e, h l' hl']
  | atomicAdd l v k ih =>
    intro hp m1 m2 h
    have key := ih hp.2 (Function.update m1 l (m1 l + v)) (Function.update m2 l (m2 l + v)) fun l' hl' => by
      have e : l' ≠ l := by
        rintro rfl
        exact hl'.elim (hR _ hp.1) (hW _ hp.1)
      simp [e, h l' hl']
    exact ⟨key.1, fun l' => by simp only [added]; rw [key.2]⟩

theorem run_untouched [Add V] {R W A : Set L} : ∀ (p : Prog L V), Within R W A p → ∀ (m : L → V) l, l ∉ W → l ∉ A → run p m l = m l := by
  intro p
  induction p with
  | done => exact fun _ _ _ _ _ => rfl
  | read l k ih => exact fun hp m l' h1 h2 => ih _ (hp.2 _) m l' h1 h2
  | write l v k ih =>
    intro hp m l' h1 h2
    rw [run, ih hp.2 _ l' h1 h2, Function.update_of_ne]
    rintro rfl; exact h1 hp.1
  | atomicAdd l v k ih =>
    intro hp m l' h1 h2
    rw [run, ih hp.2 _ l' h1 h2, Function.update_of_ne]
    rintro rfl; exact h2 hp.1

variable [DecidableEq ι]

/-- Invariant of the executions. -/
structure Inv [Fintype ι] [AddCommMonoid V] (R : Set L) (W : ι → Set L) (A : Set L) (P : ι → Prog L V) (m : L → V) (s : State ι L V) : Prop where
  within : ∀ i, Within R (W i) A (s.pool i)
  own : ∀ i, ∀ l ∈ W i, run (s.pool i) s.mem l = run (P i) m l
  acc : ∀ l ∈ A, s.mem l + ∑ i, added l (s.pool i) s.mem = m l + ∑ i, added l (P i) m
  rest : ∀ l, l ∉ A → (∀ i, l ∉ W i) → s.mem l = m l

theorem sum_replace [Fintype ι] [AddCommMonoid V] (F G : ι → V) (i : ι) (v : V) (h : ∀ j, j ≠ i → G j = F j) (hi : F i = v + G i) : ∑ j, F j = v + ∑ j, G j := by
  rw [← Finset.add_sum_erase _ F (Finset.mem_univ i), ← Finset.add_sum_erase _ G (Finset.mem_univ i), hi, add_assoc]
  congr 2
  exact Finset.sum_congr rfl fun j hj => (h j (Finset.ne_of_mem_erase hj)).symm

theorem inv_step [Fintype ι] [AddCommMonoid V] {R : Set L} {W : ι → Set L} {A : Set L} {P : ι → Prog L V} {m : L → V} (rf : RaceFree R W A P)
    {s s' : State ι L V} (h : Inv R W A P m s) (st : Step s s') : Inv R W A P m s' := by
  have other : ∀ (i : ι) (l : L) (v : V), l ∈ W i ∨ l ∈ A → ∀ j, j ≠ i →
      (∀ l' ∈ W j, run (s.pool j) (Function.update s.mem l v) l' = run (s.pool j) s.mem l') ∧
      ∀ l', added l' (s.pool j) (Function.update s.mem l v) = added l' (s.pool j) s.mem := by
    intro i l v hl j hj
    refine run_congr (rf.accRead) (fun l hl => rf.accOwn j l hl) _ (h.within j) _ _ fun l' hl' => ?_
    rw [Function.update_of_ne]
    rintro rfl
    rcases hl with hl | hl <;> rcases hl' with hl' | hl'
    · exact rf.readOnly i _ hl' hl
    · exact hj (rf.own _ _ _ hl' hl)
    · exact rf.accRead _ hl hl'
    · exact rf.accOwn j _ hl hl'
  cases st with
  | read i l k e =>
    have hw := h.within i
    rw [e] at hw
    refine ⟨fun j => ?_, fun j l' hl' => ?_, fun l' hl' => ?_, h.rest⟩
    · by_cases ej : j = i
      · subst ej; simpa using hw.2 _
      · simpa [ej] using h.within j
    · have := h.own j l' hl'
      by_cases ej : j = i
      · subst ej
        rw [e, run] at this
        simpa using this
      · simpa [ej] using this
    · refine Eq.trans ?_ (h.acc l' hl')
      congr 1
      refine Finset.sum_congr rfl fun j _ => ?_
      by_cases ej : j = i
      · subst ej
        rw [e, added]
        simp
      · simp [ej]
  | write i l v k e =>
    have hw := h.within i
    rw [e] at hw
    refine ⟨fun j => ?_, fun j l' hl' => ?_, fun l' hl' => ?_, fun l' h1 h2 => ?_⟩
    · by_cases ej : j = i
      · subst ej; simpa using hw.2
      · simpa [ej] using h.within j
    · have := h.own j l' hl'
      by_cases ej : j = i
      · subst ej
        rw [e, run] at this
        simpa using this
      · simp only [Function.update_of_ne ej]
        rw [(other i l v (Or.inl hw.1) j ej).1 l' hl', this]
    · have hne : l' ≠ l := by rintro rfl; exact rf.accOwn i _ hl' hw.1
      simp only [Function.update_of_ne hne]
      refine Eq.trans ?_ (h.acc l' hl')
      congr 1
      refine Finset.sum_congr rfl fun j _ => ?_
      by_cases ej : j = i
      · subst ej
        rw [e, added]
        simp
      · simp only [Function.update_of_ne ej]
        exact (other i l v (Or.inl hw.1) j ej).2 l'
    · have hne : l' ≠ l := by rintro rfl; exact h2 i hw.1
      simp only [Function.update_of_ne hne]
      exact h.rest l' h1 h2
  | atomicAdd i l v k e =>
    have hw := h.within i
    rw [e] at hw
    refine ⟨fun j => ?_, fun j l' hl' => ?_, fun l' hl' => ?_, fun l' h1 h2 => ?_⟩
    · by_cases ej : j = i
      · subst ej; simpa using hw.2
      · simpa [ej] using h.within j
    · have := h.own j l' hl'
      by_cases ej : j = i
      · subst ej
        rw [e, run] at this
        simpa using this
      · simp only [Function.update_of_ne ej]
        rw [(other i l _ (Or.inr hw.1) j ej).1 l' hl', this]
    · refine Eq.trans ?_ (h.acc l' hl')
      have hs := sum_replace (fun j => added l' (s.pool j) s.mem)
        (fun j => added l' (Function.update s.pool i k j) (Function.update s.mem l (s.mem l + v))) i (if l = l' then v else 0)
        (fun j ej => by
          simp only [Function.update_of_ne ej]
          exact (other i l _ (Or.inr hw.1) j ej).2 l')
        (by rw [e, added]; simp)
      rw [hs, ← add_assoc]
      congr 1
      by_cases el : l = l'
      · subst el; simp
      · simp [el, Function.update_of_ne (Ne.symm el)]
    · have hne : l' ≠ l := by rintro rfl; exact h1 hw.1
      simp only [Function.update_of_ne hne]
      exact h.rest l' h1 h2

/-- One iteration can run to its end without being interrupted. -/
theorem reach_alone [Add V] : ∀ (p : Prog L V) (s : State ι L V) (i : ι), s.pool i = p →
    Relation.ReflTransGen Step s ⟨Function.update s.pool i .done, run p s.mem⟩ := by
  intro p
  induction p with
  | done =>
    intro s i h
    rw [← h, Function.update_eq_self, h]
    exact .refl
  | read l k ih =>
    intro s i h
    refine .head (Step.read s i l k h) ?_
    have := ih (s.mem l) ⟨Function.update s.pool i (k (s.mem l)), s.mem⟩ i (by simp)
    simpa [run] using this
  | write l v k ih =>
    intro s i h
    refine .head (Step.write s i l v k h) ?_
    have := ih ⟨Function.update s.pool i k, Function.update s.mem l v⟩ i (by simp)
    simpa [run] using this
  | atomicAdd l v k ih =>
    intro s i h
    refine .head (Step.atomicAdd s i l v k h) ?_
    have := ih ⟨Function.update s.pool i k, Function.update s.mem l (s.mem l + v)⟩ i (by simp)
    simpa [run] using this

theorem reach_list [Add V] : ∀ (order : List ι) (s : State ι L V), order.Nodup →
    Relation.ReflTransGen Step s ⟨fun i => if i ∈ order then .done else s.pool i, order.foldl (fun m i => run (s.pool i) m) s.mem⟩ := by
  intro order
  induction order with
  | nil => intro s _; simpa using Relation.ReflTransGen.refl
  | cons i order ih =>
    intro s hn
    obtain ⟨hi, hn⟩ := List.nodup_cons.1 hn
    refine (reach_alone _ s i rfl).trans ?_
    have := ih ⟨Function.update s.pool i .done, run (s.pool i) s.mem⟩ hn
    convert this using 2
    · funext j
      by_cases e : j = i
      · subst e; simp
      · simp [e]
    · simp only [List.foldl_cons]
      refine List.foldl_ext _ _ _ fun m j hj => ?_
      have e : j ≠ i := by rintro rfl; exact hi hj
      simp [e]

end lemmas

/-! ## Theorems on every loop -/

variable [DecidableEq ι] [DecidableEq L]

/-- C96. Under every interleaving a loop without races leaves in the locations owned by an iteration what this iteration computes alone, in each accumulator its
initial value plus all the contributions, and everything else unchanged. -/
theorem c96_outcome [Fintype ι] [AddCommMonoid V] {R : Set L} {W : ι → Set L} {A : Set L} {P : ι → Prog L V} (rf : RaceFree R W A P) {m m' : L → V} (h : Outcome P m m') :
    (∀ i, ∀ l ∈ W i, m' l = run (P i) m l) ∧ (∀ l ∈ A, m' l = m l + ∑ i, added l (P i) m) ∧ ∀ l, l ∉ A → (∀ i, l ∉ W i) → m' l = m l := by
  have key : ∀ s, Relation.ReflTransGen Step ⟨P, m⟩ s → Inv R W A P m s := by
    intro s hs
    induction hs with
    | refl => exact ⟨rf.within, fun _ _ _ => rfl, fun _ _ => rfl, fun _ _ _ => rfl⟩
    | tail _ st ih => exact inv_step rf ih st
  have f := key _ h
  refine ⟨fun i l hl => ?_, fun l hl => ?_, f.rest⟩
  · have := f.own i l hl
    rwa [run] at this
  · have := f.acc l hl
    simpa [added] using this

/-- C96. The result does not depend on the schedule: two outcomes are equal. -/
theorem c96_deterministic [Fintype ι] [AddCommMonoid V] {R : Set L} {W : ι → Set L} {A : Set L} {P : ι → Prog L V} (rf : RaceFree R W A P) {m m1 m2 : L → V}
    (h1 : Outcome P m m1) (h2 : Outcome P m m2) : m1 = m2 := by
  funext l
  obtain ⟨a1, b1, c1⟩ := c96_outcome rf h1
  obtain ⟨a2, b2, c2⟩ := c96_outcome rf h2
  by_cases hA : l ∈ A
  · rw [b1 l hA, b2 l hA]
  · by_cases hW : ∃ i, l ∈ W i
    · obtain ⟨i, hi⟩ := hW
      rw [a1 i l hi, a2 i l hi]
    · push Not at hW
      rw [c1 l hA hW, c2 l hA hW]

/-- C96. Every outcome is the result of the sequential loop over the iterations, in whatever order. -/
theorem c96_sequential [Fintype ι] [AddCommMonoid V] {R : Set L} {W : ι → Set L} {A : Set L} {P : ι → Prog L V} (rf : RaceFree R W A P) {m m' : L → V}
    (h : Outcome P m m') (order : List ι) (hn : order.Nodup) (ha : ∀ i, i ∈ order) : m' = order.foldl (fun m i => run (P i) m) m := by
  refine c96_deterministic rf h ?_
  have := reach_list order (⟨P, m⟩ : State ι L V) hn
  simp only [ha, if_true] at this
  exact this

/-- C96. Progress: whatever has been executed so far, the loop can be completed. -/
theorem c96_completes [Fintype ι] [Add V] (P : ι → Prog L V) (m : L → V) (s : State ι L V) (_ : Relation.ReflTransGen Step ⟨P, m⟩ s) :
    ∃ m', Relation.ReflTransGen Step s ⟨fun _ => .done, m'⟩ := by
  have := reach_list (Finset.univ : Finset ι).toList s (Finset.nodup_toList _)
  simp only [Finset.mem_toList, Finset.mem_univ, if_true] at this
  exact ⟨_, this⟩

/-- `p` is what remains of `q` after its first access. -/
inductive Next : Prog L V → Prog L V → Prop
  | read (l : L) (k : V → Prog L V) (v : V) : Next (k v) (.read l k)
  | write (l : L) (v : V) (k : Prog L V) : Next k (.write l v k)
  | atomicAdd (l : L) (v : V) (k : Prog L V) : Next k (.atomicAdd l v k)

omit [DecidableEq L] in
theorem next_wf : WellFounded (Next : Prog L V → Prog L V → Prop) := by
  refine ⟨fun p => ?_⟩
  induction p with
  | done => exact ⟨_, fun q h => by cases h⟩
  | read l k ih => exact ⟨_, fun q h => by cases h; exact ih _⟩
  | write l v k ih => exact ⟨_, fun q h => by cases h; exact ih⟩
  | atomicAdd l v k ih => exact ⟨_, fun q h => by cases h; exact ih⟩

/-- C96. There is no infinite execution: every schedule of the accesses ends. -/
theorem c96_terminates [Fintype ι] [Add V] : WellFounded fun s' s : State ι L V => Step s s' := by
  have wf := (next_wf (L := L) (V := V)).cutExpand
  refine Subrelation.wf (r := InvImage (Relation.CutExpand Next) fun s : State ι L V => Finset.univ.val.map s.pool) ?_ (InvImage.wf _ wf)
  intro s' s st
  have key : ∀ (i : ι) (k : Prog L V), Next k (s.pool i) → s'.pool = Function.update s.pool i k →
      Relation.CutExpand Next (Finset.univ.val.map s'.pool) (Finset.univ.val.map s.pool) := by
    intro i k hk e
    refine ⟨{k}, s.pool i, by simpa using hk, ?_⟩
    rw [e]
    have split : ∀ f : ι → Prog L V, Finset.univ.val.map f = f i ::ₘ ((Finset.univ.erase i).val.map f) := by
      intro f
      rw [← Multiset.map_cons, ← Finset.insert_val_of_notMem (Finset.notMem_erase i _), Finset.insert_erase (Finset.mem_univ i)]
    rw [split s.pool, split (Function.update s.pool i k)]
    have e2 : (Finset.univ.erase i).val.map (Function.update s.pool i k) = (Finset.univ.erase i).val.map s.pool :=
      Multiset.map_congr rfl fun j hj => Function.update_of_ne (Finset.ne_of_mem_erase hj) _ _
    rw [e2, Function.update_self, ← Multiset.singleton_add, ← Multiset.singleton_add]
    abel
  cases st with
  | read i l k e => exact key i _ (by rw [e]; exact Next.read l k _) rfl
  | write i l v k e => exact key i _ (by rw [e]; exact Next.write l v k) rfl
  | atomicAdd i l v k e => exact key i _ (by rw [e]; exact Next.atomicAdd l v k) rfl

/-! ## Copy loops: locations may be written by several iterations, provided they all store the same value -/

/-- An iteration that loads only from `R` (with the contents of `m`) and stores only `F l` at a location `l` outside of `R`. -/
def Stores (R : Set L) (F m : L → V) : Prog L V → Prop
  | .done => True
  | .read l k => l ∈ R ∧ Stores R F m (k (m l))
  | .write l v k => l ∉ R ∧ v = F l ∧ Stores R F m k
  | .atomicAdd _ _ _ => False

/-- The iteration stores to `l0`. -/
def WritesTo (m : L → V) (l0 : L) : Prog L V → Prop
  | .done => False
  | .read l k => WritesTo m l0 (k (m l))
  | .write l _ k => l = l0 ∨ WritesTo m l0 k
  | .atomicAdd _ _ k => WritesTo m l0 k

/-- Invariant of the executions of a copy loop. -/
structure CInv (R : Set L) (F m : L → V) (P : ι → Prog L V) (s : State ι L V) : Prop where
  ro : ∀ l ∈ R, s.mem l = m l
  st : ∀ i, Stores R F m (s.pool i)
  must : ∀ i l, WritesTo m l (P i) → WritesTo m l (s.pool i) ∨ s.mem l = F l
  sub : ∀ i l, WritesTo m l (s.pool i) → WritesTo m l (P i)
  rest : ∀ l, (∀ i, ¬ WritesTo m l (P i)) → s.mem l = m l

theorem cinv_step [Add V] {R : Set L} {F m : L → V} {P : ι → Prog L V} {s s' : State ι L V} (h : CInv R F m P s) (st : Step s s') : CInv R F m P s' := by
  cases st with
  | read i l k e =>
    have hs := h.st i
    rw [e] at hs
    have hw : ∀ j l', WritesTo m l' (Function.update s.pool i (k (s.mem l)) j) ↔ WritesTo m l' (s.pool j) := by
      intro j l'
      by_cases ej : j = i
      · subst ej
        rw [e, WritesTo, Function.update_self, h.ro l hs.1]
      · rw [Function.update_of_ne ej]
    refine ⟨h.ro, fun j => ?_, fun j l' => ?_, fun j l' => ?_, h.rest⟩
    · by_cases ej : j = i
      · subst ej
        simpa [h.ro l hs.1] using hs.2
      · simpa [ej] using h.st j
    · simp only [hw]; exact h.must j l'
    · simp only [hw]; exact h.sub j l'
  | write i l v k e =>
    have hs := h.st i
    rw [e] at hs
    refine ⟨fun l' hl' => ?_, fun j => ?_, fun j l' hj => ?_, fun j l' hj => ?_, fun l' hl' => ?_⟩
    · have : l' ≠ l := by rintro rfl; exact hs.1 hl'
      simpa [this] using h.ro l' hl'
    · by_cases ej : j = i
      · subst ej
        simpa using hs.2.2
      · simpa [ej] using h.st j
    · by_cases el : l' = l
      · subst el
        right
        simpa using hs.2.1
      · simp only [Function.update_of_ne el]
        rcases h.must j l' hj with hm | hm
        · by_cases ej : j = i
          · subst ej
            rw [e] at hm
            rcases hm with hm | hm
            · exact absurd hm.symm el
            · left; simpa using hm
          · left; simpa [ej] using hm
        · exact Or.inr hm
    · by_cases ej : j = i
      · subst ej
        refine h.sub j l' ?_
        rw [e]
        simp only [Function.update_self] at hj
        exact Or.inr hj
      · simp only [Function.update_of_ne ej] at hj
        exact h.sub j l' hj
    · have : l' ≠ l := by
        rintro rfl
        refine hl' i (h.sub i _ ?_)
        rw [e]
        exact Or.inl rfl
      simpa [this] using h.rest l' hl'
  | atomicAdd i l v k e =>
    have hs := h.st i
    rw [e] at hs
    exact hs.elim

/-- C96. Copy loops: under every interleaving, even if several iterations (or several threads of a team) store the same value to a location, a location ends with the value
stored there, and the others are unchanged. -/
theorem c96_copy [Add V] {R : Set L} {F m m' : L → V} {P : ι → Prog L V} (hs : ∀ i, Stores R F m (P i)) (h : Outcome P m m') :
    (∀ l, (∃ i, WritesTo m l (P i)) → m' l = F l) ∧ ∀ l, (∀ i, ¬ WritesTo m l (P i)) → m' l = m l := by
  have key : ∀ s, Relation.ReflTransGen Step ⟨P, m⟩ s → CInv R F m P s := by
    intro s hr
    induction hr with
    | refl => exact ⟨fun _ _ => rfl, hs, fun _ _ h => Or.inl h, fun _ _ h => h, fun _ _ => rfl⟩
    | tail _ st ih => exact cinv_step ih st
  have f := key _ h
  refine ⟨fun l ⟨i, hi⟩ => ?_, f.rest⟩
  rcases f.must i l hi with hm | hm
  · exact hm.elim
  · exact hm

omit [DecidableEq L] in
theorem stores_andThen {R : Set L} {F m : L → V} : ∀ {p q : Prog L V}, Stores R F m p → Stores R F m q → Stores R F m (andThen p q)
  | .done, _, _, hq => hq
  | .read _ _, _, hp, hq => ⟨hp.1, stores_andThen hp.2 hq⟩
  | .write _ _ _, _, hp, hq => ⟨hp.1, hp.2.1, stores_andThen hp.2.2 hq⟩
  | .atomicAdd _ _ _, _, hp, _ => hp.elim

omit [DecidableEq L] in
theorem stores_forEach {β : Type*} {R : Set L} {F m : L → V} {body : β → Prog L V} : ∀ {s : List β}, (∀ a ∈ s, Stores R F m (body a)) → Stores R F m (forEach body s)
  | [], _ => trivial
  | a :: _, h => stores_andThen (h a (by simp)) (stores_forEach fun b hb => h b (by simp [hb]))

omit [DecidableEq L] in
theorem writesTo_andThen {m : L → V} {l : L} : ∀ {p q : Prog L V}, WritesTo m l (andThen p q) ↔ WritesTo m l p ∨ WritesTo m l q
  | .done, _ => by simp [andThen, WritesTo]
  | .read _ _, _ => by simp only [andThen, WritesTo]; exact writesTo_andThen
  | .write _ _ _, _ => by simp only [andThen, WritesTo]; rw [writesTo_andThen, or_assoc]
  | .atomicAdd _ _ _, _ => by simp only [andThen, WritesTo]; exact writesTo_andThen

omit [DecidableEq L] in
theorem writesTo_forEach {β : Type*} {m : L → V} {l : L} {body : β → Prog L V} : ∀ {s : List β}, WritesTo m l (forEach body s) ↔ ∃ a ∈ s, WritesTo m l (body a)
  | [] => by simp [forEach, WritesTo]
  | a :: s => by rw [forEach, writesTo_andThen, writesTo_forEach]; simp

/-- Loops over `0 .. n-1`: the result is that of the serial `for` loop. -/
theorem c96_range [AddCommMonoid V] {n : ℕ} {R : Set L} {W : ℕ → Set L} {A : Set L} {body : ℕ → Prog L V} (rf : RaceFree R (fun i : Fin n => W i) A (fun i : Fin n => body i))
    {m m' : L → V} (h : Outcome (fun i : Fin n => body i) m m') : m' = (List.range n).foldl (fun m i => run (body i) m) m := by
  rw [c96_sequential rf h (List.finRange n) (List.nodup_finRange n) (List.mem_finRange), ← List.map_coe_finRange_eq_range, List.foldl_map]

end Verif.Parallel
