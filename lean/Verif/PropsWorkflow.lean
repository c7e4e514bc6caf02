import Verif.WorkflowProofs
import Mathlib.Algebra.Order.Field.Basic
import Mathlib.Tactic.NormNum

/-!
# C129: optimization on top of parallel runs

A workflow in which one process runs an optimizer and the others run the solver (optimization_workflow.py) evaluates the
objective function at the points the optimizer asks for, whatever the relative speed of the processes.

Specification: `seq f st` – the evaluations of the optimizer `st` with the objective function `f`; `F.value x` – what the
run returns if every worker reads the mesh of `x` each time.
-/

namespace Pymgrit.Opt

variable {X R O : Type} {F : Flow X R O}

/-- While a worker runs, the mesh on the file system is that of the point the optimizer waits for, and so is every mesh the
worker has read in this run. -/
theorem C129_reads (hr : F.raises = false) {st : Strat X O} {n : Nat} {s : St F} (h : Exec (start F st) n s)
    {i : Fin (F.n + 1)} {seen : List X} (hw : s.w i = .run seen) :
    ∃ x k, s.m = .waiting x k ∧ s.disk = some x ∧ ∀ y ∈ seen, y = x := by
  have hi := inv_exec hr h
  obtain ⟨-, -, x, hx, hall⟩ := hi.run i seen hw
  obtain ⟨k, hk⟩ := cur_eq hx
  exact ⟨x, k, hk, hi.disk x k (.inr hk), hall⟩

/-- The evaluations made so far are the first ones of the optimizer on the objective function.  `_partial`: the run must not
end in an exception; it always does, `C129_counterexample`. -/
theorem C129_values_partial (hr : F.raises = false) {st : Strat X O} {n : Nat} {s : St F}
    (h : Exec (start F st) n s) : s.hist <+: seq (fun x => F.obj (F.value x)) st :=
  ⟨_, (inv_exec hr h).hist⟩

/-- Nobody waits for ever: every execution ends after a bounded number of steps, and where it ends the optimizer has made all
its evaluations, every worker has left its loop and no broadcast is left unreceived. -/
theorem C129_ends_partial (hr : F.raises = false) {st : Strat X O} {n : Nat} {s : St F}
    (h : Exec (start F st) n s) :
    n ≤ 3 * (seq (fun x => F.obj (F.value x)) st).length + 1 +
        ∑ i, ((seq (fun x => F.obj (F.value x)) st).length * (F.reads i + 4) + 1) ∧
    ((∀ s', ¬ Step s s') → s.m = .stopped ∧ s.hist = seq (fun x => F.obj (F.value x)) st ∧
      s.resM = [] ∧ ∀ i, s.w i = .ended ∧ s.flags i = [] ∧ s.resW i = []) := by
  have hi := inv_exec hr h
  refine ⟨?_, fun hno => ?_⟩
  · rw [← count_exec hr h]
    exact count_le hi
  · obtain ⟨hm, hw⟩ := inv_progress hr hi hno
    have hcl : ∀ i, (s.contrib i).length = s.hist.length := fun i => (hi.ended i (hw i)).2
    have hh := hi.hist
    rw [hm] at hh
    refine ⟨hm, by simpa [Master.rest] using hh, ?_, fun i => ⟨hw i, ?_, ?_⟩⟩
    · rcases hi.resM with ⟨-, a⟩ | ⟨a, -⟩
      · exact a
      · have := hcl (Fin.last F.n); omega
    · have := hi.flags i
      rw [hm, hw i, hcl i] at this
      simpa [Master.told, Master.cur, Master.isStopped, Worker.isEnded] using this
    · by_cases hil : i = Fin.last F.n
      · rw [hil]; exact hi.resL
      · have := hi.resW i hil
        rw [hw i, hw (Fin.last F.n), hcl i, hcl (Fin.last F.n)] at this
        exact List.length_eq_zero_iff.mp (by omega)

/-- Such an end exists. -/
theorem C129_complete_partial (hr : F.raises = false) (st : Strat X O) :
    ∃ n, ∃ s : St F, Exec (start F st) n s ∧ s.m = .stopped ∧ s.hist = seq (fun x => F.obj (F.value x)) st := by
  by_contra hc
  have hall : ∀ n, ∃ s : St F, Exec (start F st) n s := by
    intro n
    induction n with
    | zero => exact ⟨_, .nil⟩
    | succ n ih =>
      obtain ⟨s, hs⟩ := ih
      by_cases hno : ∀ s', ¬ Step s s'
      · obtain ⟨a, b, -⟩ := (C129_ends_partial hr hs).2 hno
        exact (hc ⟨n, s, hs, a, b⟩).elim
      · push Not at hno
        obtain ⟨s', h'⟩ := hno
        exact ⟨s', .step hs h'⟩
  obtain ⟨s, hs⟩ := hall (F.total (seq (fun x => F.obj (F.value x)) st).length + 1)
  have := (C129_ends_partial hr hs).1
  unfold Flow.total at this
  omega

/-- As it is, the run ends in an exception: `nested_iteration` calls `self.f_exchange` (optimization_workflow.py:105), which no
class defines (`nested_iteration=True` and two levels, :122-123).  Whatever the optimizer and the schedule, no evaluation
is ever completed and the optimizer does not return; where nothing more can happen, process 0 waits for the result of the first
evaluation and every worker has raised. -/
theorem C129_counterexample (hr : F.raises = true) {x : X} {k : O → Strat X O} {n : Nat} {s : St F}
    (h : Exec (start F (.ask x k)) n s) :
    s.hist = [] ∧ s.m ≠ .stopped ∧ (∀ i, s.w i ≠ .ended) ∧
    ((∀ s', ¬ Step s s') → s.m = .waiting x k ∧ ∀ i, s.w i = .crashed) := by
  have hS : Stuck F x k s := by
    induction h with
    | nil => exact ⟨rfl, rfl, .inl ⟨rfl, fun i => ⟨rfl, rfl⟩⟩⟩
    | step _ hs ih => exact stuck_step hr ih hs
  obtain ⟨hh, hM, hc⟩ := hS
  refine ⟨hh, ?_, ?_, ?_⟩
  · rcases hc with ⟨a, -⟩ | ⟨a, -⟩ | ⟨a, -⟩ <;> simp [a]
  · intro i
    rcases hc with ⟨-, b⟩ | ⟨-, -, b⟩ | ⟨-, -, b⟩
    · simp [(b i).1]
    · simp [(b i).1]
    · rcases b i with ⟨c, -⟩ | ⟨-, ⟨seen, c, -⟩ | c⟩ <;> simp [c]
  · intro hno
    rcases hc with ⟨a, -⟩ | ⟨a, -⟩ | ⟨a, d, b⟩
    · exact (hno _ (.mesh a)).elim
    · exact (hno _ (.go a)).elim
    · refine ⟨a, fun i => ?_⟩
      rcases b i with ⟨c, e⟩ | ⟨-, ⟨seen, c, e⟩ | c⟩
      · exact (hno _ (.begin c e)).elim
      · rcases Nat.lt_or_eq_of_le e with hl | hl
        · exact (hno _ (.read c hl d)).elim
        · exact (hno _ (.crash hr c hl)).elim
      · exact c

/-- The means go over the time points from `k` on: all those in the region `[value, t_end]` and at most one in front of it,
for every increasing time grid. -/
theorem C129_region {t : List ℚ} (ht : t.Pairwise (· < ·)) (hne : t ≠ []) (value : ℚ) :
    findNearest t value < t.length ∧
    ∀ j x, t[j]? = some x → (value ≤ x → findNearest t value ≤ j) ∧ (findNearest t value < j → value ≤ x) := by
  obtain ⟨m, hm, hall⟩ := argmin_spec (l := t.map fun x => |x - value|) (by simpa using hne)
  rw [List.getElem?_map] at hm
  obtain ⟨y, hy, hym⟩ := Option.map_eq_some_iff.mp hm
  change t[findNearest t value]? = some y at hy
  have hk : findNearest t value < t.length := by
    by_contra hc
    rw [List.getElem?_eq_none (by omega)] at hy
    simp at hy
  refine ⟨hk, fun j x hx => ?_⟩
  have hj : j < t.length := by
    by_contra hc
    rw [List.getElem?_eq_none (by omega)] at hx
    simp at hx
  have hle := (hall j |x - value| (by rw [List.getElem?_map, hx]; rfl)).1
  rw [← hym] at hle
  rw [List.getElem?_eq_getElem hk] at hy
  rw [List.getElem?_eq_getElem hj] at hx
  have hy' := Option.some.inj hy
  have hx' := Option.some.inj hx
  constructor
  · intro hv
    by_contra hc
    have hlt : x < y := by
      rw [← hx', ← hy']
      exact List.pairwise_iff_getElem.mp ht _ _ hj hk (by omega)
    rw [abs_of_nonneg (by linarith), abs_of_nonneg (by linarith)] at hle
    linarith
  · intro hkj
    by_contra hc
    have hlt : y < x := by
      rw [← hx', ← hy']
      exact List.pairwise_iff_getElem.mp ht _ _ hk hj hkj
    rw [abs_of_neg (by linarith), abs_of_neg (by linarith)] at hle
    linarith

/-- The mean lies between the smallest and the largest value at these points; the values elsewhere have no effect. -/
theorem C129_mean {t vals : List ℚ} (ht : t.Pairwise (· < ·)) (hne : t ≠ []) (hl : vals.length = t.length)
    (region lo hi : ℚ)
    (hc : ∀ j v, vals[j]? = some v → findNearest t (t.getLastD 0 - region) ≤ j → lo ≤ v ∧ v ≤ hi) :
    lo ≤ regionMean t vals region ∧ regionMean t vals region ≤ hi := by
  have hk := (C129_region ht hne (t.getLastD 0 - region)).1
  have hpos : 0 < (vals.drop (findNearest t (t.getLastD 0 - region))).length := by
    rw [List.length_drop]; omega
  have hmem : ∀ v ∈ vals.drop (findNearest t (t.getLastD 0 - region)), lo ≤ v ∧ v ≤ hi := by
    intro v hv
    obtain ⟨i, hi⟩ := List.mem_iff_getElem?.mp hv
    rw [List.getElem?_drop] at hi
    exact hc _ v hi (by omega)
  have hsum : ∀ l : List ℚ, (∀ v ∈ l, lo ≤ v ∧ v ≤ hi) → lo * l.length ≤ l.sum ∧ l.sum ≤ hi * l.length := by
    intro l
    induction l with
    | nil => simp
    | cons a l ih =>
      intro h
      have h1 := h a (by simp)
      have h2 := ih fun v hv => h v (by simp [hv])
      simp only [List.sum_cons, List.length_cons]
      push_cast
      constructor <;> linarith [h2.1, h2.2, h1.1, h1.2]
  have h := hsum _ hmem
  have hp : (0 : ℚ) < ((vals.drop (findNearest t (t.getLastD 0 - region))).length : ℚ) := by exact_mod_cast hpos
  unfold regionMean
  exact ⟨(le_div_iff₀ hp).mpr h.1, (div_le_iff₀ hp).mpr h.2⟩

/-! ### Examples -/

/-- A region that contains two grid points and starts closer to the point in front of it. -/
example : findNearest [0, 1, 2, 3] (3 - 7 / 4) = 1 ∧ findNearest [0, 1, 2, 3] (3 - 5 / 4) = 2 := by
  norm_num [findNearest, argmin, argminFrom, abs_of_nonneg, abs_of_neg]

example : ([0, 1, 2, 3] : List ℚ).Pairwise (· < ·) := by decide

/-- Two workers, three and two reads; the result is the sum of everything read. -/
def exFlow (raises : Bool) : Flow Nat Nat Nat where
  n := 1
  reads := fun i => 3 - i.val
  run := fun f => (f 0).sum + (f 1).sum
  obj := fun r => 100 - r
  raises := raises

/-- An optimizer with two evaluations, the second depending on the first. -/
def exOpt : Strat Nat Nat := .ask 4 fun o => .ask (o / 10) fun _ => .done

example : seq (fun x => (exFlow false).obj ((exFlow false).value x)) exOpt = [(4, 80), (8, 60)] := by decide

/-- Some execution makes exactly these evaluations. -/
example : ∃ n, ∃ s : St (exFlow false), Exec (start (exFlow false) exOpt) n s ∧ s.m = .stopped ∧
    s.hist = [(4, 80), (8, 60)] := C129_complete_partial (F := exFlow false) rfl exOpt

/-- A worker that has read the mesh once. -/
example : ∃ n, ∃ s : St (exFlow false), Exec (start (exFlow false) exOpt) n s ∧ s.w 1 = .run [4] :=
  ⟨_, _, .step (.step (.step (.step .nil (.mesh rfl)) (.go rfl)) (.begin (i := 1) rfl rfl))
    (.read (i := 1) (seen := []) rfl (by decide) rfl), rfl⟩

/-- The hypotheses of `C129_counterexample`. -/
example : ∃ n, ∃ s : St (exFlow true), Exec (start (exFlow true) exOpt) n s ∧ s.w 1 = .run [4] :=
  ⟨_, _, .step (.step (.step (.step .nil (.mesh rfl)) (.go rfl)) (.begin (i := 1) rfl rfl))
    (.read (i := 1) (seen := []) rfl (by decide) rfl), rfl⟩

end Pymgrit.Opt
