import Verif.PropsCrash
import Mathlib.Data.List.Sort

/-!
# Files written by the output functions of the examples

* `fileOf`, `writes` – `examples/example_output_fcn.py:18-31`, `example_heat_2d.py:27-34`, `example_advection.py:20-27`,
  `example_allen_cahn.py`, `example_arenstorf.py`: `np.save(path + '/…-rank' + str(self.comm_time_rank),
  [[[self.t[0][i], self.u[0][i]] for i in self.index_local[0]]])`
* `Disk` – the directories `results/…`; a file is named by its directory and the rank of the process
* `load` – `example_output_fcn.py:54-62`, `example_heat_2d.py:68-74`, `example_advection.py:41-47`:
  `for filename in os.listdir(path): sol += …; sol.sort(key=lambda tup: tup[0])`

Not modelled: the encoding of the files (pickle) and files that are only partly written.
-/

set_option linter.unusedSectionVars false

namespace Pymgrit

open Cfg

variable {V K T N : Type} [LinearOrder T] [Inhabited T]

/-- `[[self.t[0][i], self.u[0][i]] for i in self.index_local[0]]` on process `r`, `f` being `self.u[0]`
(example_output_fcn.py:30-31). -/
def Cfg.fileOf (E : Cfg V K T N) (r : Nat) (f : Nat → V) : List (T × V) :=
  (E.info r 0).idx.map fun j => (tAt (E.info r 0).t j, f j)

/-- One call of `np.save`: directory, rank in the file name, contents (example_output_fcn.py:30-31). -/
structure Write (T V : Type) where
  dir : Nat
  rank : Nat
  data : List (T × V)

/-- Contents of the files: directory, rank in the file name (example_output_fcn.py:20, 30). -/
abbrev Disk (T V : Type) : Type := Nat → Nat → Option (List (T × V))

/-- `np.save` replaces a file of the same name (example_output_fcn.py:30-31). -/
def Disk.save (d : Disk T V) (w : Write T V) : Disk T V :=
  fun i r => if i = w.dir ∧ r = w.rank then some w.data else d i r

/-- The files after the calls `ws` of `np.save` (example_output_fcn.py:30-31). -/
def Disk.after (d : Disk T V) (ws : List (Write T V)) : Disk T V := ws.foldl Disk.save d

/-- The calls of `np.save` made by process `r` in the calls `outs` of its output function.  `dir` is the directory
used at iteration `self.solve_iter`: the identity in example_output_fcn.py:20, constant in the other examples
(example_heat_2d.py:29, example_advection.py:22). -/
def Cfg.writes (E : Cfg V K T N) (dir : Nat → Nat) (r : Nat) (outs : List (Nat × (Nat → V))) : List (Write T V) :=
  outs.map fun o => ⟨dir o.1, r, E.fileOf r o.2⟩

/-- `names` is a possible result of `os.listdir` (example_output_fcn.py:56): all files of the directory in any order. -/
def Listing (d : Disk T V) (i : Nat) (names : List Nat) : Prop :=
  names.Nodup ∧ ∀ r, r ∈ names ↔ (d i r).isSome

/-- Loading a directory and sorting by time (example_output_fcn.py:54-60); `list.sort` is stable. -/
def load (d : Disk T V) (i : Nat) (names : List Nat) : List (T × V) :=
  (names.flatMap fun r => (d i r).getD []).mergeSort fun a b => decide (a.1 ≤ b.1)

/-- The calls `ws` of `np.save` of a run in some order: those of process `r` are in the order in which it made them. -/
def Interleaves (E : Cfg V K T N) (dir : Nat → Nat) (outs : Nat → List (Nat × (Nat → V))) (ws : List (Write T V)) :
    Prop :=
  ∀ r, ws.filter (fun w => decide (w.rank = r)) = if r < E.P then E.writes dir r (outs r) else []

/-! ### The disk -/

theorem after_append (d : Disk T V) (a b : List (Write T V)) : d.after (a ++ b) = (d.after a).after b :=
  List.foldl_append

/-- Only the calls with the rank of the file name matter. -/
theorem after_filter (ws : List (Write T V)) : ∀ (d : Disk T V) (i r : Nat),
    d.after ws i r = d.after (ws.filter fun w => decide (w.rank = r)) i r := by
  induction ws using List.reverseRecOn with
  | nil => intro d i r; rfl
  | append_singleton ws w ih =>
    intro d i r
    rw [after_append, List.filter_append, after_append]
    show Disk.save (d.after ws) w i r = _
    by_cases hr : w.rank = r
    · rw [List.filter_cons_of_pos (by simpa using hr)]
      show _ = Disk.save (d.after _) w i r
      unfold Disk.save
      split
      · rfl
      · exact ih d i r
    · rw [List.filter_cons_of_neg (by simpa using hr)]
      unfold Disk.save
      rw [if_neg (fun h => hr h.2.symm), ih]
      rfl

/-- The file of process `r` after its calls: that of the last call with this directory. -/
theorem after_writes_last (E : Cfg V K T N) (dir : Nat → Nat) (r i : Nat) (d : Disk T V)
    (as bs : List (Nat × (Nat → V))) (o : Nat × (Nat → V)) (ho : dir o.1 = i) (hbs : ∀ b ∈ bs, dir b.1 ≠ i) :
    d.after (E.writes dir r (as ++ o :: bs)) i r = some (E.fileOf r o.2) := by
  unfold Cfg.writes
  rw [List.map_append, List.map_cons, after_append]
  generalize d.after (List.map _ as) = d1
  show (d1.save _).after _ i r = _
  have h1 : d1.save ⟨dir o.1, r, E.fileOf r o.2⟩ i r = some (E.fileOf r o.2) := if_pos ⟨ho.symm, rfl⟩
  generalize d1.save ⟨dir o.1, r, E.fileOf r o.2⟩ = d2 at h1
  clear ho
  induction bs generalizing d2 with
  | nil => exact h1
  | cons b bs ih =>
    refine ih (fun b' hb' => hbs b' (List.mem_cons_of_mem _ hb')) (d2.save ⟨dir b.1, r, E.fileOf r b.2⟩) ?_
    unfold Disk.save
    rw [if_neg (fun h => hbs b List.mem_cons_self h.1.symm)]
    exact h1

theorem after_writes_none (E : Cfg V K T N) (dir : Nat → Nat) (r i : Nat) (d : Disk T V)
    (bs : List (Nat × (Nat → V))) (hbs : ∀ b ∈ bs, dir b.1 ≠ i) : d.after (E.writes dir r bs) i r = d i r := by
  unfold Cfg.writes
  induction bs generalizing d with
  | nil => rfl
  | cons b bs ih =>
    refine (ih (d.save ⟨dir b.1, r, E.fileOf r b.2⟩) fun b' hb' => hbs b' (List.mem_cons_of_mem _ hb')).trans ?_
    unfold Disk.save
    rw [if_neg (fun h => hbs b List.mem_cons_self h.1.symm)]

/-! ### Putting the files together -/

/-- The file of process `r`, in terms of the points it owns. -/
theorem fileOf_eq {E : Cfg V K T N} (h : E.Base) {r : Nat} (hr : r < E.P) {f F : Nat → V}
    (hf : ∀ k i j : Nat, (E.info r 0).pts[k]? = some i → (E.info r 0).idx[k]? = some j → f j = F i) :
    E.fileOf r f = (List.range' (lo E.ts E.P 0 r) (lo E.ts E.P 0 (r + 1) - lo E.ts E.P 0 r)).map fun i =>
      (tAt (grid E.ts 0) i, F i) := by
  have hS := h.spec hr h.valid.pos
  have ho := h.off_add h.valid.pos (Nat.le_of_lt hr)
  unfold Cfg.fileOf
  rw [hS.idx]
  refine List.ext_getElem (by simp) fun k h1 h2 => ?_
  simp only [List.length_map, List.length_range'] at h1
  simp only [List.getElem_map, List.getElem_range', Nat.one_mul]
  have e1 : (E.info r 0).pts[k]? = some (lo E.ts E.P 0 r + k) := by
    rw [hS.pts, List.getElem?_range' (by omega)]; simp
  have e2 : (E.info r 0).idx[k]? = some (gh r + k) := by
    rw [hS.idx, List.getElem?_range' (by omega)]; simp
  rw [hf k _ _ e1 e2]
  have e3 := hS.t_at (by omega) (lo E.ts E.P 0 r + k) (by omega) (by omega)
  rw [show lo E.ts E.P 0 r + k - off E.ts E.P 0 r = gh r + k by omega] at e3
  rw [e3]

theorem flatMap_blocks (b : Nat → Nat) (n : Nat) (hb : ∀ r, r < n → b r ≤ b (r + 1)) (h0 : b 0 = 0) :
    (List.range n).flatMap (fun r => List.range' (b r) (b (r + 1) - b r)) = List.range (b n) := by
  induction n with
  | zero => simp [h0]
  | succ n ih =>
    rw [List.range_succ, List.flatMap_append, ih fun r hr => hb r (by omega)]
    have := hb n (by omega)
    simp only [List.flatMap_cons, List.flatMap_nil, List.append_nil, List.range_eq_range']
    rw [show List.range' (b n) (b (n + 1) - b n) = List.range' (0 + 1 * b n) (b (n + 1) - b n) by simp,
      List.range'_append]
    congr 1
    omega

/-- The files of all processes, in rank order. -/
theorem flatMap_files {E : Cfg V K T N} (h : E.Base) (F : Nat → V) {d : Nat → Option (List (T × V))}
    (hd : ∀ r, r < E.P → ∃ f, d r = some (E.fileOf r f) ∧ ∀ k i j : Nat, (E.info r 0).pts[k]? = some i →
      (E.info r 0).idx[k]? = some j → f j = F i) :
    (List.range E.P).flatMap (fun r => (d r).getD []) =
      (List.range (npts E.ts 0)).map fun i => (tAt (grid E.ts 0) i, F i) := by
  have h1 : (List.range E.P).flatMap (fun r => (d r).getD []) = (List.range E.P).flatMap fun r =>
      (List.range' (lo E.ts E.P 0 r) (lo E.ts E.P 0 (r + 1) - lo E.ts E.P 0 r)).map fun i =>
        (tAt (grid E.ts 0) i, F i) := by
    rw [List.flatMap_def, List.flatMap_def]
    congr 1
    refine List.map_congr_left fun r hr => ?_
    obtain ⟨f, e, hf⟩ := hd r (List.mem_range.1 hr)
    rw [e, Option.getD_some, fileOf_eq h (List.mem_range.1 hr) hf]
  rw [h1, ← List.map_flatMap, flatMap_blocks (lo E.ts E.P 0) _ (fun r hr => h.lo_mono h.valid.pos (by omega) (by omega))
    (h.lo_zero h.valid.pos), h.valid.lo_last 0]

theorem times_sorted {E : Cfg V K T N} (h : E.Base) (F : Nat → V) :
    ((List.range (npts E.ts 0)).map fun i => (tAt (grid E.ts 0) i, F i)).Pairwise fun a b => a.1 < b.1 := by
  rw [List.pairwise_map]
  have hs := h.valid.sorted 0
  rw [List.pairwise_iff_getElem] at hs ⊢
  intro i j hi hj hij
  simp only [List.length_range] at hi hj
  have e : ∀ k, (hk : k < npts E.ts 0) → tAt (grid E.ts 0) k = (grid E.ts 0)[k]'hk := by
    intro k hk
    unfold tAt
    rw [List.getD_eq_getElem?_getD, List.getElem?_eq_getElem hk, Option.getD_some]
  simp only [List.getElem_range]
  rw [e i hi, e j hj]
  exact hs i j hi hj hij

/-- Sorting a permutation of a list with increasing times restores it. -/
theorem mergeSort_eq {a b : List (T × V)} (hp : a.Perm b) (hb : b.Pairwise fun x y => x.1 < y.1) :
    a.mergeSort (fun x y => decide (x.1 ≤ y.1)) = b := by
  have h1 : (a.mergeSort (fun x y => decide (x.1 ≤ y.1))).Pairwise fun x y => decide (x.1 ≤ y.1) = true :=
    List.pairwise_mergeSort (fun x y z h h' => by simp at h h' ⊢; exact le_trans h h')
      (fun x y => by simp; exact le_total _ _) a
  have h2 : (a.mergeSort (fun x y => decide (x.1 ≤ y.1))).Perm b := (List.mergeSort_perm _ _).trans hp
  refine h2.eq_of_pairwise (le := fun x y => x.1 ≤ y.1) ?_ (h1.imp fun h => by simpa using h) (hb.imp le_of_lt)
  intro x y hx hy hxy hyx
  have hinj : ∀ x ∈ b, ∀ y ∈ b, x.1 = y.1 → x = y := by
    intro x hx y hy e
    obtain ⟨m, hm, rfl⟩ := List.getElem_of_mem hx
    obtain ⟨n, hn, rfl⟩ := List.getElem_of_mem hy
    rw [List.pairwise_iff_getElem] at hb
    rcases Nat.lt_trichotomy m n with h | h | h
    · exact absurd e (ne_of_lt (hb m n hm hn h))
    · subst h; rfl
    · exact absurd e.symm (ne_of_lt (hb n m hn hm h))
  exact hinj x (h2.subset hx) y hy (le_antisymm hxy hyx)

/-- The directory holds exactly the files of the processes: loading gives the solution at all points of the grid. -/
theorem load_eq {E : Cfg V K T N} (h : E.Base) (F : Nat → V) {d : Disk T V} {i : Nat} {names : List Nat}
    (hl : Listing d i names)
    (hd : ∀ r, r < E.P → ∃ f, d i r = some (E.fileOf r f) ∧ ∀ k p j : Nat, (E.info r 0).pts[k]? = some p →
      (E.info r 0).idx[k]? = some j → f j = F p)
    (hn : ∀ r, E.P ≤ r → d i r = none) :
    load d i names = (List.range (npts E.ts 0)).map fun p => (tAt (grid E.ts 0) p, F p) := by
  refine mergeSort_eq ?_ (times_sorted h F)
  rw [← flatMap_files h F hd]
  refine List.Perm.flatMap_right _ ?_
  rw [List.perm_ext_iff_of_nodup hl.1 List.nodup_range]
  intro r
  rw [hl.2 r, List.mem_range]
  constructor
  · intro h1
    by_contra h2
    rw [hn r (by omega)] at h1
    exact absurd h1 (by simp)
  · intro h1
    obtain ⟨f, e, -⟩ := hd r h1
    rw [e]
    rfl

/-- The number of loaded entries. -/
theorem load_length (d : Disk T V) (i : Nat) (names : List Nat) :
    (load d i names).length = (names.map fun r => ((d i r).getD []).length).sum := by
  unfold load
  rw [List.length_mergeSort, List.length_flatMap]

/-! ### The last barrier -/

section barrier
variable [Add V] [Sub V] [SMul K V] [One K] [Sub K] [Zero N] (E : Cfg V K T N)

/-- What follows the last barrier of `solve` (mgrit.py:637-646): the call of the output function with `output_lvl=1`. -/
def Cfg.lastCall (s : PState V N) : PState V N := if E.outLvl = 1 then outputP s else s

/-- What the counters of process `r` say about its remaining program. -/
def BarJ2 (r : Nat) (x : Cnt) (p : Prog (Msg V N) (PState V N)) : Prop :=
  if r = 0 then 2 ≤ E.P → barriers E ≤ x true (E.P - 1) 3 → ∃ s, p = .ret s
  else barriers E ≤ x true 0 2 → ∃ s, p = .ret (E.lastCall s) ∨ p = .recv 0 3 fun _ => .ret (E.lastCall s)

variable {E} {r : Nat}

theorem BarAt.low2 {i : Nat} {x : Cnt} (h : BarAt E r i x) (hi : i < barriers E)
    (p : Prog (Msg V N) (PState V N)) : BarJ2 E r x p := by
  unfold BarAt at h
  unfold BarJ2
  split
  · rename_i h0
    rw [if_pos h0] at h
    intro h2 h3
    have := (h (E.P - 1) (by omega) (by omega)).2
    omega
  · rename_i h0
    rw [if_neg h0] at h
    intro h3
    omega

/-- Sends to `a, …, a + n - 1`: until the last of them has been sent its counter is unchanged. -/
theorem send_loop2 {J : Cnt → Prog (Msg V N) (PState V N) → Prop} {post : Cnt → PState V N → Prop}
    {f : Prog (Msg V N) (PState V N)} {v : Payload V N} (n : Nat) :
    ∀ (a : Nat) (x : Cnt),
    (∀ y p, y true (a + n - 1) 3 = x true (a + n - 1) 3 → J y p) →
    (∀ y, (∀ q, y false q 2 = x false q 2) → (∀ q, q < a → y true q 3 = x true q 3) →
      (∀ q, a ≤ q → q < a + n → y true q 3 = x true q 3 + 1) → f.Along J post y) →
    ((Prog.forIn' (List.range' a n) (fun _ q => Prog.send q 3 ⟨v, false, 0, 8⟩ (.ret ())) ()).bind
      fun _ => f).Along J post x := by
  induction n with
  | zero =>
    intro a x hJ hf
    exact hf x (fun _ => rfl) (fun _ _ => rfl) (fun q h1 h2 => by omega)
  | succ n ih =>
    intro a x hJ hf
    rw [List.range'_succ]
    refine ⟨hJ x _ rfl, ?_⟩
    have key : ∀ y, (∀ q, y false q 2 = x.bump true a 3 false q 2) →
        (∀ q, q < a + 1 → y true q 3 = x.bump true a 3 true q 3) →
        (∀ q, a + 1 ≤ q → q < a + 1 + n → y true q 3 = x.bump true a 3 true q 3 + 1) → f.Along J post y := by
      intro y h1 h2 h3
      refine hf y (fun q => ?_) (fun q hq => ?_) fun q hq1 hq2 => ?_
      · rw [h1, bump_other (by simp)]
      · rw [h2 q (by omega), bump_other (by simp; omega)]
      · by_cases hqa : q = a
        · subst hqa
          rw [h2 q (by omega), bump_self]
        · rw [h3 q (by omega) (by omega), bump_other (by simp; omega)]
    cases n with
    | zero =>
      exact key _ (fun _ => rfl) (fun _ _ => rfl) (fun q h1 h2 => by omega)
    | succ n =>
      refine ih (a + 1) _ (fun y p hy => hJ y p ?_) key
      rw [show a + (n + 1 + 1) - 1 = a + 1 + (n + 1) - 1 by omega, hy, bump_other (by simp; omega)]

/-- A barrier in front of the rest of the program; the last one is followed by the return. -/
theorem barrier_along2 {i : Nat} {x : Cnt} (h : BarAt E r i x) (hi : i < barriers E)
    {f : Prog (Msg V N) (PState V N)} (hl : i + 1 = barriers E → ∃ s, f = .ret (E.lastCall s))
    (hf : ∀ y, BarAt E r (i + 1) y → f.Along (BarJ2 E r) (BarPost E r) y) :
    ((E.barrierP r).bind fun _ => f).Along (BarJ2 E r) (BarPost E r) x := by
  unfold Cfg.barrierP Cfg.collectP
  rw [Prog.bind_assoc]
  simp only [Prog.ret_bind]
  by_cases h0 : r = 0
  · rw [if_pos h0]
    subst h0
    rw [Prog.bind_assoc]
    have hx : ∀ q, 1 ≤ q → q < E.P → x false q 2 = i ∧ x true q 3 = i := by
      have := h
      unfold BarAt at this
      rwa [if_pos rfl] at this
    refine recv_loop (E.P - 1) 1 _ x (fun y p hy => ?_) fun y acc' h1 h2 h4 => ?_
    · unfold BarJ2
      rw [if_pos rfl]
      intro h2 h3
      rw [hy, (hx (E.P - 1) (by omega) (by omega)).2] at h3
      omega
    · rw [Prog.bind_assoc]
      simp only [Prog.ret_bind]
      have hy2 : ∀ q, 1 ≤ q → q < E.P → y false q 2 = i + 1 := fun q hq1 hq2 => by
        rw [h4 q hq1 (by omega), (hx q hq1 hq2).1]
      refine send_loop2 (f := f) (E.P - 1) 1 y (fun z p hz => ?_) fun z z1 z2 z3 => hf z ?_
      · unfold BarJ2
        rw [if_pos rfl]
        intro h5 h6
        rw [show 1 + (E.P - 1) - 1 = E.P - 1 by omega] at hz
        rw [hz, h1, (hx (E.P - 1) (by omega) (by omega)).2] at h6
        omega
      · unfold BarAt
        rw [if_pos rfl]
        intro q hq1 hq2
        refine ⟨by rw [z1, hy2 q hq1 hq2], ?_⟩
        rw [z3 q hq1 (by omega), h1, (hx q hq1 hq2).2]
  · rw [if_neg h0]
    have hx : x true 0 2 = i ∧ x false 0 3 = i := by
      unfold BarAt at h
      rwa [if_neg h0] at h
    refine ⟨h.low2 hi _, ?_, fun m => hf _ ?_⟩
    · unfold BarJ2
      rw [if_neg h0]
      intro h2
      rw [bump_self, hx.1] at h2
      obtain ⟨a, ha⟩ := hl (by omega)
      exact ⟨a, .inr (by rw [ha]; rfl)⟩
    · unfold BarAt
      rw [if_neg h0]
      refine ⟨?_, ?_⟩
      · rw [bump_other (by simp), bump_self, hx.1]
      · rw [bump_self, bump_other (by simp), hx.2]

theorem main_along2 (E : Cfg V K T N) (r : Nat) (offs : Nat → Nat → Nat) :
    (E.mainP r (E.initState offs r)).Along (BarJ2 E r) (BarPost E r) fun _ _ _ => 0 := by
  have h0 : Tagged (E.initState offs r) := fun l op => ⟨by show 50000 ≤ 50000 * (op + 1); omega,
    by show 50000 ≤ 50000 * (op + 1); omega⟩
  have hz : BarAt E r 0 fun _ _ _ => 0 := by
    unfold BarAt
    split
    · exact fun q _ _ => ⟨rfl, rfl⟩
    · exact ⟨rfl, rfl⟩
  have hb : 2 ≤ barriers E := by unfold barriers; split <;> omega
  -- `solve`
  have hsolve : ∀ (s : PState V N) (y : Cnt) (i : Nat), Tagged s → BarAt E r i y → i + 1 = barriers E →
      (E.solveP r s).Along (BarJ2 E r) (BarPost E r) y := by
    intro s y i hs hy hi
    unfold Cfg.solveP
    refine (QS.solveLoopP E _ _ _ hs).along (fun z p hz => (hy.same E hz).low2 (by omega) p) fun z s' hz _ => ?_
    refine barrier_along2 (hy.same E hz) (by omega) (fun _ => ⟨s', rfl⟩) fun w hw => ⟨?_, ?_⟩
    · unfold BarJ2
      split
      · exact fun _ _ => ⟨_, rfl⟩
      · exact fun _ => ⟨s', .inl rfl⟩
    · unfold BarAt at hw
      unfold BarPost
      split
      · rename_i hr
        rw [if_pos hr] at hw
        exact fun q' h1 h2 => by rw [(hw q' h1 h2).1, hi]
      · rename_i hr
        rw [if_neg hr] at hw
        rw [hw.2, hi]
  unfold Cfg.mainP Cfg.setupP
  rw [Prog.bind_assoc]
  refine barrier_along2 hz (by omega) (fun h => by omega) fun y hy => ?_
  rw [Prog.bind_assoc]
  have hq : QS 2 (E.initState offs r)
      (if E.nested = true then E.nestedIterationP r (E.initState offs r) else Prog.ret (E.initState offs r)) :=
    QS.ite (QS.nestedIterationP E _) (QS.ret id)
  refine (hq h0).along (fun z p hz => (hy.same E hz).low2 (by omega) p) fun z s hz hs => ?_
  rw [Prog.bind_assoc]
  have hs' : Tagged (if E.convCrit = 1 ∨ E.convCrit = 3 then { s with saved := s.u 0 } else s) := by
    split
    · exact hs.of_eq rfl rfl
    · exact hs
  simp only [Prog.ret_bind]
  have ho : ∀ s : PState V N, Tagged s → Tagged (if E.outLvl = 2 then outputP s else s) := by
    intro s hs
    split
    · exact hs.outputP
    · exact hs
  by_cases hm : E.maxIter = 0
  · rw [if_pos hm]
    have hb3 : barriers E = 3 := by unfold barriers; rw [if_pos hm]
    refine barrier_along2 (hy.same E hz) (by omega) (fun h => by omega) fun w hw => ?_
    exact hsolve _ w 2 (ho _ hs') hw (by omega)
  · rw [if_neg hm]
    have hb2 : barriers E = 2 := by unfold barriers; rw [if_neg hm]
    exact hsolve _ z 1 (ho _ hs') (hy.same E hz) (by omega)

/-- The step in which a process returns. -/
theorem returning_step {P : Nat} {M α : Type} {r : Fin P} {c d : Conf P M α} (h : Steps c d)
    (hc : ∀ a, c.prog r ≠ .ret a) (hd : ∃ a, d.prog r = .ret a) :
    ∃ c1 c2, Steps c c1 ∧ StepBy r c1 c2 ∧ (∀ a, c1.prog r ≠ .ret a) ∧ ∃ a, c2.prog r = .ret a := by
  induction h with
  | refl => exact absurd hd.choose_spec (hc _)
  | @tail b d' h1 h2 ih =>
    by_cases hb : ∃ a, b.prog r = .ret a
    · exact ih hb
    · obtain ⟨q, hq⟩ := h2
      have hqr : q = r := by
        by_contra hne
        obtain ⟨a, ha⟩ := hd
        exact hb ⟨a, by rw [← hq.2 r fun e => hne e.symm, ha]⟩
      subst hqr
      exact ⟨b, d', h1, hq, fun a ha => hb ⟨a, ha⟩, hd⟩

theorem xsteps_of_steps {P : Nat} {M α : Type} {c d : Conf P M α} (h : Steps c d) : XSteps c d := by
  induction h with
  | refl => exact .refl
  | tail _ h2 ih => exact ih.tail h2.x

theorem lstep_returns {P r : Nat} {M α : Type} {x y : Prog M α × Chans M} (h : LStep P r x y) {a : α}
    (hr : x.1.Returns a) : y.1.Returns a := by
  cases h with
  | send hd => exact hr
  | recv hq => exact hr _
  | wait hq => exact hr

theorem steps_returns {P : Nat} {M α : Type} {c d : Conf P M α} (h : Steps c d) {r : Fin P} {a : α}
    (hr : (c.prog r).Returns a) : (d.prog r).Returns a := by
  induction h with
  | refl => exact hr
  | @tail b d' _ h2 ih =>
    obtain ⟨q, h3, h4⟩ := h2
    by_cases hq : r = q
    · subst hq
      exact lstep_returns h3 ih
    · rw [h4 r hq]
      exact ih

end barrier

end Pymgrit
