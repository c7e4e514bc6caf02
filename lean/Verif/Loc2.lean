import Verif.Loc1
import Verif.Dist2

/-!
# Local criteria: the slots of the sweeps and of an iteration
-/

set_option linter.unusedSectionVars false

namespace Pymgrit

variable {V K T N : Type} [LinearOrder T] [Inhabited T]

namespace Cfg
variable {E : Cfg V K T N} {r : Nat} {φ : Nat → Bool}

/-- A local computation that leaves the bookkeeping and the fine ghost point alone. -/
structure Quiet (r : Nat) (s s' : PState V N) : Prop where
  same : Same s s'
  tagS : s'.tagS = s.tagS
  tagR : s'.tagR = s.tagR
  sf : s'.sf = s.sf
  ghost : 0 < r → s'.u 0 0 = s.u 0 0

theorem Quiet.all {s s' : PState V N} (h : Quiet r s s') : Same s s' ∧ s'.tagS = s.tagS ∧
    s'.tagR = s.tagR ∧ s'.sf = s.sf ∧ (0 < r → s'.u 0 0 = s.u 0 0) :=
  ⟨h.same, h.tagS, h.tagR, h.sf, h.ghost⟩

theorem Quiet.refl (s : PState V N) : Quiet r s s := ⟨.refl s, rfl, rfl, rfl, fun _ => rfl⟩

theorem Quiet.trans {s s' s'' : PState V N} (h : Quiet r s s') (h' : Quiet r s' s'') : Quiet r s s'' :=
  ⟨h.same.trans h'.same, h'.tagS.trans h.tagS, h'.tagR.trans h.tagR, h'.sf.trans h.sf,
    fun h0 => (h'.ghost h0).trans (h.ghost h0)⟩

theorem Quiet.setU (s : PState V N) {l j : Nat} (x : V) (h : 0 < r → ¬ (l = 0 ∧ j = 0)) :
    Quiet r s (s.setU l j x) :=
  ⟨⟨rfl, rfl, rfl, rfl, rfl, rfl, rfl, rfl⟩, rfl, rfl, rfl, fun h0 => by
    refine upd2_ne _ _ fun h' => h h0 ⟨h'.1.symm, h'.2.symm⟩⟩

theorem Quiet.setG (s : PState V N) (l j : Nat) (x : V) : Quiet r s (s.setG l j x) :=
  ⟨⟨rfl, rfl, rfl, rfl, rfl, rfl, rfl, rfl⟩, rfl, rfl, rfl, fun _ => rfl⟩

theorem Quiet.foldl {α : Type} (f : PState V N → α → PState V N) (xs : List α)
    (h : ∀ x ∈ xs, ∀ s, Quiet r s (f s x)) (s : PState V N) : Quiet r s (xs.foldl f s) := by
  induction xs generalizing s with
  | nil => exact .refl s
  | cons x xs ih =>
    exact (h x List.mem_cons_self s).trans (ih (fun y hy => h y (List.mem_cons_of_mem _ hy)) _)

section idx
variable (h : E.Base) (hr : r < E.P)
include h hr

/-- Own C-points are no ghost points. -/
theorem idxC_ne_zero {l j : Nat} (hl : l < E.ts.length) (h0 : 0 < r) (hj : j ∈ (E.info r l).idxC) : j ≠ 0 := by
  have hs := h.spec hr hl
  rw [hs.idxC, List.mem_map] at hj
  obtain ⟨i, hi, rfl⟩ := hj
  rw [hs.cpts, List.mem_filter, hs.pts, List.mem_range'_1] at hi
  exact h.own_ne hl (Nat.le_of_lt hr) (by omega) hi.1.1

theorem idxF_ne_zero {l j : Nat} (hl : l < E.ts.length) (h0 : 0 < r) (hj : j ∈ (E.info r l).idxF) : j ≠ 0 := by
  have hs := h.spec hr hl
  obtain ⟨i, h1, h2, h3, rfl⟩ := (hs.idxF_mem j).1 hj
  exact h.own_ne hl (Nat.le_of_lt hr) (by omega) h1

theorem idxC_length {l : Nat} (hl : l + 1 < E.ts.length) :
    (E.info r l).idxC.length = (E.info r (l + 1)).idx.length := by
  have hs := h.spec hr (show l < E.ts.length by omega)
  have hs' := h.spec hr hl
  rw [hs.idxC, hs.cpts, hs.pts, cpts_eq h.valid h.Ppos h.PN hl hr, hs'.idx]
  simp

end idx

section ops
variable [Add V]

/-! ### Sweeps -/

variable (h : E.Base) (hg : E.global = false) (hr : r < E.P)
include h hg hr

theorem fLoop_st {l : Nat} (hl : l < E.ts.length) (xs : List Nat) (hn : xs.Nodup)
    (hx : ∀ j ∈ xs, j ∈ (E.info r l).idxF) :
    E.St r φ (if (E.info r l).commBack = true ∧ ∃ j ∈ xs, (E.info r l).idxF.max? = some j then [(l, 1)] else [])
      (if (E.info r l).commFront = true ∧ ∃ j ∈ xs, (E.info r l).idxF.min? = some j then [(l, 1)] else [])
      (Prog.forIn' xs (E.fBody r l)) := by
  induction xs with
  | nil =>
    rw [if_neg (by simp), if_neg (by simp)]
    exact St.id
  | cons j xs ih =>
    rw [List.nodup_cons] at hn
    have ih := ih hn.2 fun i hi => hx i (List.mem_cons_of_mem _ hi)
    -- one pass
    have h1 : E.St r φ [] (if (E.info r l).commFront = true ∧ (E.info r l).idxF.min? = some j then [(l, 1)] else [])
        fun s => if (E.info r l).commFront && decide ((E.info r l).idxF.min? = some j) && !s.sf l 1 then
          E.recvU (E.info r l).getFrom l 1 l s else .ret s := by
      by_cases hm : (E.info r l).idxF.min? = some j
      · simp only [hm, decide_true, Bool.and_true, and_true]
        by_cases hc : (E.info r l).commFront = true
        · rw [if_pos hc]
          exact St.recv hg h hr (l := l) (op := 1) (by decide) (by rw [lvlOf_ne (by decide)]; exact hl)
        · rw [if_neg hc]
          refine St.congr St.id fun s => ?_
          rw [if_neg (by simp [hc])]
      · rw [if_neg (fun h => hm h.2)]
        refine St.congr St.id fun s => ?_
        rw [if_neg (by simp [hm])]
    have h2 : E.St r φ (if (E.info r l).commBack = true ∧ (E.info r l).idxF.max? = some j then [(l, 1)] else []) []
        fun s => if (E.info r l).commBack && decide ((E.info r l).idxF.max? = some j) then
          E.sendP (E.info r l).sendTo l 1 (.vec (s.u l j)) s else .ret s := by
      by_cases hm : (E.info r l).idxF.max? = some j
      · simp only [hm, decide_true, Bool.and_true, and_true]
        by_cases hc : (E.info r l).commBack = true
        · have := St.send (φ := φ) hg h hr (l := l) (op := 1) (by decide)
            (by rw [lvlOf_ne (by decide)]; exact hl) (fun s => s.u l j)
          simp only [sendFlag] at this
          rw [if_pos hc]
          exact this
        · rw [if_neg hc]
          refine St.congr St.id fun s => ?_
          rw [if_neg (by simp [hc])]
      · rw [if_neg (fun h => hm h.2)]
        refine St.congr St.id fun s => ?_
        rw [if_neg (by simp [hm])]
    have hq : ∀ s : PState V N, Quiet r s (s.setU l j (E.propAt r l j s)) := fun s =>
      .setU s _ fun h0 e => idxF_ne_zero h hr hl h0 (hx j List.mem_cons_self) e.2
    have h3 := (h1.comp (h2.before fun s => (hq s).all)).comp ih
    have e1 : (([] ++ if (E.info r l).commBack = true ∧ (E.info r l).idxF.max? = some j then [(l, 1)] else []) ++
        (if (E.info r l).commBack = true ∧ ∃ j ∈ xs, (E.info r l).idxF.max? = some j then [(l, 1)] else [])) =
        (if (E.info r l).commBack = true ∧ ∃ i ∈ j :: xs, (E.info r l).idxF.max? = some i then [(l, 1)] else []) := by
      by_cases hm : (E.info r l).idxF.max? = some j
      · have : ¬ ∃ i ∈ xs, (E.info r l).idxF.max? = some i := by
          rintro ⟨i, hi, e⟩
          rw [hm] at e; cases e
          exact hn.1 hi
        simp [hm, hn.1]
      · simp [hm]
    have e2 : ((if (E.info r l).commFront = true ∧ (E.info r l).idxF.min? = some j then [(l, 1)] else []) ++ [] ++
        (if (E.info r l).commFront = true ∧ ∃ j ∈ xs, (E.info r l).idxF.min? = some j then [(l, 1)] else [])) =
        (if (E.info r l).commFront = true ∧ ∃ i ∈ j :: xs, (E.info r l).idxF.min? = some i then [(l, 1)] else []) := by
      by_cases hm : (E.info r l).idxF.min? = some j
      · simp [hm, hn.1]
      · simp [hm]
    rw [e1, e2] at h3
    exact h3

theorem fRelax_st {l : Nat} (hl : l < E.ts.length) :
    E.St r φ [(l, 0), (l, 1)] [(l, 0), (l, 1)] (E.fRelaxP r l) := by
  have hs := h.spec hr hl
  have h0 := St.send (φ := φ) hg h hr (l := l) (op := 0) (by decide)
    (by rw [lvlOf_ne (by decide)]; exact hl) (fun s => s.u l (E.len r l - 1))
  have h1 := St.recv (φ := φ) hg h hr (l := l) (op := 0) (by decide) (by rw [lvlOf_ne (by decide)]; exact hl)
  have h2 := fLoop_st (φ := φ) h hg hr hl (E.info r l).idxF
    (hs.idxF_compat.imp fun h => h.1) fun _ h => h
  have h3 : E.St r φ [(l, 1)] [(l, 1)] (Prog.forIn' (E.info r l).idxF (E.fBody r l)) := by
    by_cases hb : (E.info r l).commBack = true
    · rw [if_pos] at h2
      · by_cases hf : (E.info r l).commFront = true
        · rw [if_pos] at h2
          · exact h2
          · have hc := hs.commFront.1 hf
            have hm : lo E.ts E.P l r - off E.ts E.P l r ∈ (E.info r l).idxF :=
              (hs.idxF_mem _).2 ⟨_, Nat.le_refl _, hc.1, hc.2.2.1, rfl⟩
            rcases hq : (E.info r l).idxF.min? with _ | m
            · rw [List.min?_eq_none_iff] at hq
              rw [hq] at hm; cases hm
            · exact ⟨hf, m, (mem_min _ hq).1, rfl⟩
        · rw [if_neg (fun h => hf h.1)] at h2
          exact h2.skipR (by rw [pv_ne6 (by decide)]; exact recvFlag_false hf)
      · have hc := hs.commBack.1 hb
        have hm : lo E.ts E.P l (r + 1) - 1 - off E.ts E.P l r ∈ (E.info r l).idxF :=
          (hs.idxF_mem _).2 ⟨_, by omega, by omega, hc.2.2.1, rfl⟩
        rcases hq : (E.info r l).idxF.max? with _ | m
        · rw [List.max?_eq_none_iff] at hq
          rw [hq] at hm; cases hm
        · exact ⟨hb, m, (mem_max _ hq).1, rfl⟩
    · rw [if_neg (fun h => hb h.1)] at h2
      refine St.skipS (σS := []) ?_ (by rw [nx_ne6 (by decide)]; exact sendFlag_false hb)
      by_cases hf : (E.info r l).commFront = true
      · rw [if_pos] at h2
        · exact h2
        · have hc := hs.commFront.1 hf
          have hm : lo E.ts E.P l r - off E.ts E.P l r ∈ (E.info r l).idxF :=
            (hs.idxF_mem _).2 ⟨_, Nat.le_refl _, hc.1, hc.2.2.1, rfl⟩
          rcases hq : (E.info r l).idxF.min? with _ | m
          · rw [List.min?_eq_none_iff] at hq
            rw [hq] at hm; cases hm
          · exact ⟨hf, m, (mem_min _ hq).1, rfl⟩
      · rw [if_neg (fun h => hf h.1)] at h2
        exact h2.skipR (by rw [pv_ne6 (by decide)]; exact recvFlag_false hf)
  exact h0.comp (h1.comp h3)

theorem cRelax_st [SMul K V] [One K] [Sub K] {l : Nat} (hl : l < E.ts.length) :
    E.St r φ [(l, 2)] [(l, 2)] (E.cRelaxP r l) := by
  have h0 := St.send (φ := φ) hg h hr (l := l) (op := 2) (by decide)
    (by rw [lvlOf_ne (by decide)]; exact hl) (fun s => s.u l (E.len r l - 1))
  have h1 := St.recv (φ := φ) hg h hr (l := l) (op := 2) (by decide) (by rw [lvlOf_ne (by decide)]; exact hl)
  have hq : ∀ s : PState V N, Quiet r s (E.cLoop r l s) := fun s => by
    refine .foldl _ _ (fun j hj s => ?_) s
    split
    · exact .setU s _ fun h0 e => idxC_ne_zero h hr hl h0 hj e.2
    · exact .refl s
  exact h0.comp (h1.after fun s => (hq s).all)

theorem forwardSolve_st {l : Nat} (hl : l < E.ts.length) :
    E.St r φ [(l, 5)] [(l, 5)] (E.forwardSolveP r l) := by
  have h0 := St.send (φ := φ) hg h hr (l := l) (op := 5) (by decide)
    (by rw [lvlOf_ne (by decide)]; exact hl) (fun s => s.u l ((E.info r l).idx.getLastD 0))
  have h1 := St.recv (φ := φ) hg h hr (l := l) (op := 5) (by decide) (by rw [lvlOf_ne (by decide)]; exact hl)
  have hq : ∀ s : PState V N, Quiet r s ((List.range' 1 (E.len r l - 1)).foldl
      (fun s j => s.setU l j (E.propAt r l j s)) s) := fun s => by
    refine .foldl _ _ (fun j hj s => ?_) s
    rw [List.mem_range'_1] at hj
    exact .setU s _ fun h0 e => by omega
  exact h1.comp (h0.before fun s => (hq s).all)

variable [Sub V]

theorem fasResidual_st {l : Nat} (hl : l + 1 < E.ts.length) :
    E.St r φ [(l, 3), (l, 4)] [(l, 3), (l, 4)] (E.fasResidualP r l) := by
  have h3 := St.send (φ := φ) hg h hr (l := l) (op := 3) (by decide)
    (by rw [lvlOf_ne (by decide)]; omega) (fun s => s.u l (E.len r l - 1))
  have h3' := St.recv (φ := φ) hg h hr (l := l) (op := 3) (by decide) (by rw [lvlOf_ne (by decide)]; omega)
  have h4 := St.send (φ := φ) hg h hr (l := l) (op := 4) (by decide)
    hl (fun s => s.u (l + 1) ((E.info r (l + 1)).idx.getLastD 0))
  have h4' := St.recv (φ := φ) hg h hr (l := l) (op := 4) (by decide) hl
  have hq1 : ∀ s : PState V N, Quiet r s (E.restrictLoop r l s) := fun s =>
    .foldl _ _ (fun j hj s => .setU s _ fun h0 e => by omega) s
  have hq2 : ∀ s : PState V N, Quiet r s (E.fasLoop r l { s with v := Function.update s.v (l + 1) (s.u (l + 1)) }) :=
    fun s => by
      refine Quiet.trans (s' := { s with v := Function.update s.v (l + 1) (s.u (l + 1)) })
        ⟨⟨rfl, rfl, rfl, rfl, rfl, rfl, rfl, rfl⟩, rfl, rfl, rfl, fun _ => rfl⟩ ?_
      refine .foldl _ _ (fun j hj s => ?_) _
      split
      · simp only
        split
        · exact .setG _ _ _ _
        · exact .setG _ _ _ _
      · exact .refl s
  exact (h3.comp (h3'.comp (h4.comp (h4'.after fun s => (hq2 s).all)))).before fun s => (hq1 s).all

omit hg in
theorem errorCorrection_quiet {l : Nat} (hl : l < E.ts.length) (s : PState V N) :
    Quiet r s (E.errorCorrectionP r l s) := by
  refine .foldl _ _ (fun j hj s => ?_) s
  split
  · refine .setU s _ fun h0 e => idxC_ne_zero h hr hl h0 ?_ e.2
    exact List.fst_mem_of_mem_zipIdx hj
  · exact .refl s

omit hg in
omit [Add V] [Sub V] in
theorem interpolate_quiet {l : Nat} (hl : l + 1 < E.ts.length) (s : PState V N) :
    Quiet r s (E.interpolateP r l s) := by
  refine .foldl _ _ (fun j hj s => ?_) s
  split
  · refine .setU s _ fun h0 e => idxC_ne_zero (l := l) h hr (by omega) h0 (j := 0) ?_ rfl
    have h1 : j.2 < (E.info r l).idxC.length := by
      rw [idxC_length h hr hl]
      have := List.snd_lt_of_mem_zipIdx hj
      omega
    rw [← e.2, List.getD_eq_getElem?_getD, List.getElem?_eq_getElem h1]
    exact List.getElem_mem h1
  · exact .refl s

end ops

/-! ### Iterations -/

/-- `k` copies of a list. -/
def rep (xs : List Slot) : Nat → List Slot
  | 0 => []
  | k + 1 => xs ++ rep xs k

variable (E) in
/-- Slots of `vcycP`. -/
def vcycS : Nat → Nat → Nat → Bool → List Slot
  | 0, l, _, _ => [(l, 5)]
  | d + 1, l, it, firstF =>
    (if (0 < l ∨ (it = 0 ∧ l = 0)) ∧ firstF then [(l, 0), (l, 1)] else []) ++
    (rep ([(l, 2)] ++ [(l, 0), (l, 1)]) (E.cf l) ++ ([(l, 3), (l, 4)] ++
    (vcycS d (l + 1) it true ++ [(l, 0), (l, 1)])))

variable (E) in
/-- Slots of `iterationP`. -/
def iterS : Nat → Nat → Sys.Cycle → Nat → Bool → List Slot
  | 0, l, _, _, _ => [(l, 5)]
  | d + 1, l, cyc, it, firstF =>
    (if (0 < l ∨ (it = 0 ∧ l = 0)) ∧ firstF then [(l, 0), (l, 1)] else []) ++
    (rep ([(l, 2)] ++ [(l, 0), (l, 1)]) (E.cf l) ++ ([(l, 3), (l, 4)] ++
    (iterS d (l + 1) cyc it true ++ ([(l, 0), (l, 1)] ++
    if l ≠ 0 ∧ cyc = Sys.Cycle.F then vcycS E (d + 1) l it false else []))))

variable (E) in
/-- Slots of `nestedLoopP`. -/
def nestedLoopS : Nat → List Slot
  | 0 => []
  | l + 1 => (if 0 < l then iterS E (E.L - 1 - l) l Sys.Cycle.V 0 true else []) ++ nestedLoopS l

variable (E) in
/-- Slots of `nestedIterationP`. -/
def nestedS : List Slot := [(E.L - 1, 5)] ++ nestedLoopS E (E.L - 1)

theorem times_st {σ : List Slot} {f : PState V N → Prog (Msg V N) (PState V N)} (hf : E.St r φ σ σ f) (k : Nat) :
    E.St r φ (rep σ k) (rep σ k) (timesP f k) := by
  induction k with
  | zero => exact St.id
  | succ k ih => exact hf.comp ih

theorem St.ite {c : Prop} [Decidable c] {σS σR : List Slot} {f : PState V N → Prog (Msg V N) (PState V N)}
    (hf : c → E.St r φ σS σR f) :
    E.St r φ (if c then σS else []) (if c then σR else []) fun s => if c then f s else .ret s := by
  by_cases hc : c
  · simp only [if_pos hc]; exact hf hc
  · simp only [if_neg hc]; exact St.id

section iter
variable [Add V] [Sub V] [SMul K V] [One K] [Sub K]
variable (h : E.Base) (hg : E.global = false) (hr : r < E.P)
include h hg hr

theorem vcyc_st (d l it : Nat) (firstF : Bool) (hd : l + d + 1 = E.ts.length) :
    E.St r φ (E.vcycS d l it firstF) (E.vcycS d l it firstF) (E.vcycP r d l it firstF) := by
  induction d generalizing l firstF with
  | zero => exact forwardSolve_st h hg hr (by omega)
  | succ d ih =>
    have hf := fRelax_st (φ := φ) h hg hr (l := l) (by omega)
    have hc := cRelax_st (φ := φ) h hg hr (l := l) (by omega)
    have hfas := fasResidual_st (φ := φ) h hg hr (l := l) (by omega)
    have h1 := (St.ite (c := (0 < l ∨ (it = 0 ∧ l = 0)) ∧ firstF = true) fun _ => hf).comp
      ((times_st (hc.comp hf) (E.cf l)).comp (hfas.comp ((ih (l + 1) true (by omega)).comp
        (hf.before fun s => (errorCorrection_quiet h hr (l := l) (by omega) s).all))))
    exact h1

theorem iteration_st (d l : Nat) (cyc : Sys.Cycle) (it : Nat) (firstF : Bool) (hd : l + d + 1 = E.ts.length) :
    E.St r φ (E.iterS d l cyc it firstF) (E.iterS d l cyc it firstF) (E.iterationP r d l cyc it firstF) := by
  induction d generalizing l firstF with
  | zero => exact forwardSolve_st h hg hr (by omega)
  | succ d ih =>
    have hf := fRelax_st (φ := φ) h hg hr (l := l) (by omega)
    have hc := cRelax_st (φ := φ) h hg hr (l := l) (by omega)
    have hfas := fasResidual_st (φ := φ) h hg hr (l := l) (by omega)
    have h1 := (St.ite (c := (0 < l ∨ (it = 0 ∧ l = 0)) ∧ firstF = true) fun _ => hf).comp
      ((times_st (hc.comp hf) (E.cf l)).comp (hfas.comp ((ih (l + 1) true (by omega)).comp
        ((hf.before fun s => (errorCorrection_quiet h hr (l := l) (by omega) s).all).comp
        (St.ite (c := l ≠ 0 ∧ cyc = Sys.Cycle.F) fun _ => vcyc_st h hg hr (d + 1) l it false hd)))))
    exact h1

theorem nestedLoop_st (l : Nat) (hl : l + 1 ≤ E.ts.length) :
    E.St r φ (E.nestedLoopS l) (E.nestedLoopS l) (E.nestedLoopP r l) := by
  induction l with
  | zero => exact St.id
  | succ l ih =>
    have hL : E.L = E.ts.length := rfl
    have h1 := ((St.ite (c := 0 < l) fun _ =>
      iteration_st (φ := φ) h hg hr (E.L - 1 - l) l Sys.Cycle.V 0 true (by omega)).comp
        (ih (by omega))).before fun s => (interpolate_quiet h hr (l := l) (by omega) s).all
    exact h1

theorem nestedIteration_st : E.St r φ E.nestedS E.nestedS (E.nestedIterationP r) := by
  have hL : E.L = E.ts.length := rfl
  have hpos := h.valid.pos
  exact (forwardSolve_st h hg hr (by omega)).comp (nestedLoop_st h hg hr _ (by omega))

/-- Communication of `compute_residual`. -/
def resComm (E : Cfg V K T N) (r : Nat) (s : PState V N) : Prog (Msg V N) (PState V N) :=
  (if (E.info r 0).lastF then E.sendP (E.info r 0).sendTo 0 7 (.vec (s.u 0 (E.len r 0 - 1))) s
    else .ret s).bind fun s =>
  if (E.info r 0).firstC && !s.sf 0 7 then E.recvU (E.info r 0).getFrom 0 7 0 s else .ret s

omit [SMul K V] [One K] [Sub K] in
theorem resComm_st : E.St r φ [(0, 7)] [(0, 7)] (E.resComm r) := by
  have hpos := h.valid.pos
  have h0 := St.send (φ := φ) hg h hr (l := 0) (op := 7) (by decide)
    (by rw [lvlOf_ne (by decide)]; exact hpos) (fun s => s.u 0 (E.len r 0 - 1))
  have h1 := St.recv (φ := φ) hg h hr (l := 0) (op := 7) (by decide) (by rw [lvlOf_ne (by decide)]; exact hpos)
  exact h0.comp h1

end iter

end Cfg

end Pymgrit
