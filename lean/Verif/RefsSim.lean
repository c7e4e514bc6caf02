import Verif.RefsFacts
import Verif.PropsGrid

/-!
# Simulation of the functions of the solver, with objects against with values
-/

set_option linter.unusedSectionVars false

namespace Pymgrit
open RState

variable {V K T N : Type} [LinearOrder T] [Inhabited T]

/-- What the solver needs from the user's functions: they leave the objects they are given as they are; if
they return the object they were given, its value is the value they are to compute; with several time
processes the time stepper of the finest level returns new objects. -/
structure User.Fair (U : User V T) (E : Cfg V K T N) : Prop where
  S : ∀ l x t t', U.S l x t t' ≠ .inPlace
  R : ∀ l x, U.R l x ≠ .inPlace
  I : ∀ l x, U.I l x ≠ .inPlace
  sameS : ∀ l x t t', U.S l x t t' = .same → E.step l x t t' = x
  sameR : ∀ l x, U.R l x = .same → E.R l x = x
  sameI : ∀ l x, U.I l x = .same → E.I l x = x
  S0 : ∀ x t t', U.S 0 x t t' = .same → E.P = 1

variable {E : Cfg V K T N} {U : User V T} {mine : Addr → V} {r : Nat}

theorem Rf.scal {ρ : RState V N} (h : Rf mine r ρ ρ.vals) (o : PState Addr N) (os : List (Nat × (Nat → V)))
    (hu : o.u = ρ.obj.u) (hv : o.v = ρ.obj.v) (hg : o.g = ρ.obj.g) (hs : o.saved = ρ.obj.saved) :
    Rf mine r { ρ with obj := o, outs := os } (RState.vals { ρ with obj := o, outs := os }) := by
  obtain ⟨⟨u, v, g, sv, gu, gv, gg, gs, hp⟩, us, -⟩ := h
  refine ⟨⟨?_, ?_, ?_, ?_, ?_, ?_, ?_, ?_, hp⟩, us, rfl⟩
  · show ∀ l j, 0 < (o.u l j).blk ∧ _; rw [hu]; exact u
  · show ∀ l j, 0 < (o.v l j).blk ∧ _; rw [hv]; exact v
  · show ∀ l j, 0 < (o.g l j).blk ∧ _; rw [hg]; exact g
  · show ∀ j, 0 < (o.saved j).blk ∧ _; rw [hs]; exact sv
  · show _ → ∀ l l' j, o.u l' j = o.u l 0 → _; rw [hu]; exact gu
  · show _ → ∀ l l' j, o.v l' j ≠ o.u l 0; rw [hu, hv]; exact gv
  · show _ → ∀ l l' j, o.g l' j ≠ o.u l 0; rw [hu, hg]; exact gg
  · show _ → ∀ l j, o.saved j ≠ o.u l 0; rw [hu, hs]; exact gs

section comm
variable {ρ : RState V N} {s : PState V N}

theorem sendR_sim (dst : Option Nat) (l op : Nat) (x : Payload V N) (h : Rf mine r ρ s) :
    Sim (Rf mine r) (E.sendR dst l op x ρ) (E.sendP dst l op x s) := by
  obtain ⟨hi, hu, rfl⟩ := h
  cases dst with
  | none => exact .fail
  | some d => exact .send (.ret (Rf.scal ⟨hi, hu, rfl⟩ _ _ rfl rfl rfl rfl))

theorem recvR_sim (src : Option Nat) (l op : Nat) (h : Rf mine r ρ s) :
    Sim (fun p q => p.1 = q.1 ∧ Rf mine r p.2 q.2) (E.recvR src l op ρ) (E.recvP src l op s) := by
  obtain ⟨hi, hu, rfl⟩ := h
  cases src with
  | none => exact .fail
  | some q =>
    refine .recv fun m => ?_
    split
    · exact .fail
    · exact .ret ⟨rfl, Rf.scal ⟨hi, hu, rfl⟩ _ _ rfl rfl rfl rfl⟩

theorem recvUR_sim (src : Option Nat) (l op lu : Nat) (h : Rf mine r ρ s) (hr : r = 0 → src = none) :
    Sim (Rf mine r) (E.recvUR src l op lu ρ) (E.recvU src l op lu s) := by
  by_cases h0 : r = 0
  · rw [hr h0]; exact .fail
  · refine (recvR_sim src l op h).bind ?_
    rintro ⟨x, ρ'⟩ ⟨y, s'⟩ ⟨hxy, h'⟩
    obtain rfl : x = y := hxy
    cases x with
    | vec x => exact .ret (h'.unpack h0 lu x)
    | _ => exact .fail

theorem ite_sim {M α β : Type} {Q : α → β → Prop} {c : Prop} [Decidable c] {a a' : Prog M α}
    {b b' : Prog M β} (h : c → Sim Q a b) (h' : ¬ c → Sim Q a' b') :
    Sim Q (if c then a else a') (if c then b else b') := by
  by_cases hc : c
  · rw [if_pos hc, if_pos hc]; exact h hc
  · rw [if_neg hc, if_neg hc]; exact h' hc

end comm

section ops
variable (hE : E.Base) (hU : U.Fair E) (hr : r < E.P)
include hE hr

theorem getFrom_none {l : Nat} (hl : l < E.ts.length) : r = 0 → (E.info r l).getFrom = none := by
  intro h0
  cases hg : (E.info r l).getFrom with
  | none => rfl
  | some q =>
    have := ((hE.spec hr hl).getFrom q).1 hg
    have := this.1
    omega

variable [Add V]

include hU

theorem stepR_res {ρ : RState V N} (l j : Nat) (arr : Nat → Addr)
    (ha : (arr (Cfg.pyPrev (E.len r l) j)).blk < ρ.next) :
    ρ.Res (arr (Cfg.pyPrev (E.len r l) j)) (E.stepR U r l j arr ρ)
      (E.stepAt r l j fun j => ρ.heap (arr j)) :=
  call_res ρ ha (hU.S _ _ _ _) fun h => hU.sameS _ _ _ _ h

/-- Value of the time integration, and what it leaves. -/
theorem propR_val {ρ : RState V N} {s : PState V N} (h : Rf mine r ρ s) (l j : Nat) :
    ρ.Ext (E.propR U r l j ρ).2 ∧ (E.propR U r l j ρ).2.heap (E.propR U r l j ρ).1 = E.propAt r l j s := by
  have h1 := stepR_res hE hU hr (ρ := ρ) l j (ρ.obj.u l) (h.inv.u _ _).2
  have hs : (fun j => ρ.heap (ρ.obj.u l j)) = s.u l := by funext j; exact h.u l j
  rw [hs] at h1
  unfold Cfg.propR Cfg.propAt
  by_cases hl : l = 0
  · simp only [if_pos hl]
    exact ⟨h1.ext, h1.val⟩
  · simp only [if_neg hl]
    have h2 := alloc_new (E.stepR U r l j (ρ.obj.u l) ρ).2 ((E.stepR U r l j (ρ.obj.u l) ρ).2.heap
      ((E.stepR U r l j (ρ.obj.u l) ρ).2.obj.g l j) + (E.stepR U r l j (ρ.obj.u l) ρ).2.heap
        (E.stepR U r l j (ρ.obj.u l) ρ).1)
    refine ⟨h1.ext.trans h2.ext, h2.val.trans ?_⟩
    rw [h1.val, (h1.ext.rf h).g]

theorem propR_set {ρ : RState V N} {s : PState V N} (h : Rf mine r ρ s) {l j : Nat} (hj : r ≠ 0 → j ≠ 0) :
    Rf mine r ((E.propR U r l j ρ).2.setU l j (E.propR U r l j ρ).1) (s.setU l j (E.propAt r l j s)) := by
  have h1 := stepR_res hE hU hr (ρ := ρ) l j (ρ.obj.u l) (h.inv.u _ _).2
  have hs : (fun j => ρ.heap (ρ.obj.u l j)) = s.u l := by funext j; exact h.u l j
  rw [hs] at h1
  obtain ⟨h2, h3⟩ := propR_val hE hU hr h l j
  by_cases hl : l = 0
  · have e1 : E.propR U r l j ρ = E.stepR U r l j (ρ.obj.u l) ρ := by unfold Cfg.propR; rw [if_pos hl]
    have e2 : E.propAt r l j s = E.stepAt r l j (s.u l) := by unfold Cfg.propAt; rw [if_pos hl]
    rw [e1, e2]
    by_cases hr0 : r = 0
    · exact h.setU_res hj (fun hn => absurd hr0 hn) h1
    · rcases hb : U.S l (ρ.heap (ρ.obj.u l (Cfg.pyPrev (E.len r l) j)))
        (tAt (E.info r l).t (Cfg.pyPrev (E.len r l) j)) (tAt (E.info r l).t j) with _ | _ | _
      · refine h.setU_new hj ⟨h1.ext, h1.val, h1.lt, ?_⟩
        unfold Cfg.stepR
        rw [hb]
        exact le_refl _
      · subst hl
        have := hU.S0 _ _ _ hb
        omega
      · exact absurd hb (hU.S _ _ _ _)
  · refine h.setU_new hj ⟨h2, h3, ?_, ?_⟩
    · unfold Cfg.propR
      simp only [if_neg hl]
      exact (alloc_new _ _).lt
    · unfold Cfg.propR
      simp only [if_neg hl]
      exact h1.ext.next.trans (alloc_new _ _).new

theorem fBodyR_sim {l j : Nat} (hl : l < E.ts.length) (hj : j ∈ (E.info r l).idxF) {ρ : RState V N}
    {s : PState V N} (h : Rf mine r ρ s) : Sim (Rf mine r) (E.fBodyR U r l ρ j) (E.fBody r l s j) := by
  unfold Cfg.fBodyR Cfg.fBody
  simp only [h.sf]
  refine Sim.bind (ite_sim (fun _ => recvUR_sim _ _ _ _ h (getFrom_none hE hr hl)) fun _ => .ret h) ?_
  intro ρ s h
  have h' := propR_set hE hU hr h (l := l) (j := j) fun h0 =>
    Cfg.idxF_ne_zero hE hr hl (Nat.pos_of_ne_zero h0) hj
  simp only [h'.u]
  exact ite_sim (fun _ => sendR_sim _ _ _ _ h') fun _ => .ret h'

theorem fRelaxR_sim {l : Nat} (hl : l < E.ts.length) {ρ : RState V N}
    {s : PState V N} (h : Rf mine r ρ s) : Sim (Rf mine r) (E.fRelaxR U r l ρ) (E.fRelaxP r l s) := by
  unfold Cfg.fRelaxR Cfg.fRelaxP
  simp only [h.u]
  refine Sim.bind (ite_sim (fun _ => sendR_sim _ _ _ _ h) fun _ => .ret h) ?_
  intro ρ s h
  simp only [h.sf]
  refine Sim.bind (ite_sim (fun _ => recvUR_sim _ _ _ _ h (getFrom_none hE hr hl)) fun _ => .ret h) ?_
  intro ρ s h
  exact Sim.forIn _ (fun j hj ρ s h => fBodyR_sim hE hU hr hl hj h) h

theorem forwardSolveR_sim {l : Nat} (hl : l < E.ts.length) {ρ : RState V N}
    {s : PState V N} (h : Rf mine r ρ s) :
    Sim (Rf mine r) (E.forwardSolveR U r l ρ) (E.forwardSolveP r l s) := by
  unfold Cfg.forwardSolveR Cfg.forwardSolveP
  simp only [h.sf]
  refine Sim.bind (ite_sim (fun _ => recvUR_sim _ _ _ _ h (getFrom_none hE hr hl)) fun _ => .ret h) ?_
  intro ρ s h
  have h' := foldl_rel (Q := Rf mine r)
    (f := fun ρ j => (E.propR U r l j ρ).2.setU l j (E.propR U r l j ρ).1)
    (g := fun s j => s.setU l j (E.propAt r l j s)) (List.range' 1 (E.len r l - 1))
    (fun j hj ρ s h => propR_set hE hU hr h fun _ => by rw [List.mem_range'_1] at hj; omega) h
  simp only [h'.u]
  exact ite_sim (fun _ => sendR_sim _ _ _ _ h') fun _ => .ret h'

theorem restrictLoopR_rf {l : Nat} (hl : l + 1 < E.ts.length) {ρ : RState V N}
    {s : PState V N} (h : Rf mine r ρ s) :
    Rf mine r (E.restrictLoopR U r l ρ) (E.restrictLoop r l s) := by
  refine foldl_rel _ (fun ci hci ρ s h => ?_) h
  have hC : ci.1 ∈ (E.info r l).idxC := by
    obtain ⟨hk, he⟩ := List.mem_zipIdx' hci
    rw [he]; exact List.getElem_mem hk
  have h1 := call_res ρ (f := E.R l) (h.inv.u l ci.1).2 (hU.R l (ρ.heap (ρ.obj.u l ci.1)))
    fun h => hU.sameR _ _ h
  have e : E.R l (ρ.heap (ρ.obj.u l ci.1)) = E.R l (s.u l ci.1) := by rw [h.u]
  rw [e] at h1
  exact h.setU_res (fun h0 => by rw [if_neg h0]; omega)
    (fun h0 => Cfg.idxC_ne_zero hE hr (by omega) (Nat.pos_of_ne_zero h0) hC) h1

variable [Sub V]

theorem fasLoopR_rf {l : Nat} {ρ : RState V N}
    {s : PState V N} (h : Rf mine r ρ s) : Rf mine r (E.fasLoopR U r l ρ) (E.fasLoop r l s) := by
  refine foldl_rel _ (fun ci _ ρ s h => ?_) h
  by_cases hc : ci.2 ≠ 0 ∨ r ≠ 0
  · simp only [if_pos hc]
    generalize (E.info r (l + 1)).idx.getD ci.2 0 = k
    -- fine step
    have h1 := stepR_res hE hU hr (ρ := ρ) l ci.1 (ρ.obj.u l) (h.inv.u _ _).2
    have hs : (fun j => ρ.heap (ρ.obj.u l j)) = s.u l := by funext j; exact h.u l j
    rw [hs] at h1
    generalize E.stepR U r l ci.1 (ρ.obj.u l) ρ = p at *
    have hp := h1.ext.rf h
    -- argument of the restriction
    have h2 := alloc_new p.2 (if l = 0 then p.2.heap p.1 - p.2.heap (p.2.obj.u l ci.1)
        else p.2.heap (p.2.obj.g l ci.1) - p.2.heap (p.2.obj.u l ci.1) + p.2.heap p.1)
    generalize p.2.alloc _ = q at *
    have hq := h2.ext.rf hp
    rw [h1.val, hp.u, hp.g] at h2
    -- restriction
    have h3 := call_res q.2 (f := E.R l) h2.lt (hU.R l (q.2.heap q.1)) fun h => hU.sameR _ _ h
    generalize q.2.call _ _ _ = a at *
    rw [h2.val] at h3
    have ha := h3.ext.rf hq
    have h4 := alloc_new a.2 (a.2.heap a.1 + a.2.heap (a.2.obj.v (l + 1) k))
    generalize a.2.alloc _ = b at *
    rw [h3.val, ha.v] at h4
    have hb := h4.ext.rf ha
    -- coarse step
    have h5 := stepR_res hE hU hr (ρ := b.2) (l + 1) k (b.2.obj.v (l + 1)) (hb.inv.v _ _).2
    have hs' : (fun j => b.2.heap (b.2.obj.v (l + 1) j)) = s.v (l + 1) := by
      funext j; exact hb.v (l + 1) j
    rw [hs'] at h5
    generalize E.stepR U r (l + 1) k (b.2.obj.v (l + 1)) b.2 = c at *
    have hcR := h5.ext.rf hb
    have h6 := alloc_new c.2 (c.2.heap b.1 - c.2.heap c.1)
    generalize c.2.alloc _ = d at *
    rw [h5.val, h5.ext.heap b.1 h4.lt, h4.val] at h6
    have := hcR.setG_new (l := l + 1) (j := k) h6
    by_cases hl : l = 0
    · simp only [if_pos hl] at this ⊢
      exact this
    · simp only [if_neg hl] at this ⊢
      exact this
  · simp only [if_neg hc]
    exact h

theorem fasResidualR_sim {l : Nat} (hl : l + 1 < E.ts.length) {ρ : RState V N}
    {s : PState V N} (h : Rf mine r ρ s) :
    Sim (Rf mine r) (E.fasResidualR U r l ρ) (E.fasResidualP r l s) := by
  unfold Cfg.fasResidualR Cfg.fasResidualP
  have h := restrictLoopR_rf hE hU hr hl h
  simp only [h.u]
  refine Sim.bind (ite_sim (fun _ => sendR_sim _ _ _ _ h) fun _ => .ret h) ?_
  intro ρ s h
  simp only [h.sf]
  refine Sim.bind (ite_sim (fun _ => recvUR_sim _ _ _ _ h (getFrom_none hE hr (by omega)))
    fun _ => .ret h) ?_
  intro ρ s h
  simp only [h.u]
  refine Sim.bind (ite_sim (fun _ => sendR_sim _ _ _ _ h) fun _ => .ret h) ?_
  intro ρ s h
  simp only [h.sf]
  refine Sim.bind (ite_sim (fun _ => recvUR_sim _ _ _ _ h (getFrom_none hE hr hl)) fun _ => .ret h) ?_
  intro ρ s h
  exact .ret (fasLoopR_rf hE hU hr (h.cloneV (l + 1)))

theorem errorCorrectionR_rf {l : Nat} (hl : l < E.ts.length) {ρ : RState V N}
    {s : PState V N} (h : Rf mine r ρ s) :
    Rf mine r (E.errorCorrectionR U r l ρ) (E.errorCorrectionP r l s) := by
  refine foldl_rel _ (fun ci hci ρ s h => ?_) h
  have hC : ci.1 ∈ (E.info r l).idxC := by
    obtain ⟨hk, he⟩ := List.mem_zipIdx' hci
    rw [he]; exact List.getElem_mem hk
  by_cases hc : ci.2 ≠ 0 ∨ r ≠ 0
  · simp only [if_pos hc]
    generalize (E.info r l).idx.getD ci.2 0 = k
    have h1 := alloc_new ρ (ρ.heap (ρ.obj.u (l + 1) k) - ρ.heap (ρ.obj.v (l + 1) k))
    generalize ρ.alloc _ = p at *
    rw [h.u, h.v] at h1
    have hp := h1.ext.rf h
    have h2 := call_res p.2 (f := E.I l) h1.lt (hU.I l (p.2.heap p.1)) fun h => hU.sameI _ _ h
    generalize p.2.call _ _ _ = q at *
    rw [h1.val] at h2
    have hq := h2.ext.rf hp
    have h3 := alloc_new q.2 (q.2.heap (q.2.obj.u l ci.1) + q.2.heap q.1)
    generalize q.2.alloc _ = a at *
    rw [h2.val, hq.u] at h3
    exact hq.setU_new (fun h0 => Cfg.idxC_ne_zero hE hr hl (Nat.pos_of_ne_zero h0) hC) h3
  · simp only [if_neg hc]
    exact h

variable [SMul K V] [One K] [Sub K]

theorem cLoopR_rf {l : Nat} (hl : l < E.ts.length) {ρ : RState V N}
    {s : PState V N} (h : Rf mine r ρ s) : Rf mine r (E.cLoopR U r l ρ) (E.cLoop r l s) := by
  refine foldl_rel _ (fun j hj ρ s h => ?_) h
  by_cases hc : j ≠ 0 ∨ r ≠ 0
  · simp only [if_pos hc]
    obtain ⟨h1, h2⟩ := propR_val hE hU hr h l j
    generalize E.propR U r l j ρ = p at *
    have hp := h1.rf h
    have h3 := alloc_new p.2 (E.w • p.2.heap p.1 + (1 - E.w) • p.2.heap (p.2.obj.u l j))
    generalize p.2.alloc _ = q at *
    rw [h2, hp.u] at h3
    exact hp.setU_new (fun h0 => Cfg.idxC_ne_zero hE hr hl (Nat.pos_of_ne_zero h0) hj) h3
  · simp only [if_neg hc]
    exact h

theorem cRelaxR_sim {l : Nat} (hl : l < E.ts.length) {ρ : RState V N}
    {s : PState V N} (h : Rf mine r ρ s) : Sim (Rf mine r) (E.cRelaxR U r l ρ) (E.cRelaxP r l s) := by
  unfold Cfg.cRelaxR Cfg.cRelaxP
  simp only [h.u]
  refine Sim.bind (ite_sim (fun _ => sendR_sim _ _ _ _ h) fun _ => .ret h) ?_
  intro ρ s h
  simp only [h.sf]
  refine Sim.bind (ite_sim (fun _ => recvUR_sim _ _ _ _ h (getFrom_none hE hr hl)) fun _ => .ret h) ?_
  intro ρ s h
  exact .ret (cLoopR_rf hE hU hr hl h)

theorem vcycR_sim (d l it : Nat) (ff : Bool) (hl : l + d < E.ts.length) {ρ : RState V N}
    {s : PState V N} (h : Rf mine r ρ s) :
    Sim (Rf mine r) (E.vcycR U r d l it ff ρ) (E.vcycP r d l it ff s) := by
  induction d generalizing l ff ρ s with
  | zero => exact forwardSolveR_sim hE hU hr (by omega) h
  | succ d ih =>
    have hl0 : l < E.ts.length := by omega
    refine Sim.bind (ite_sim (fun _ => fRelaxR_sim hE hU hr hl0 h) fun _ => .ret h) ?_
    intro ρ s h
    refine Sim.bind (Q := Rf mine r) (Sim.times _ (fun ρ s h => Sim.bind (Q := Rf mine r)
      (cRelaxR_sim hE hU hr hl0 h) fun ρ s h => fRelaxR_sim hE hU hr hl0 h) h) ?_
    intro ρ s h
    refine Sim.bind (fasResidualR_sim hE hU hr (by omega) h) ?_
    intro ρ s h
    refine Sim.bind (ih (l + 1) true (by omega) h) ?_
    intro ρ s h
    exact fRelaxR_sim hE hU hr hl0 (errorCorrectionR_rf hE hU hr hl0 h)

theorem iterationR_sim (d l : Nat) (cyc : Sys.Cycle) (it : Nat) (ff : Bool) (hl : l + d < E.ts.length)
    {ρ : RState V N} {s : PState V N} (h : Rf mine r ρ s) :
    Sim (Rf mine r) (E.iterationR U r d l cyc it ff ρ) (E.iterationP r d l cyc it ff s) := by
  induction d generalizing l ff ρ s with
  | zero => exact forwardSolveR_sim hE hU hr (by omega) h
  | succ d ih =>
    have hl0 : l < E.ts.length := by omega
    refine Sim.bind (ite_sim (fun _ => fRelaxR_sim hE hU hr hl0 h) fun _ => .ret h) ?_
    intro ρ s h
    refine Sim.bind (Q := Rf mine r) (Sim.times _ (fun ρ s h => Sim.bind (Q := Rf mine r)
      (cRelaxR_sim hE hU hr hl0 h) fun ρ s h => fRelaxR_sim hE hU hr hl0 h) h) ?_
    intro ρ s h
    refine Sim.bind (fasResidualR_sim hE hU hr (by omega) h) ?_
    intro ρ s h
    refine Sim.bind (ih (l + 1) true (by omega) h) ?_
    intro ρ s h
    refine Sim.bind (fRelaxR_sim hE hU hr hl0 (errorCorrectionR_rf hE hU hr hl0 h)) ?_
    intro ρ s h
    exact ite_sim (fun _ => vcycR_sim hE hU hr (d + 1) l it false hl h) fun _ => .ret h

theorem interpolateR_rf {l : Nat} (hl : l + 1 < E.ts.length) {ρ : RState V N}
    {s : PState V N} (h : Rf mine r ρ s) :
    Rf mine r (E.interpolateR U r l ρ) (E.interpolateP r l s) := by
  refine foldl_rel _ (fun ki hki ρ s h => ?_) h
  obtain ⟨hk, he⟩ := List.mem_zipIdx' hki
  have hlen := Cfg.idxC_length hE hr hl
  have hC : (E.info r l).idxC.getD ki.2 0 ∈ (E.info r l).idxC := by
    rw [List.getD_eq_getElem?_getD, List.getElem?_eq_getElem (by rw [hlen]; exact hk), Option.getD_some]
    exact List.getElem_mem _
  have hK : r ≠ 0 → ki.1 ≠ 0 := by
    intro h0
    have hm : ki.1 ∈ (E.info r (l + 1)).idx := by rw [he]; exact List.getElem_mem hk
    rw [(hE.spec hr hl).idx, List.mem_range'_1] at hm
    simp only [gh, h0, if_false] at hm
    omega
  by_cases hc : ki.2 ≠ 0 ∨ r ≠ 0
  · simp only [if_pos hc]
    have h1 := call_res ρ (f := E.I l) (h.inv.u (l + 1) ki.1).2 (hU.I l (ρ.heap (ρ.obj.u (l + 1) ki.1)))
      fun h => hU.sameI _ _ h
    have e : E.I l (ρ.heap (ρ.obj.u (l + 1) ki.1)) = E.I l (s.u (l + 1) ki.1) := by rw [h.u]
    rw [e] at h1
    exact h.setU_res (fun h0 => Cfg.idxC_ne_zero hE hr (by omega) (Nat.pos_of_ne_zero h0) hC) hK h1
  · simp only [if_neg hc]
    exact h

theorem nestedLoopR_sim (l : Nat) (hl : l < E.ts.length) {ρ : RState V N} {s : PState V N}
    (h : Rf mine r ρ s) : Sim (Rf mine r) (E.nestedLoopR U r l ρ) (E.nestedLoopP r l s) := by
  induction l generalizing ρ s with
  | zero => exact .ret h
  | succ l ih =>
    have h := interpolateR_rf hE hU hr hl h
    refine Sim.bind (ite_sim (fun _ => iterationR_sim hE hU hr _ _ _ _ _ (by unfold Cfg.L; omega) h)
      fun _ => .ret h) ?_
    intro ρ s h
    exact ih (by omega) h

theorem nestedIterationR_sim {ρ : RState V N} {s : PState V N} (h : Rf mine r ρ s) :
    Sim (Rf mine r) (E.nestedIterationR U r ρ) (E.nestedIterationP r s) := by
  have hpos := hE.valid.pos
  exact (forwardSolveR_sim hE hU hr (by unfold Cfg.L; omega) h).bind fun ρ s h =>
    nestedLoopR_sim hE hU hr _ (by unfold Cfg.L; omega) h

theorem residualR_sim {ρ : RState V N} {s : PState V N} (h : Rf mine r ρ s) :
    Sim (fun p q => p.1 = q.1 ∧ Rf mine r p.2 q.2) (E.residualR U r ρ) (E.residualP r s) := by
  unfold Cfg.residualR Cfg.residualP
  simp only [h.u]
  refine Sim.bind (ite_sim (fun _ => sendR_sim _ _ _ _ h) fun _ => .ret h) ?_
  intro ρ s h
  simp only [h.sf]
  refine Sim.bind (ite_sim (fun _ => recvUR_sim _ _ _ _ h (getFrom_none hE hr hE.valid.pos))
    fun _ => .ret h) ?_
  intro ρ s h
  refine .ret ?_
  have key : ∀ (xs : List Nat) (ns : List N) (ρ : RState V N), Rf mine r ρ s →
      (xs.foldl (fun (xs : List N × RState V N) j =>
        if r ≠ 0 ∨ j ≠ 0 then
          let p := E.stepR U r 0 j (xs.2.obj.u 0) xs.2
          (xs.1 ++ [E.norm (p.2.heap p.1 - p.2.heap (p.2.obj.u 0 j))], p.2)
        else xs) (ns, ρ)).1 = ns ++ (xs.filter fun j => decide (r ≠ 0 ∨ j ≠ 0)).map (fun j =>
          E.norm (E.stepAt r 0 j (s.u 0) - s.u 0 j)) ∧
      Rf mine r (xs.foldl (fun (xs : List N × RState V N) j =>
        if r ≠ 0 ∨ j ≠ 0 then
          let p := E.stepR U r 0 j (xs.2.obj.u 0) xs.2
          (xs.1 ++ [E.norm (p.2.heap p.1 - p.2.heap (p.2.obj.u 0 j))], p.2)
        else xs) (ns, ρ)).2 s := by
    intro xs
    induction xs with
    | nil => intro ns ρ h; exact ⟨(List.append_nil _).symm, h⟩
    | cons j xs ih =>
      intro ns ρ h
      by_cases hc : r ≠ 0 ∨ j ≠ 0
      · have h1 := stepR_res hE hU hr (ρ := ρ) 0 j (ρ.obj.u 0) (h.inv.u _ _).2
        have hs : (fun j => ρ.heap (ρ.obj.u 0 j)) = s.u 0 := by funext j; exact h.u 0 j
        rw [hs] at h1
        simp only [List.foldl_cons, if_pos hc]
        generalize E.stepR U r 0 j (ρ.obj.u 0) ρ = p at *
        have hp := h1.ext.rf h
        obtain ⟨a, b⟩ := ih (ns ++ [E.norm (p.2.heap p.1 - p.2.heap (p.2.obj.u 0 j))]) p.2 hp
        refine ⟨a.trans ?_, b⟩
        rw [h1.val, hp.u, List.filter_cons_of_pos (by simpa using hc), List.map_cons, List.append_assoc,
          List.singleton_append]
      · simp only [List.foldl_cons, if_neg hc]
        obtain ⟨a, b⟩ := ih ns ρ h
        refine ⟨a.trans ?_, b⟩
        rw [List.filter_cons_of_neg (by simpa using hc)]
  exact key _ [] ρ h

theorem jumpR_rf {ρ : RState V N} {s : PState V N} (h : Rf mine r ρ s) :
    (E.jumpR r ρ).1 = (E.jumpP r s).1 ∧ Rf mine r (E.jumpR r ρ).2 (E.jumpP r s).2 := by
  refine ⟨?_, h.save⟩
  unfold Cfg.jumpR Cfg.jumpP
  simp only [h.u, h.saved]

theorem convergenceR_sim (it : Nat) {ρ : RState V N} {s : PState V N} (h : Rf mine r ρ s) :
    Sim (Rf mine r) (E.convergenceR U r it ρ) (E.convergenceP r it s) := by
  unfold Cfg.convergenceR Cfg.convergenceP
  refine Sim.bind (ite_sim (fun _ => residualR_sim hE hU hr h) fun _ => .ret (jumpR_rf hE hU hr h)) ?_
  rintro ⟨val, ρ⟩ ⟨val', s⟩ ⟨hv, h⟩
  obtain rfl : val = val' := hv
  refine ite_sim (fun _ => ?_) fun _ => ?_
  · refine (Sim.refl _).bind ?_
    rintro p _ rfl
    obtain ⟨hi, hu, rfl⟩ := h
    cases p with
    | num x => exact .ret (Rf.scal ⟨hi, hu, rfl⟩ _ _ rfl rfl rfl rfl)
    | _ => exact .fail
  · have h : Rf mine r ρ s := h
    simp only [h.sf]
    refine Sim.bind (Q := Rf mine r) (ite_sim (fun _ => ?_) fun _ => .ret h) ?_
    · refine (recvR_sim _ _ _ h).bind ?_
      rintro ⟨x, ρ'⟩ ⟨y, s'⟩ ⟨hxy, h'⟩
      obtain rfl : x = y := hxy
      obtain ⟨hi, hu, rfl⟩ := h'
      cases x with
      | flag b => exact .ret (Rf.scal ⟨hi, hu, rfl⟩ _ _ rfl rfl rfl rfl)
      | _ => exact .fail
    · intro ρ s h
      obtain ⟨hi, hu, rfl⟩ := h
      have h' := Rf.scal (ρ := ρ) (r := r) ⟨hi, hu, rfl⟩
        { ρ.obj with fin := ρ.obj.pre && (val.all E.ltTol || decide (it = E.maxIter)), finIt := some it }
        ρ.outs rfl rfl rfl rfl
      refine Sim.bind (ite_sim (fun _ => sendR_sim _ _ _ _ h') fun _ => .ret h') ?_
      intro ρ s h
      obtain ⟨hi, hu, rfl⟩ := h
      exact .ret (Rf.scal ⟨hi, hu, rfl⟩ _ _ rfl rfl rfl rfl)

theorem cleanSendR_sim {l : Nat} {ρ : RState V N} {s : PState V N} (h : Rf mine r ρ s) :
    Sim (Rf mine r) (E.cleanSendR r ρ l) (E.cleanSend r s l) := by
  unfold Cfg.cleanSendR Cfg.cleanSend
  simp only [h.u]
  refine Sim.bind (ite_sim (fun _ => sendR_sim _ _ _ _ h) fun _ => .ret h) ?_
  intro ρ s h
  simp only [h.u]
  refine Sim.bind (ite_sim (fun _ => sendR_sim _ _ _ _ h) fun _ => .ret h) ?_
  intro ρ s h
  simp only [h.u]
  refine Sim.bind (ite_sim (fun _ => sendR_sim _ _ _ _ h) fun _ => .ret h) ?_
  intro ρ s h
  simp only [h.u]
  refine Sim.bind (ite_sim (fun _ => sendR_sim _ _ _ _ h) fun _ => .ret h) ?_
  intro ρ s h
  simp only [h.u]
  exact ite_sim (fun _ => sendR_sim _ _ _ _ h) fun _ => .ret h

theorem cleanRecvR_sim {l : Nat} (hl : l < E.ts.length) {ρ : RState V N} {s : PState V N}
    (h : Rf mine r ρ s) : Sim (Rf mine r) (E.cleanRecvR r ρ l) (E.cleanRecv r s l) := by
  unfold Cfg.cleanRecvR Cfg.cleanRecv
  have hg := getFrom_none hE hr hl
  simp only [h.sf]
  refine Sim.bind (ite_sim (fun _ => recvUR_sim _ _ _ _ h hg) fun _ => .ret h) ?_
  intro ρ s h
  simp only [h.sf]
  refine Sim.bind (ite_sim (fun _ => recvUR_sim _ _ _ _ h hg) fun _ => .ret h) ?_
  intro ρ s h
  simp only [h.sf]
  refine Sim.bind (ite_sim (fun _ => recvUR_sim _ _ _ _ h hg) fun _ => .ret h) ?_
  intro ρ s h
  simp only [h.sf]
  refine Sim.bind (ite_sim (fun _ => recvUR_sim _ _ _ _ h hg) fun _ => .ret h) ?_
  intro ρ s h
  simp only [h.sf]
  refine ite_sim (fun _ => (recvR_sim _ _ _ h).bind ?_) fun _ => .ret h
  rintro ⟨x, ρ'⟩ ⟨y, s'⟩ ⟨-, h'⟩
  exact .ret h'

theorem cleanUpR_sim {ρ : RState V N} {s : PState V N} (h : Rf mine r ρ s) :
    Sim (Rf mine r) (E.cleanUpR r ρ) (E.cleanUpP r s) := by
  have hpos := hE.valid.pos
  have hL : E.L - 1 < E.ts.length := by unfold Cfg.L; omega
  unfold Cfg.cleanUpR Cfg.cleanUpP
  refine .wait (ite_sim (fun _ => .ret h) fun _ => ?_)
  refine Sim.bind (Sim.forIn _ (fun l _ ρ s h => cleanSendR_sim hE hU hr (l := l) h) h) ?_
  intro ρ s h
  simp only [h.u]
  refine Sim.bind (ite_sim (fun _ => sendR_sim _ _ _ _ h) fun _ => .ret h) ?_
  intro ρ s h
  simp only [h.u]
  refine Sim.bind (ite_sim (fun _ => sendR_sim _ _ _ _ h) fun _ => .ret h) ?_
  intro ρ s h
  have e1 : ρ.obj.finIt = s.finIt := by rw [← h.vals]; rfl
  have e2 : ρ.obj.preIt = s.preIt := by rw [← h.vals]; rfl
  rw [e1, e2]
  refine Sim.bind (Q := Rf mine r) (ite_sim (fun _ => ?_) fun _ => .ret h) fun ρ s h => .wait (.ret h)
  refine Sim.bind (Sim.forIn (List.range (E.L - 1)) (fun l hl ρ s h => cleanRecvR_sim hE hU hr (l := l)
    (by have := List.mem_range.1 hl; omega) h) h) ?_
  intro ρ s h
  simp only [h.sf]
  refine Sim.bind (ite_sim (fun _ => recvUR_sim _ _ _ _ h (getFrom_none hE hr hL)) fun _ => .ret h) ?_
  intro ρ s h
  simp only [h.sf]
  exact ite_sim (fun _ => recvUR_sim _ _ _ _ h (getFrom_none hE hr hpos)) fun _ => .ret h

theorem outputR_rf {ρ : RState V N} {s : PState V N} (h : Rf mine r ρ s) :
    Rf mine r (Cfg.outputR ρ) (Cfg.outputP s) := by
  obtain ⟨hi, hu, rfl⟩ := h
  exact Rf.scal ⟨hi, hu, rfl⟩ ρ.obj _ rfl rfl rfl rfl

theorem solveLoopR_sim (k it : Nat) {ρ : RState V N} {s : PState V N} (h : Rf mine r ρ s) :
    Sim (Rf mine r) (E.solveLoopR U r k it ρ) (E.solveLoopP r k it s) := by
  have hpos := hE.valid.pos
  induction k generalizing it ρ s with
  | zero => exact .ret h
  | succ k ih =>
    have h0 : Rf mine r { ρ with obj := { ρ.obj with solveIter := it + 1 } }
        { s with solveIter := it + 1 } := by
      obtain ⟨hi, hu, rfl⟩ := h
      exact Rf.scal ⟨hi, hu, rfl⟩ _ _ rfl rfl rfl rfl
    refine Sim.bind (iterationR_sim hE hU hr _ _ _ _ _ (by unfold Cfg.L; omega) h0) ?_
    intro ρ s h
    refine Sim.bind (convergenceR_sim hE hU hr _ h) ?_
    intro ρ s h
    have h' : Rf mine r (if E.outLvl = 2 then Cfg.outputR ρ else ρ)
        (if E.outLvl = 2 then Cfg.outputP s else s) := by
      split
      · exact outputR_rf hE hU hr h
      · exact h
    show Sim _ (let ρ := if E.outLvl = 2 then Cfg.outputR ρ else ρ; _)
      (let s := if E.outLvl = 2 then Cfg.outputP s else s; _)
    generalize (if E.outLvl = 2 then Cfg.outputR ρ else ρ) = ρ at *
    generalize (if E.outLvl = 2 then Cfg.outputP s else s) = s at *
    have e1 : ρ.obj.conv = s.conv := by rw [← h'.vals]; rfl
    have e2 : ρ.obj.fin = s.fin := by rw [← h'.vals]; rfl
    have e3 : ρ.obj.pre = s.pre := by rw [← h'.vals]; rfl
    simp only [e1, e2, e3]
    exact ite_sim (fun _ => ite_sim (fun _ => cleanUpR_sim hE hU hr h') fun _ =>
      ite_sim (fun _ => cleanUpR_sim hE hU hr h') fun _ => ih _ h') fun _ => ih _ h'

theorem mainR_sim {ρ : RState V N} {s : PState V N} (h : Rf mine r ρ s) :
    Sim (Rf mine r) (E.mainR U r ρ) (E.mainP r s) := by
  refine Sim.bind (Q := Rf mine r) ?_ ?_
  · refine (Sim.refl _).bind ?_
    rintro _ _ -
    refine Sim.bind (ite_sim (fun _ => nestedIterationR_sim hE hU hr h) fun _ => .ret h) ?_
    intro ρ s h
    have h' : Rf mine r (if E.convCrit = 1 ∨ E.convCrit = 3 then Cfg.saveR ρ else ρ)
        (if E.convCrit = 1 ∨ E.convCrit = 3 then { s with saved := s.u 0 } else s) := by
      split
      · exact h.save
      · exact h
    refine (Sim.refl _).bind ?_
    rintro _ _ -
    refine .ret ?_
    split
    · exact outputR_rf hE hU hr h'
    · exact h'
  · intro ρ s h
    refine Sim.bind (solveLoopR_sim hE hU hr _ _ h) ?_
    intro ρ s h
    refine (Sim.refl _).bind ?_
    rintro _ _ -
    refine .ret ?_
    split
    · exact outputR_rf hE hU hr h
    · exact h

end ops

/-- The initial states are related. -/
theorem initR_rf [Zero N] (offs : Nat → Nat → Nat) (hs : ∀ l, mine ⟨0, l, 0⟩ = E.start l) :
    Rf mine r (E.initR offs mine r) (E.initState offs r) := by
  refine ⟨⟨?_, ?_, ?_, ?_, ?_, ?_, ?_, ?_, ?_⟩, ?_, ?_⟩
  · intro l j; exact ⟨show 0 < 1 by decide, show 1 < 5 by decide⟩
  · intro l j; exact ⟨show 0 < 2 by decide, show 2 < 5 by decide⟩
  · intro l j; exact ⟨show 0 < 3 by decide, show 3 < 5 by decide⟩
  · intro j; exact ⟨show 0 < 4 by decide, show 4 < 5 by decide⟩
  · intro _ l l' j e
    have e : (⟨1, l', j⟩ : Addr) = ⟨1, l, 0⟩ := e
    simpa using e
  · intro _ l l' j e
    have e : (⟨2, l', j⟩ : Addr) = ⟨1, l, 0⟩ := e
    simp at e
  · intro _ l l' j e
    have e : (⟨3, l', j⟩ : Addr) = ⟨1, l, 0⟩ := e
    simp at e
  · intro _ l j e
    have e : (⟨4, 0, j⟩ : Addr) = ⟨1, l, 0⟩ := e
    simp at e
  · exact show 0 < 5 by decide
  · intro a ha
    simp [Cfg.initR, ha]
  · unfold RState.vals Cfg.initState Cfg.initR
    simp [hs]

end Pymgrit
