import Verif.Loc9
import Verif.LocalCex

/-!
# Local residual criterion: every run ends, and the residuals are below the tolerance (C32, C64, C65)

`Cfg.Loc` excludes exactly the cases for which `Verif.LocalCex` shows the opposite: the other local
criterion (`conv_crit = 3`), `cf_iter = 0`, and time norms that may exceed the tolerance although no entry
does.
-/

set_option linter.unusedSectionVars false

namespace Pymgrit

variable {V K T N : Type} [LinearOrder T] [Inhabited T]
variable [Add V] [Sub V] [SMul K V] [One K] [Sub K] [Zero N]

/-- C32, restricted to `Cfg.Loc`.  In every interleaving: the number of steps is bounded; no process raises an
exception; whenever not all processes have returned, some process can make a step; when no step is possible
all processes have returned and every message, also of the clean-up, has been received. -/
theorem C32_partial {E : Cfg V K T N} (h : E.Loc) :
    ∃ n, ∀ k c, StepsN k (startConf E) c →
      k ≤ n ∧ (∀ r msg, c.prog r ≠ Prog.fail msg) ∧
      ((c.Done ∧ ∀ s d t, c.chan s d t = []) ∨ ∃ c', Step c c') := by
  obtain ⟨s, hs, -⟩ := Cfg.local_final h
  obtain ⟨n, hn⟩ := complete_of_steps hs (fun r => ⟨_, rfl⟩)
  refine ⟨n, fun k c hk => ?_⟩
  obtain ⟨h1, -, h3, h4⟩ := hn k c hk
  refine ⟨h1, h4, ?_⟩
  rcases h3 with rfl | h3
  · exact Or.inl ⟨fun r => ⟨_, rfl⟩, fun _ _ _ => rfl⟩
  · exact Or.inr h3

/-- An execution that cannot be continued ends in the configuration of `Cfg.local_final`. -/
theorem local_end {E : Cfg V K T N} {F : Nat → PState V N} (h : Steps (startConf E) ⟨fun r => Prog.ret (F r), Chans.empty⟩)
    {c : Conf E.P (Msg V N) (PState V N)} (hc : Steps (startConf E) c) (hst : ∀ d, ¬ Step c d) :
    c = ⟨fun r => Prog.ret (F r), Chans.empty⟩ := by
  obtain ⟨n, hn⟩ := complete_of_steps h (fun r => ⟨_, rfl⟩)
  obtain ⟨k, hk⟩ := hc.toN
  rcases (hn k c hk).2.2.1 with e | ⟨e, he⟩
  · exact e
  · exact absurd he (hst e)

/-- C66.  With the local residual criterion, too, all executions end in the same configuration. -/
theorem C66_schedule_independent {E : Cfg V K T N} (h : E.Loc)
    {c c' : Conf E.P (Msg V N) (PState V N)} (h1 : Steps (startConf E) c)
    (h2 : Steps (startConf E) c') (hc : ∀ d, ¬ Step c d) (hc' : ∀ d, ¬ Step c' d) : c = c' := by
  obtain ⟨F, hF, -⟩ := Cfg.local_final h
  rw [local_end hF h1 hc, local_end hF h2 hc']

/-- C65.  A process never stops later than its successors, and no process exceeds `max_iter`. -/
theorem C65_stop_order {E : Cfg V K T N} (h : E.Loc)
    {c : Conf E.P (Msg V N) (PState V N)} (hc : Steps (startConf E) c) (hst : ∀ d, ¬ Step c d) :
    ∃ F : Fin E.P → PState V N, (∀ r, c.prog r = Prog.ret (F r)) ∧ (∀ r, (F r).solveIter ≤ E.maxIter) ∧
      ∀ r r', r ≤ r' → (F r).solveIter ≤ (F r').solveIter := by
  obtain ⟨F, hF, h1, h2, -⟩ := Cfg.local_final h
  rw [local_end hF hc hst]
  exact ⟨fun r => F r.val, fun r => rfl, fun r => h1 r.val r.isLt, fun r r' hr => h2 r.val r'.val hr r'.isLt⟩

/-- `X` is the solution put together from what the processes hold at their own points (entry `k` of their
list of points, local index `k` of `index_local`). -/
def Assembled (E : Cfg V K T N) (F : Nat → PState V N) (X : Nat → V) : Prop :=
  ∀ r, r < E.P → ∀ k i j : Nat, (E.info r 0).pts[k]? = some i → (E.info r 0).idx[k]? = some j → X i = (F r).u 0 j

theorem assembled_own {E : Cfg V K T N} (h : E.Base) {F : Nat → PState V N} {X : Nat → V} (hX : Assembled E F X)
    {r i : Nat} (hr : r < E.P) (h1 : lo E.ts E.P 0 r ≤ i) (h2 : i < lo E.ts E.P 0 (r + 1)) :
    X i = (F r).u 0 (i - off E.ts E.P 0 r) := by
  have hS := h.spec hr h.valid.pos
  have ho := h.off_add h.valid.pos (Nat.le_of_lt hr)
  refine hX r hr (i - lo E.ts E.P 0 r) i _ ?_ ?_
  · rw [hS.pts, List.getElem?_eq_some_iff]
    refine ⟨by simp; omega, ?_⟩
    simp
    omega
  · rw [hS.idx, List.getElem?_eq_some_iff]
    refine ⟨by simp; omega, ?_⟩
    simp
    omega

/-- C64.  The local residual criterion guarantees the tolerance: let `X` be the solution put together from
all processes.  At every C-point of a process that stopped before `max_iter` (except the first time) the
residual `‖Φ(X(i-1)) - X(i)‖` is below the tolerance - although neighbouring processes may have stopped in
different iterations.  Neighbouring C-points separated by a process boundary are excluded (see finding on
C-points next to each other). -/
theorem C64_tolerance {E : Cfg V K T N} (h : E.Loc)
    (hcc : ∀ r, r < E.P → 0 < lo E.ts E.P 0 r →
      ¬ (lo E.ts E.P 0 r - 1 ∈ allC E.ts 0 ∧ lo E.ts E.P 0 r ∈ allC E.ts 0))
    {c : Conf E.P (Msg V N) (PState V N)} (hc : Steps (startConf E) c) (hst : ∀ d, ¬ Step c d) :
    ∃ F : Nat → PState V N, (∀ r : Fin E.P, c.prog r = Prog.ret (F r)) ∧
      ∀ X, Assembled E F X → ∀ r, r < E.P → (F r).solveIter < E.maxIter → ∀ i ∈ (E.info r 0).cpts, i ≠ 0 →
        E.ltTol (E.norm (E.step 0 (X (i - 1)) (tAt (grid E.ts 0) (i - 1)) (tAt (grid E.ts 0) i) - X i)) = true := by
  obtain ⟨F, hF, -, -, h3⟩ := Cfg.local_final h
  refine ⟨F, fun r => by rw [local_end hF hc hst], ?_⟩
  intro X hX r hr hlt i hi hi0
  have hb := h.toBase
  have hpos := h.valid.pos
  have hS := hb.spec hr hpos
  have ho := hb.off_add hpos (Nat.le_of_lt hr)
  have hlo := Cfg.lo_lt hb hr
  obtain ⟨w, w1, w2, w3, w4⟩ := h3 r hr hlt
  have hi' := hi
  rw [hS.cpts, List.mem_filter, decide_eq_true_eq, hS.pts, List.mem_range'_1] at hi'
  obtain ⟨⟨hi1, hi2⟩, hiC⟩ := hi'
  have hi2 : i < lo E.ts E.P 0 (r + 1) := by omega
  set j := i - off E.ts E.P 0 r with hj
  have hgh : gh r = if r = 0 then 0 else 1 := rfl
  have hj0 : j ≠ 0 := by
    by_cases h0 : r = 0
    · rw [if_pos h0] at hgh
      have := hb.lo_zero (l := 0) hpos
      subst h0
      omega
    · rw [if_neg h0] at hgh
      omega
  have hmem : j ∈ (E.info r 0).idxC.filter fun j => decide (r ≠ 0 ∨ j ≠ 0) := by
    rw [List.mem_filter]
    refine ⟨?_, by simp [hj0]⟩
    rw [hS.idxC]
    exact List.mem_map_of_mem hi
  have hv := List.all_eq_true.1 w4 _ (List.mem_map_of_mem (f := fun j => E.norm (E.stepAt r 0 j w - w j)) hmem)
  have hprev : Cfg.pyPrev (E.len r 0) j = j - 1 := by
    unfold Cfg.pyPrev
    rw [if_neg hj0]
  have e1 : w j = X i := by
    rw [assembled_own hb hX hr hi1 hi2]
    exact w1 j hj0
  have t1 : tAt (E.info r 0).t j = tAt (grid E.ts 0) i := hS.t_at hlo i (by omega) hi2
  have t2 : tAt (E.info r 0).t (j - 1) = tAt (grid E.ts 0) (i - 1) := by
    have := hS.t_at hlo (i - 1) (by omega) (by omega)
    rwa [show i - 1 - off E.ts E.P 0 r = j - 1 by omega] at this
  have e2 : w (j - 1) = X (i - 1) := by
    by_cases h0 : r = 0
    · rw [w2 h0]
      have hz := hb.lo_zero (l := 0) hpos
      subst h0
      rw [assembled_own hb hX hr (by omega) (show i - 1 < _ by omega)]
      congr 1
      omega
    · rw [if_neg h0] at hgh
      by_cases hj1 : j - 1 = 0
      · have hil : i = lo E.ts E.P 0 r := by omega
        have hnc : lo E.ts E.P 0 r - 1 ∉ allC E.ts 0 := fun hx => hcc r hr (by omega) ⟨hx, hil ▸ hiC⟩
        have hfc : (E.info r 0).firstC = true := hS.firstC.2 ⟨hlo, by omega, hil ▸ hiC, hnc⟩
        obtain ⟨p, hp⟩ := hb.recvFlag_some (l := 0) (op := 7) hpos hr hfc
        have hpv : E.pv r (0, 7) = some p := by rw [Cfg.pv_ne6 (by decide)]; exact hp
        have hrp := Cfg.pv_fine hb hr (x := (0, 7)) rfl (by simp) hpv
        subst hrp
        have hSp := hb.spec (r := p) (by omega) hpos
        have hlop := Cfg.lo_lt hb (r := p) (by omega)
        have hop := hb.off_add (l := 0) (r := p) hpos (by omega)
        rw [hj1, w3 p hpv, assembled_own hb hX (r := p) (by omega) (by omega) (show i - 1 < _ by omega)]
        unfold Cfg.len
        rw [hSp.t_len, if_pos hlop]
        congr 1
        omega
      · rw [w1 (j - 1) hj1, assembled_own hb hX hr (by omega) (show i - 1 < _ by omega)]
        congr 1
        omega
  unfold Cfg.stepAt at hv
  rw [hprev, e1, e2, t1, t2] at hv
  exact hv

/-! ### The clean-up changes nothing -/

/-- Every message the program can send satisfies `Q`. -/
def Prog.Sends {M α : Type} (Q : Nat → Nat → M → Prop) : Prog M α → Prop
  | .ret _ => True
  | .send d t m k => Q d t m ∧ k.Sends Q
  | .recv _ _ k => ∀ m, (k m).Sends Q
  | .wait k => k.Sends Q
  | .fail _ => True

theorem Prog.Sends.bind {M α β : Type} {Q : Nat → Nat → M → Prop} {R : α → Prop} {p : Prog M α}
    {f : α → Prog M β} (h : p.Sends Q) (hR : p.Rets R) (hf : ∀ a, R a → (f a).Sends Q) : (p.bind f).Sends Q := by
  induction p with
  | ret a => exact hf a hR
  | send d t m k ih => exact ⟨h.1, ih h.2 hR⟩
  | recv s t k ih => exact fun m => ih m (h m) (hR m)
  | wait k ih => exact ih h hR
  | fail => trivial

section clean
variable {E : Cfg V K T N} {r : Nat}

theorem sends_ite {Q : Nat → Nat → Msg V N → Prop} {c : Prop} [Decidable c]
    {p : Prog (Msg V N) (PState V N)} {s : PState V N} (hp : p.Sends Q) : (if c then p else .ret s).Sends Q := by
  split
  · exact hp
  · trivial

theorem sends_recvP {Q : Nat → Nat → Msg V N → Prop} {src : Option Nat} {l op : Nat} {s : PState V N} :
    (E.recvP src l op s).Sends Q := by
  unfold Cfg.recvP
  split
  · trivial
  · intro m
    show Prog.Sends Q (if _ then _ else _)
    split <;> trivial

theorem sends_recvU {Q : Nat → Nat → Msg V N → Prop} {src : Option Nat} {l op lu : Nat} {s : PState V N} :
    (E.recvU src l op lu s).Sends Q := by
  refine Prog.Sends.bind (R := fun _ => True) sends_recvP (Cfg.rets_recvP fun _ _ _ => trivial) ?_
  rintro ⟨x, s'⟩ -
  dsimp only
  split <;> trivial

theorem Prog.Sends.mono {M α : Type} {Q Q' : Nat → Nat → M → Prop} (h : ∀ d t m, Q d t m → Q' d t m)
    {p : Prog M α} (hp : p.Sends Q) : p.Sends Q' := by
  induction p with
  | ret => trivial
  | send d t m k ih => exact ⟨h _ _ _ hp.1, ih hp.2⟩
  | recv s t k ih => exact fun m => ih m (hp m)
  | wait k ih => exact ih hp
  | fail => trivial

theorem rets_true {p : Prog (Msg V N) (PState V N)} : p.Rets fun _ => True := by
  induction p with
  | ret => trivial
  | send d t m k ih => exact ih
  | recv s t k ih => exact fun m => ih m
  | wait k ih => exact ih
  | fail => trivial

theorem sends_forIn {ι : Type} {Q : Nat → Nat → Msg V N → Prop} {R : PState V N → Prop}
    {f : PState V N → ι → Prog (Msg V N) (PState V N)} (hR : ∀ s i, R s → (f s i).Rets R)
    (hf : ∀ s i, R s → (f s i).Sends Q) (xs : List ι) {s : PState V N} (h : R s) : (Prog.forIn' xs f s).Sends Q := by
  induction xs generalizing s with
  | nil => trivial
  | cons i xs ih => exact Prog.Sends.bind (hf s i h) (hR s i h) fun s' hs' => ih hs'

/-- C31, the clean-up of a process that stops under a local criterion: whatever it receives, every message it
sends carries the value it had, on the level of the message, at its last point (operation 4: its last C-point;
operation 5, on the coarsest level: the last of its own points), and it ends with all its values at own
points and its iteration count unchanged. -/
theorem C31_clean_up (hg : E.global = false) (s : PState V N) :
    (E.cleanUpP r s).Sends (fun _ _ m => m.data = .vec (s.u m.lvl (if m.op = 4 then
      (E.info r m.lvl).idxC.getLastD 0 else if m.op = 5 then (E.info r m.lvl).idx.getLastD 0
      else E.len r m.lvl - 1))) ∧
    (E.cleanUpP r s).Rets fun s' => (∀ l j, j ≠ 0 → s'.u l j = s.u l j) ∧ s'.solveIter = s.solveIter := by
  rw [Cfg.cleanUpP_eq' hg]
  constructor
  · set Q : Nat → Nat → Msg V N → Prop := fun _ _ m => m.data = .vec (s.u m.lvl (if m.op = 4 then
      (E.info r m.lvl).idxC.getLastD 0 else if m.op = 5 then (E.info r m.lvl).idx.getLastD 0
      else E.len r m.lvl - 1)) with hQ
    set R : PState V N → Prop := fun s' => s'.u = s.u with hR
    have hsnd : ∀ {s' : PState V N} {dst l op j}, R s' → (j = if op = 4 then (E.info r l).idxC.getLastD 0
        else if op = 5 then (E.info r l).idx.getLastD 0 else E.len r l - 1) →
        (E.sendP dst l op (.vec (s'.u l j)) s').Sends Q := by
      intro s' dst l op j h hj
      unfold Cfg.sendP
      split
      · trivial
      · exact ⟨by rw [hQ, h, hj], trivial⟩
    have hret : ∀ {s' : PState V N} {dst l op x}, R s' → (E.sendP dst l op x s').Rets R :=
      fun h => Cfg.rets_sendP fun c => h
    have hone : ∀ (s' : PState V N) (l : Nat), R s' → (E.cleanSend r s' l).Sends Q ∧ (E.cleanSend r s' l).Rets R := by
      intro s' l h
      constructor
      · refine Prog.Sends.bind (sends_ite (hsnd h rfl)) (Cfg.rets_ite h (hret h)) fun s' h => ?_
        refine Prog.Sends.bind (sends_ite (hsnd h rfl)) (Cfg.rets_ite h (hret h)) fun s' h => ?_
        refine Prog.Sends.bind (sends_ite (hsnd h rfl)) (Cfg.rets_ite h (hret h)) fun s' h => ?_
        refine Prog.Sends.bind (sends_ite (hsnd h rfl)) (Cfg.rets_ite h (hret h)) fun s' h => ?_
        exact sends_ite (hsnd h rfl)
      · refine Prog.Rets.bind (Cfg.rets_ite h (hret h)) fun s' h => ?_
        refine Prog.Rets.bind (Cfg.rets_ite h (hret h)) fun s' h => ?_
        refine Prog.Rets.bind (Cfg.rets_ite h (hret h)) fun s' h => ?_
        refine Prog.Rets.bind (Cfg.rets_ite h (hret h)) fun s' h => ?_
        exact Cfg.rets_ite h (hret h)
    refine Prog.Sends.bind (R := fun _ => True) ?_ rets_true fun _ _ => trivial
    refine Prog.Sends.bind (R := fun _ => True) ?_ rets_true fun s' _ => ?_
    · refine Prog.Sends.bind (sends_forIn (R := R) (fun s' l h => (hone s' l h).2) (fun s' l h => (hone s' l h).1) _ rfl)
        (Cfg.rets_forIn (fun s' l h => (hone s' l h).2) _ rfl) fun s' h => ?_
      refine Prog.Sends.bind (sends_ite (hsnd h rfl)) (Cfg.rets_ite h (hret h)) fun s' h => ?_
      exact sends_ite (hsnd h rfl)
    · refine sends_ite ?_
      refine Prog.Sends.bind (R := fun _ => True) (sends_forIn (R := fun _ => True) (fun _ _ _ => rets_true)
        (fun s' l _ => ?_) _ trivial) rets_true fun s' _ => ?_
      · refine Prog.Sends.bind (R := fun _ => True) (sends_ite sends_recvU) rets_true fun s' _ => ?_
        refine Prog.Sends.bind (R := fun _ => True) (sends_ite sends_recvU) rets_true fun s' _ => ?_
        refine Prog.Sends.bind (R := fun _ => True) (sends_ite sends_recvU) rets_true fun s' _ => ?_
        refine Prog.Sends.bind (R := fun _ => True) (sends_ite sends_recvU) rets_true fun s' _ => ?_
        exact sends_ite (Prog.Sends.bind (R := fun _ => True) sends_recvP (Cfg.rets_recvP fun _ _ _ => trivial)
          fun _ _ => trivial)
      · refine Prog.Sends.bind (R := fun _ => True) (sends_ite sends_recvU) rets_true fun s' _ => ?_
        exact sends_ite sends_recvU
  · show Prog.Rets _ _
    refine Prog.Rets.bind (Prog.Rets.bind (Cfg.cleanSendP_rets s) fun s1 h1 => ?_) fun s' h => h
    obtain ⟨h1, -, h2, -⟩ := h1
    split
    · refine Prog.Rets.bind (f := Prog.ret) (Cfg.cleanRecvP_rets s1) (fun s2 hs => ?_) |> fun h => by
        rwa [Prog.bind_ret] at h
      exact ⟨fun l j hj => by rw [hs.1 l j hj, h1], hs.2.trans h2⟩
    · exact ⟨fun l j _ => by rw [h1], h2⟩

/-- **C33 (partial)**: without spatial coarsening (restriction is the identity) the value that the clean-up
sends for the coarse right-hand side is the restricted value.  Missing: spatial coarsening, where it is the
unrestricted vector (`C33_counterexample`). -/
theorem C33_partial (hg : E.global = false) (s : PState V N) (hR : ∀ l x, E.R l x = x) :
    (E.cleanUpP r s).Sends fun _ _ m => m.op = 4 →
      m.data = .vec (E.R m.lvl (s.u m.lvl ((E.info r m.lvl).idxC.getLastD 0))) :=
  Prog.Sends.mono (fun _ _ m h h4 => by rw [h, if_pos h4, hR]) (C31_clean_up hg s).1

end clean

/-! ### Examples -/

theorem maxNorm_lt {xs : List Int} {m : Int} (hm : 0 < m) (h : xs.all (fun x => decide (x < m)) = true) :
    maxNorm xs < m := by
  unfold maxNorm
  have : ∀ (xs : List Int) (a : Int), a < m → xs.all (fun x => decide (x < m)) = true → xs.foldl max a < m := by
    intro xs
    induction xs with
    | nil => exact fun a ha _ => ha
    | cons x xs ih =>
      intro a ha h
      rw [List.all_cons, Bool.and_eq_true, decide_eq_true_eq] at h
      exact ih _ (max_lt ha h.1) h.2
  exact this xs 0 hm h

theorem lateGrid_valid : Valid [List.range 8, [0, 2, 4, 6]] where
  pos := by decide
  ne0 := by decide
  sorted := by
    intro l
    match l with
    | 0 => decide
    | 1 => decide
    | _ + 2 => exact List.Pairwise.nil
  nested := by
    intro l hl
    match l with
    | 0 => decide
    | _ + 1 => exact absurd hl (by simp)
  start := by
    intro l hl
    match l with
    | 0 => rfl
    | 1 => rfl
    | _ + 2 => exact absurd hl (by simp)

/-- The hypotheses hold for a run in which the processes stop in different iterations. -/
theorem lateCfg_loc : (lateCfg 2 1).Loc where
  valid := lateGrid_valid
  Ppos := by decide
  PN := by decide
  ord := fun r l hr hl => ordOK_id lateGrid_valid (by decide) hl hr
  crit := rfl
  cfpos := fun _ _ => Nat.le_refl _
  norm := fun xs _ hx => by
    have : maxNorm xs < 1 := maxNorm_lt (by decide) hx
    simpa [lateCfg] using this

theorem lateCfg_noCC (r : Nat) (_ : r < (lateCfg 2 1).P) (_ : 0 < lo (lateCfg 2 1).ts (lateCfg 2 1).P 0 r) :
    ¬ (lo (lateCfg 2 1).ts (lateCfg 2 1).P 0 r - 1 ∈ allC (lateCfg 2 1).ts 0 ∧
      lo (lateCfg 2 1).ts (lateCfg 2 1).P 0 r ∈ allC (lateCfg 2 1).ts 0) := by
  have e : allC (lateCfg 2 1).ts 0 = [0, 2, 4, 6] := by decide +kernel
  rw [e]
  simp
  omega

def iterOf : Prog (Msg Int Int) (PState Int Int) → Option Nat
  | .ret s => some s.solveIter
  | _ => none

/-- C64, C65 on an example: process 0 stops after one iteration, process 1 after two, `max_iter` is 6; the
residuals at the C-points 2, 4 and 6 are below 1. -/
example {c : Conf 2 (Msg Int Int) (PState Int Int)}
    (hc : Steps (startConf (lateCfg 2 1)) c) (hst : ∀ d, ¬ Step c d) :
    ∃ F : Nat → PState Int Int, (F 0).solveIter = 1 ∧ (F 1).solveIter = 2 ∧
      ∀ X, Assembled (lateCfg 2 1) F X → |X 1 - X 2| < 1 ∧ |X 3 - X 4| < 1 ∧ |X 5 - X 6| < 1 := by
  obtain ⟨F, h1, h2⟩ := C64_tolerance lateCfg_loc lateCfg_noCC hc hst
  set res := (exec 2 1000 10 ((List.range 2).map fun r => (lateCfg 2 1).mainP r
    ((lateCfg 2 1).initState (fun r l => off (lateCfg 2 1).ts 2 l r) r)) []).1 with hres
  have hall : res.all isRet = true := by decide +kernel
  have e0 : iterOf (res.getD 0 (.fail "")) = some 1 := by decide +kernel
  have e1 : iterOf (res.getD 1 (.fail "")) = some 2 := by decide +kernel
  have h0' := exec_final (lateCfg 2 1) 1000 10 res rfl hall hc hst (0 : Fin 2)
  have h1' := exec_final (lateCfg 2 1) 1000 10 res rfl hall hc hst (1 : Fin 2)
  clear_value res
  have f0 := h1 (0 : Fin 2)
  have f1 := h1 (1 : Fin 2)
  rw [f0] at h0'
  rw [f1] at h1'
  simp only [Fin.isValue, Fin.val_zero, Fin.val_one] at h0' h1'
  rw [← h0'] at e0
  rw [← h1'] at e1
  have i0 : (F 0).solveIter = 1 := Option.some.inj e0
  have i1 : (F 1).solveIter = 2 := Option.some.inj e1
  refine ⟨F, i0, i1, fun X hX => ?_⟩
  have c0 : ((lateCfg 2 1).info 0 0).cpts = [0, 2] := by decide +kernel
  have c1 : ((lateCfg 2 1).info 1 0).cpts = [4, 6] := by decide +kernel
  have k2 := h2 X hX 0 (by decide) (by rw [i0]; decide) 2 (by rw [c0]; simp) (by decide)
  have k4 := h2 X hX 1 (by decide) (by rw [i1]; decide) 4 (by rw [c1]; simp) (by decide)
  have k6 := h2 X hX 1 (by decide) (by rw [i1]; decide) 6 (by rw [c1]; simp) (by decide)
  simp only [lateCfg, normCfg, decide_eq_true_eq] at k2 k4 k6
  exact ⟨k2, k4, k6⟩

end Pymgrit
