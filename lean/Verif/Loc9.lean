import Verif.Loc8
import Verif.PropsDist

/-!
# Local criteria: complete runs
-/

set_option linter.unusedSectionVars false

namespace Pymgrit

variable {V K T N : Type} [LinearOrder T] [Inhabited T]

namespace Cfg
variable {E : Cfg V K T N} [Add V] [Sub V] [SMul K V] [One K] [Sub K]

/-- Counters of senders and receivers agree, nobody has finished. -/
structure Sync (E : Cfg V K T N) (S : Nat → PState V N) : Prop where
  sf : ∀ r, r < E.P → ∀ x, E.SlotOK x → ∀ p, E.pv r x = some p → (S r).sf x.1 x.2 = false
  tags : ∀ r, r < E.P → ∀ x, E.SlotOK x → ∀ p, E.pv r x = some p → (S p).tagS x.1 x.2 = (S r).tagR x.1 x.2

theorem nested_runs (h : E.Base) (hg : E.global = false) {S : Nat → PState V N} (hS : Sync E S)
    (hfin : ∀ r, r < E.P → (S r).fin = false) :
    ∃ S', Runs E.P (fun r => E.nestedIterationP r (S r)) S' ∧ Sync E S' ∧ ∀ r, r < E.P → Same (S r) (S' r) := by
  have : Inhabited (List (Ev (Msg V N)) × PState V N) := ⟨([], S 0)⟩
  obtain ⟨f, hf⟩ := rank_build E.P (X := List (Ev (Msg V N)) × PState V N)
    (fun f r x => Tr (E.nestedIterationP r (S r)) x.1 x.2 ∧ (∀ q, inbox (fun _ _ => []) f r q = rcvs q x.1) ∧
      E.Eff r (fun _ => false) E.nestedS E.nestedS (S r) x.1 x.2)
    (fun f g r x hfg hx => by rw [← inbox_congr hfg]; exact hx)
    (fun r hr f hf => by
      have hF : E.Feed r (fun _ => false) (E.nestedS ++ []) (S r) (inbox (fun _ _ => []) f r) := by
        rw [List.append_nil]
        refine ⟨fun p => ?_, fun p x hx hop => ?_, fun p x hx hop => ?_⟩
        · unfold inbox
          split
          · rename_i hpr
            rw [List.nil_append, (hf p hpr).2.2.sndLab, labR_false]
            · refine lab_congr (fun x hx => nx_pv h (nestedS_ok h hx).1 (by omega) hr) fun x hx hl => ?_
              exact hS.tags r hr x (nestedS_ok h hx).1 p ((nx_pv h (nestedS_ok h hx).1 (by omega) hr).1 hl)
            · intro x hx hl
              exact hS.sf r hr x (nestedS_ok h hx).1 p hl
          · rename_i hpr
            rw [labR_none fun x hx hl => absurd (pv_dn h (nestedS_ok h hx).1 hr hl) hpr]
            rfl
        · obtain ⟨t, m⟩ := x
          unfold inbox at hx
          split at hx
          · rename_i hpr
            rw [List.nil_append] at hx
            obtain ⟨c1, c2, -⟩ := (hf p hpr).2.2.sndMsg r t m (mem_snds hx)
            exact ⟨c1.trans (hfin p (by omega)), c2⟩
          · cases hx
        · obtain ⟨t, m⟩ := x
          unfold inbox at hx
          split at hx
          · rename_i hpr
            rw [List.nil_append] at hx
            obtain ⟨-, -, c3, -⟩ := (hf p hpr).2.2.sndMsg r t m (mem_snds hx)
            exact absurd hop (nestedS_ok h c3).2
          · cases hx
      obtain ⟨es, s', In', a1, a2, a3, a4⟩ := nestedIteration_st h hg hr _ _ _ hF
      refine ⟨(es, s'), a1, fun q => ?_, a4⟩
      have : In' q = [] := by
        have := a3.lab q
        simpa [labR] using this
      rw [a2, this, List.append_nil])
  refine ⟨fun r => (f r).2, fun β k => ?_, ⟨fun r hr x hx p hp => ?_, fun r hr x hx p hp => ?_⟩,
    fun r hr => (hf r hr).2.2.same⟩
  · rw [← Queues.chans_empty]
    refine phase_steps _ _ (fun r => (f r).1) _ _ (fun r => (hf r.val r.isLt).1 _ _) (fun r hr d t m hm => ?_)
      (fun r hr s t m hm => ?_) (fun s d hsd hd => ?_) fun s d hsd => rfl
    · obtain ⟨-, -, c3, c4⟩ := (hf r hr).2.2.sndMsg d t m hm
      exact nx_up h (nestedS_ok h c3).1 hr c4
    · obtain ⟨x, c3, c4⟩ := (hf r hr).2.2.rcvSrc s t m hm
      exact pv_dn h (nestedS_ok h c3).1 hr c4
    · have := (hf d hd).2.1 s
      unfold inbox at this
      rw [if_pos hsd] at this
      rw [this, List.append_nil]
  · exact ((hf r hr).2.2.tagR x p hp rfl (hS.sf r hr x hx p hp)).2
  · have hpr := pv_dn h hx hr hp
    show (f p).2.tagS x.1 x.2 = (f r).2.tagR x.1 x.2
    rw [((hf r hr).2.2.tagR x p hp rfl (hS.sf r hr x hx p hp)).1, (hf p (by omega)).2.2.tagS x,
      (nx_pv h hx (by omega) hr).2 hp, hS.tags r hr x hx p hp]
    simp

/-- The constructor of all processes. -/
theorem loc_setup_runs (h : E.Loc) {S : Nat → PState V N} (hS : Sync E S) (hfin : ∀ r, r < E.P → (S r).fin = false) :
    ∃ S', Runs E.P (fun r => E.setupP r (S r)) S' ∧ Sync E S' ∧ ∀ r, r < E.P → (S' r).fin = (S r).fin ∧
      (S' r).pre = (S r).pre ∧ (S' r).preIt = (S r).preIt ∧ (S' r).solveIter = (S r).solveIter := by
  have hb := h.toBase
  have hc : ¬ (E.convCrit = 1 ∨ E.convCrit = 3) := by rw [h.crit]; decide
  obtain ⟨S1, r1, hS1, hsame⟩ : ∃ S1, Runs E.P (fun r => if E.nested then E.nestedIterationP r (S r) else .ret (S r)) S1 ∧
      Sync E S1 ∧ ∀ r, r < E.P → Same (S r) (S1 r) := by
    by_cases hn : E.nested = true
    · obtain ⟨S1, a, b, c⟩ := nested_runs hb h.glob hS hfin
      exact ⟨S1, by simpa [hn] using a, b, c⟩
    · exact ⟨S, by simpa [hn] using Runs.ret S, hS, fun r _ => .refl _⟩
  refine ⟨fun r => if E.outLvl = 2 then outputP (S1 r) else S1 r, ?_, ⟨fun r hr x hx p hp => ?_, fun r hr x hx p hp => ?_⟩,
    fun r hr => ?_⟩
  · have r2 : Runs E.P (fun r => if E.maxIter = 0 then E.barrierP r else .ret ()) (fun _ => ()) := by
      by_cases hm : E.maxIter = 0
      · simpa [hm] using barrierP_runs' h.Ppos
      · simpa [hm] using Runs.ret (fun _ => ())
    have := (barrierP_runs' (E := E) h.Ppos).bind (g := fun r _ =>
        (if E.nested then E.nestedIterationP r (S r) else .ret (S r)).bind fun s =>
        let s := if E.convCrit = 1 ∨ E.convCrit = 3 then { s with saved := s.u 0 } else s
        (if E.maxIter = 0 then E.barrierP r else .ret ()).bind fun _ =>
        .ret (if E.outLvl = 2 then outputP s else s)) (b := fun r => if E.outLvl = 2 then outputP (S1 r) else S1 r)
      (r1.bind (g := fun r s =>
        let s := if E.convCrit = 1 ∨ E.convCrit = 3 then { s with saved := s.u 0 } else s
        (if E.maxIter = 0 then E.barrierP r else .ret ()).bind fun _ =>
        .ret (if E.outLvl = 2 then outputP s else s)) (by
          simp only [if_neg hc]
          exact r2.bind (g := fun r _ => .ret (if E.outLvl = 2 then outputP (S1 r) else S1 r)) (Runs.ret _)))
    exact this
  · have := hS1.sf r hr x hx p hp
    split <;> exact this
  · have := hS1.tags r hr x hx p hp
    split <;> exact this
  · obtain ⟨-, -, c1, -, c2, c3, c4, -⟩ := hsame r hr
    dsimp only
    split <;> exact ⟨c1, c2, c3, c4⟩

theorem stage_init (h : E.Loc) {S : Nat → PState V N} (hS : Sync E S) (hfin : ∀ r, r < E.P → (S r).fin = false)
    (hpre : (S 0).pre = true) (hpreIt : (S 0).preIt = some 0) : Stage E 0 0 0 S fun _ _ => [] := by
  constructor
  case le0 => exact Nat.le_refl _
  case le => exact Nat.zero_le _
  case pos => exact fun h => absurd h (Nat.lt_irrefl _)
  case qnil => exact fun _ _ _ => rfl
  case qlab => exact fun p d _ h => absurd h (Nat.not_lt_zero _)
  case qmsg => intro p d t m hm; cases hm
  case actFin => exact fun r _ hr => hfin r hr
  case actPre => exact fun _ => ⟨hpre, 0, Nat.le_refl _, hpreIt⟩
  case actSf6 =>
    intro r _ hr h0
    have : ¬ r = 0 := by omega
    have hp : E.pv r ((0, 6) : Slot) = some (r - 1) := by simp [pv, h0]
    rw [hS.sf r hr (0, 6) h.valid.pos (r - 1) hp]
    simp [this]
  case sfT => exact fun r _ hr x hx p hp h0 => absurd h0 (Nat.not_lt_zero _)
  case sfF => exact fun r _ hr x hx hx6 p hp _ => hS.sf r hr x hx p hp
  case tags => exact fun r _ hr x hx p hp _ => hS.tags r hr x hx p hp
  case ghost => exact fun r _ hr p hp h0 => absurd h0 (Nat.not_lt_zero _)
  case fini => exact fun r h0 => absurd h0 (Nat.not_lt_zero _)
  case mono => exact fun r r' _ h0 => absurd h0 (Nat.not_lt_zero _)

/-- All iterations. -/
theorem loop_steps (h : E.Loc) {β : Type} (K : Nat → PState V N → Prog (Msg V N) β) (k : Nat) :
    ∀ {a0 a it : Nat} {S : Nat → PState V N} {Q : Queues (Msg V N)}, it + (k + 1) = E.maxIter → Stage E a0 a it S Q →
      ∃ a1 S' Q', Stage E a1 E.P E.maxIter S' Q' ∧
        Steps (E.stageConf a (k + 1) it S Q K) (⟨fun r => K r.val (S' r.val), Chans.empty⟩ : Conf E.P _ β) := by
  induction k with
  | zero =>
    intro a0 a it S Q hk hs
    obtain ⟨b, S', Q', h1, h2, h3⟩ := hs.step h (by omega) 0 K
    have hb := h2 (by omega)
    subst hb
    rw [show it + 1 = E.maxIter by omega] at h1
    refine ⟨a, S', Q', h1, h3.trans ?_⟩
    have hQ : Q' = fun _ _ => [] := by
      funext p d
      exact h1.qnil p d (by omega)
    unfold stageConf
    rw [hQ, Queues.chans_empty]
    refine wait_steps _ _ _ fun r => .inr ⟨?_, fun _ _ => rfl⟩
    rw [if_pos r.isLt]
    rfl
  | succ k ih =>
    intro a0 a it S Q hk hs
    obtain ⟨b, S', Q', h1, -, h3⟩ := hs.step h (by omega) (k + 1) K
    obtain ⟨a1, S2, Q2, h4, h5⟩ := ih (by omega) h1
    exact ⟨a1, S2, Q2, h4, h3.trans h5⟩

variable [Zero N]

/-- Every run ends, and the final states. -/
theorem local_final (h : E.Loc) : ∃ F : Nat → PState V N,
    Steps (startConf E) ⟨fun r => Prog.ret (F r), Chans.empty⟩ ∧
    (∀ r, r < E.P → (F r).solveIter ≤ E.maxIter) ∧
    (∀ r r', r ≤ r' → r' < E.P → (F r).solveIter ≤ (F r').solveIter) ∧
    ∀ r, r < E.P → (F r).solveIter < E.maxIter → ∃ w : Nat → V, (∀ j, j ≠ 0 → w j = (F r).u 0 j) ∧
      (r = 0 → w = (F r).u 0) ∧ (∀ p, E.pv r (0, 7) = some p → w 0 = (F p).u 0 (E.len p 0 - 1)) ∧
      (E.valsU r w).all E.ltTol = true := by
  set S0 : Nat → PState V N := fun r => E.initState (fun r l => off E.ts E.P l r) r with hS0
  have hsync : Sync E S0 := ⟨fun _ _ _ _ _ _ => rfl, fun _ _ _ _ _ _ => rfl⟩
  obtain ⟨S1, r1, hS1, hp⟩ := loc_setup_runs h hsync fun _ _ => rfl
  have hstage := stage_init h hS1 (fun r hr => (hp r hr).1) (hp 0 h.Ppos).2.1 (hp 0 h.Ppos).2.2.1
  set out : PState V N → PState V N := fun s => if E.outLvl = 1 then outputP s else s with hout
  have o1 : ∀ s, (out s).u = s.u := fun s => by rw [hout]; dsimp only; split <;> rfl
  have o2 : ∀ s, (out s).solveIter = s.solveIter := fun s => by rw [hout]; dsimp only; split <;> rfl
  have tail : ∀ S : Nat → PState V N, Steps (⟨fun r : Fin E.P => (E.barrierP r.val).bind fun _ => Prog.ret (out (S r.val)),
      Chans.empty⟩ : Conf E.P (Msg V N) (PState V N)) ⟨fun r => Prog.ret (out (S r.val)), Chans.empty⟩ := fun S => by
    have := barrierP_runs' (E := E) h.Ppos _ fun r _ => Prog.ret (out (S r))
    exact this
  have head : Steps (startConf E) (⟨fun r : Fin E.P => E.solveP r.val (S1 r.val), Chans.empty⟩) :=
    r1 _ fun r => E.solveP r
  by_cases hm : E.maxIter = 0
  · refine ⟨fun r => out (S1 r), ?_, fun r hr => ?_, fun r r' hrr hr => ?_, fun r hr hlt => ?_⟩
    · refine head.trans ?_
      have e : (⟨fun r : Fin E.P => E.solveP r.val (S1 r.val), Chans.empty⟩ : Conf E.P (Msg V N) (PState V N)) =
          ⟨fun r : Fin E.P => (E.barrierP r.val).bind fun _ => Prog.ret (out (S1 r.val)), Chans.empty⟩ := by
        congr 1
        funext r
        unfold solveP
        rw [hm]
        rfl
      rw [e]
      exact tail S1
    · show (out (S1 r)).solveIter ≤ _
      rw [o2, (hp r hr).2.2.2]
      exact Nat.zero_le _
    · show (out (S1 r)).solveIter ≤ (out (S1 r')).solveIter
      rw [o2, o2, (hp r (by omega)).2.2.2, (hp r' hr).2.2.2]
      exact Nat.le_refl _
    · omega
  · obtain ⟨k, hk⟩ : ∃ k, E.maxIter = k + 1 := ⟨E.maxIter - 1, by omega⟩
    obtain ⟨a1, S', Q', h1, h2⟩ := loop_steps h (fun r s => (E.barrierP r).bind fun _ => Prog.ret (out s)) k
      (it := 0) (by omega) hstage
    refine ⟨fun r => out (S' r), ?_, fun r hr => ?_, fun r r' hrr hr => ?_, fun r hr hlt => ?_⟩
    · refine head.trans (Relation.ReflTransGen.trans ?_ (tail S'))
      have e : (⟨fun r : Fin E.P => E.solveP r.val (S1 r.val), Chans.empty⟩ : Conf E.P (Msg V N) (PState V N)) =
          E.stageConf 0 (k + 1) 0 S1 (fun _ _ => []) fun r s => (E.barrierP r).bind fun _ => Prog.ret (out s) := by
        unfold stageConf
        rw [Queues.chans_empty]
        congr 1
        funext r
        rw [if_neg (Nat.not_lt_zero _)]
        unfold solveP
        rw [hk]
      rw [e]
      exact h2
    · show (out (S' r)).solveIter ≤ _
      rw [o2]
      exact (h1.fini r hr).iter
    · show (out (S' r)).solveIter ≤ (out (S' r')).solveIter
      rw [o2, o2]
      exact h1.mono r r' hrr hr
    · have hlt : (out (S' r)).solveIter < E.maxIter := hlt
      rw [o2] at hlt
      obtain ⟨-, w, c2, c3, c4, c5⟩ := h1.fini r hr
      refine ⟨w, ?_, ?_, fun p hp' => ?_, c5 hlt⟩
      · show ∀ j, j ≠ 0 → w j = (out (S' r)).u 0 j
        rw [o1]; exact c2
      · show r = 0 → w = (out (S' r)).u 0
        rw [o1]; exact c3
      · show w 0 = (out (S' p)).u 0 _
        rw [o1]; exact c4 p hp'

end Cfg

end Pymgrit
