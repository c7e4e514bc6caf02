import Verif.Loc6

/-!
# Local criteria: one iteration of all processes

`Stage a0 a it S Q`: after `it` iterations the processes below `a` have stopped, those in `a0 ≤ r < a` in
iteration `it`; `S` are the states, `Q` the messages of the clean-ups not yet received.
-/

set_option linter.unusedSectionVars false

namespace Pymgrit

variable {V K T N : Type} [LinearOrder T] [Inhabited T]

namespace Cfg
variable {E : Cfg V K T N} [Add V] [Sub V]

/-- The values of `compute_residual` for given values on the fine level. -/
def valsU (E : Cfg V K T N) (r : Nat) (w : Nat → V) : List N :=
  (((E.info r 0).idxC.filter fun j => decide (r ≠ 0 ∨ j ≠ 0)).map fun j =>
    E.norm (E.stepAt r 0 j w - w j))

/-- What is known about a process that has stopped. -/
structure Fini (E : Cfg V K T N) (it : Nat) (S : Nat → PState V N) (r : Nat) : Prop where
  iter : (S r).solveIter ≤ it
  res : ∃ w : Nat → V, (∀ j, j ≠ 0 → w j = (S r).u 0 j) ∧ (r = 0 → w = (S r).u 0) ∧
    (∀ p, E.pv r (0, 7) = some p → w 0 = (S p).u 0 (E.len p 0 - 1)) ∧
    ((S r).solveIter < E.maxIter → (E.valsU r w).all E.ltTol = true)

structure Stage (E : Cfg V K T N) (a0 a it : Nat) (S : Nat → PState V N) (Q : Queues (Msg V N)) : Prop where
  le0 : a0 ≤ a
  le : a ≤ E.P
  pos : 0 < a → 0 < it
  qnil : ∀ p d, ¬ (a0 ≤ p ∧ p < a ∧ a ≤ d ∧ d < E.P) → Q p d = []
  qlab : ∀ p d, a0 ≤ p → p < a → a ≤ d → d < E.P →
    (Q p d).map label = lab (fun x => E.nx p x = some d) E.cleanS (S d).tagR
  qmsg : ∀ p d t m, (t, m) ∈ Q p d → m.op ≠ 6 ∧ m.fin = true ∧ (∃ v, m.data = .vec v) ∧
    (m.op = 7 → m.data = .vec ((S p).u 0 (E.len p 0 - 1)))
  actFin : ∀ r, a ≤ r → r < E.P → (S r).fin = false
  actPre : a < E.P → (S a).pre = true ∧ ∃ j, j ≤ it ∧ (S a).preIt = some j
  actSf6 : ∀ r, a ≤ r → r < E.P → 0 < r → (S r).sf 0 6 = decide (r = a)
  sfT : ∀ r, a ≤ r → r < E.P → ∀ x ∈ E.cleanS, ∀ p, E.pv r x = some p → p < a0 → (S r).sf x.1 x.2 = true
  sfF : ∀ r, a ≤ r → r < E.P → ∀ x, E.SlotOK x → x ≠ (0, 6) → ∀ p, E.pv r x = some p → a0 ≤ p →
    (S r).sf x.1 x.2 = false
  tags : ∀ r, a ≤ r → r < E.P → ∀ x, E.SlotOK x → ∀ p, E.pv r x = some p → a ≤ p →
    (S p).tagS x.1 x.2 = (S r).tagR x.1 x.2
  ghost : ∀ r, a ≤ r → r < E.P → ∀ p, E.pv r (0, 7) = some p → p < a0 →
    (S r).u 0 0 = (S p).u 0 (E.len p 0 - 1)
  fini : ∀ r, r < a → Fini E it S r
  mono : ∀ r r', r ≤ r' → r' < a → (S r).solveIter ≤ (S r').solveIter

theorem pv6 {r p : Nat} (hp : E.pv r (0, 6) = some p) : 0 < r ∧ p = r - 1 := by
  simp only [pv, if_true, true_and] at hp
  split at hp
  · rename_i h0
    cases hp
    exact ⟨h0, rfl⟩
  · cases hp

variable [SMul K V] [One K] [Sub K]

/-- Messages process `r` gets in a phase: those in transit and those sent by the processes before it. -/
def inbox (Q : Queues (Msg V N)) (f : Nat → List (Ev (Msg V N)) × PState V N) (r p : Nat) :
    List (Nat × Msg V N) :=
  if p < r then Q p r ++ snds r (f p).1 else []

theorem inbox_congr {Q : Queues (Msg V N)} {f g : Nat → List (Ev (Msg V N)) × PState V N} {r : Nat}
    (h : ∀ p, p < r → f p = g p) : inbox Q f r = inbox Q g r := by
  funext p
  unfold inbox
  split
  · rw [h p (by assumption)]
  · rfl

section step
variable {a0 a it : Nat} {S : Nat → PState V N} {Q : Queues (Msg V N)}

/-- The messages of an iteration are the expected ones. -/
theorem Stage.feed (h : E.Loc) (hs : Stage E a0 a it S Q) {r : Nat} (har : a ≤ r) (hr : r < E.P)
    (f : Nat → List (Ev (Msg V N)) × PState V N) (hf0 : ∀ p, p < a → f p = ([], S p))
    (hf : ∀ p, a ≤ p → p < r → Round E p it (fun q => decide (q < a)) (S p) (inbox Q f p) (f p).1 (f p).2) :
    E.Feed r (fun q => decide (q < a)) (E.roundS it ++ [(0, 6)]) (S r) (inbox Q f r) := by
  have hb := h.toBase
  have hpos := h.valid.pos
  have hle0 := hs.le0
  have h6 : E.SlotOK ((0, 6) : Slot) := hpos
  have hok : ∀ x ∈ E.roundS it ++ [(0, 6)], E.SlotOK x := by
    intro x hx
    rw [List.mem_append, List.mem_singleton] at hx
    rcases hx with hx | rfl
    · exact (cleanS_ok hb (roundS_sub hx)).1
    · exact h6
  refine ⟨fun p => ?_, fun p x hx hop => ?_, fun p x hx hop => ?_⟩
  · by_cases hpr : p < r
    swap
    · unfold inbox
      rw [if_neg hpr]
      rw [labR_none fun x hx hl => absurd (pv_dn hb (hok x hx) hr hl) hpr]
      rfl
    unfold inbox
    rw [if_pos hpr]
    by_cases hpa : p < a
    · rw [hf0 p hpa]
      simp only [snds_nil, List.append_nil]
      by_cases hp0 : p < a0
      · rw [hs.qnil p r (by omega), labR_none]
        · rfl
        · intro x hx hl
          rw [List.mem_append, List.mem_singleton] at hx
          rcases hx with hx | rfl
          · exact hs.sfT r har hr x (roundS_sub hx) p hl hp0
          · obtain ⟨e1, e2⟩ := pv6 hl
            rw [hs.actSf6 r har hr e1]
            simp
            omega
      · have hit := hs.pos (by omega)
        simp only [hpa, decide_true]
        rw [hs.qlab p r (by omega) hpa har hr, labR_true, lab_nodup cleanS_nodup, firsts_append,
          List.filter_append]
        have e6 : ((firsts [((0, 6) : Slot)]).filter fun y => decide (y ∉ E.roundS it)).filter
            (fun x => decide (E.pv r x = some p ∧ (S r).sf x.1 x.2 = false)) = [] := by
          rw [List.filter_filter, List.filter_eq_nil_iff]
          intro x hx
          rw [mem_firsts, List.mem_singleton] at hx
          subst hx
          by_cases hl : E.pv r ((0, 6) : Slot) = some p
          · obtain ⟨e1, e2⟩ := pv6 hl
            have : (S r).sf 0 6 = true := by
              rw [hs.actSf6 r har hr e1]
              simp
              omega
            simp [this]
          · simp [hl]
        rw [e6, List.append_nil]
        have e1 : (firsts (E.roundS it)).filter (fun x => decide (E.pv r x = some p ∧ (S r).sf x.1 x.2 = false)) =
            (firsts (E.roundS it)).filter (fun x => decide (E.pv r x = some p)) := by
          refine List.filter_congr fun x hx => ?_
          rw [mem_firsts] at hx
          by_cases hl : E.pv r x = some p
          · have := hs.sfF r har hr x (hok x (List.mem_append_left _ hx)) (fun e => roundS_op hb hx (by rw [e])) p hl
              (by omega)
            simp [hl, this]
          · simp [hl]
        rw [e1, firsts_roundS hb h.cfpos hr hit]
        congr 1
        refine List.filter_congr fun x hx => ?_
        have := nx_pv hb (cleanS_ok hb hx).1 (p := p) (q := r) (by omega) hr
        simp [this]
    · rw [hs.qnil p r (by omega), List.nil_append, (hf p (by omega) hpr).sndLab]
      simp only [hpa, decide_false]
      rw [labR_false]
      · refine lab_congr (fun x hx => nx_pv hb (hok x hx) (by omega) hr) fun x hx hl => ?_
        exact hs.tags r har hr x (hok x hx) p ((nx_pv hb (hok x hx) (by omega) hr).1 hl) (by omega)
      · intro x hx hl
        by_cases hx6 : x = (0, 6)
        · subst hx6
          obtain ⟨e1, e2⟩ := pv6 hl
          rw [hs.actSf6 r har hr e1]
          simp
          omega
        · exact hs.sfF r har hr x (hok x hx) hx6 p hl (by omega)
  · obtain ⟨t, m⟩ := x
    unfold inbox at hx
    split at hx
    · rename_i hpr
      rw [List.mem_append] at hx
      rcases hx with hx | hx
      · have hm := hs.qmsg p r t m hx
        by_cases hpa : p < a
        · simp only [hpa, decide_true]
          exact ⟨hm.2.1, hm.2.2.1⟩
        · rw [hs.qnil p r (by omega)] at hx
          cases hx
      · by_cases hpa : p < a
        · rw [hf0 p hpa] at hx
          cases hx
        · obtain ⟨c1, -, -⟩ := (hf p (by omega) hpr).sndMsg r t m (mem_snds hx)
          obtain ⟨c1, c2⟩ := c1 hop
          refine ⟨?_, c2⟩
          show m.fin = _
          rw [c1, hs.actFin p (by omega) (by omega)]
          simp
          omega
    · cases hx
  · obtain ⟨t, m⟩ := x
    unfold inbox at hx
    split at hx
    · rename_i hpr
      rw [List.mem_append] at hx
      rcases hx with hx | hx
      · exact absurd hop (hs.qmsg p r t m hx).1
      · by_cases hpa : p < a
        · rw [hf0 p hpa] at hx
          cases hx
        · obtain ⟨-, c2, -⟩ := (hf p (by omega) hpr).sndMsg r t m (mem_snds hx)
          exact ⟨_, c2 hop⟩
    · cases hx

/-- All processes perform one iteration, up to the decision whether to stop. -/
theorem Stage.round (h : E.Loc) (hs : Stage E a0 a it S Q) {β : Type}
    (K : Nat → PState V N → Prog (Msg V N) β) (D : Nat → Prog (Msg V N) β) :
    ∃ f : Nat → List (Ev (Msg V N)) × PState V N, (∀ p, p < a → f p = ([], S p)) ∧
      (∀ r, a ≤ r → r < E.P →
        Round E r it (fun q => decide (q < a)) (S r) (inbox Q f r) (f r).1 (f r).2) ∧
      Steps (P := E.P) ⟨fun r => if r.val < a then D r.val else (E.roundP r.val it (S r.val)).bind (K r.val), Q.chans⟩
        ⟨fun r => if r.val < a then D r.val else K r.val (f r.val).2, Chans.empty⟩ := by
  have hb := h.toBase
  have hpos := h.valid.pos
  have hle0 := hs.le0
  have : Inhabited (List (Ev (Msg V N)) × PState V N) := ⟨([], S 0)⟩
  obtain ⟨f, hf⟩ := rank_build E.P (X := List (Ev (Msg V N)) × PState V N)
    (fun f r x => if r < a then x = ([], S r) else
      Round E r it (fun q => decide (q < a)) (S r) (inbox Q f r) x.1 x.2)
    (fun f g r x hfg hx => by
      split at hx
      · rw [if_pos (by assumption)]; exact hx
      · rw [if_neg (by assumption), ← inbox_congr hfg]; exact hx)
    (fun r hr f hf => by
      by_cases hra : r < a
      · exact ⟨([], S r), by rw [if_pos hra]⟩
      · have hF := hs.feed h (by omega) hr f
          (fun p hp => by
            have := hf p (by omega)
            rwa [if_pos hp] at this)
          (fun p hp hpr => by
            have := hf p hpr
            rwa [if_neg (by omega)] at this)
        obtain ⟨es, s', hR⟩ := round_tr h hr it (S r) _ hF
        exact ⟨(es, s'), by rw [if_neg hra]; exact hR⟩)
  have hf0 : ∀ p, p < a → f p = ([], S p) := fun p hp => by
    have hle := hs.le
    have := hf p (by omega)
    rwa [if_pos hp] at this
  have hf1 : ∀ r, a ≤ r → r < E.P →
        Round E r it (fun q => decide (q < a)) (S r) (inbox Q f r) (f r).1 (f r).2 := fun r hra hr => by
    have := hf r hr
    rwa [if_neg (by omega)] at this
  refine ⟨f, hf0, hf1, ?_⟩
  rw [← Queues.chans_empty]
  refine phase_steps _ _ (fun r => (f r).1) Q _ (fun r => ?_) (fun r hr d t m hm => ?_) (fun r hr s t m hm => ?_)
    (fun s d hsd hd => ?_) fun s d hsd => ?_
  · by_cases hra : r.val < a
    · simp only [hra, if_true, hf0 _ hra]
      exact .nil _
    · simp only [hra, if_false]
      exact (hf1 r.val (by omega) r.isLt).tr _ _
  · by_cases hra : r < a
    · rw [hf0 r hra] at hm; cases hm
    · obtain ⟨-, -, c3, c4⟩ := (hf1 r (by omega) hr).sndMsg d t m hm
      exact nx_up hb c3 hr c4
  · by_cases hra : r < a
    · rw [hf0 r hra] at hm; cases hm
    · obtain ⟨x, c3, c4⟩ := (hf1 r (by omega) hr).rcvSrc s t m hm
      exact pv_dn hb c3 hr c4
  · by_cases hda : d < a
    · rw [hf0 d hda, hf0 s (by omega), hs.qnil s d (by omega)]
      simp
    · have := (hf1 d (by omega) hd).all s
      unfold inbox at this
      rw [if_pos hsd] at this
      rw [this, List.append_nil]
  · exact hs.qnil s d (by omega)

end step

end Cfg

end Pymgrit
