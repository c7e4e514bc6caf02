import Verif.Loc7

/-!
# Local criteria: from one iteration to the next
-/

set_option linter.unusedSectionVars false

namespace Pymgrit

variable {V K T N : Type} [LinearOrder T] [Inhabited T]

namespace Cfg
variable {E : Cfg V K T N} [Add V] [Sub V]

/-- On the fine level messages come from the preceding process. -/
theorem pv_fine (h : E.Base) {r p : Nat} (hr : r < E.P) {x : Slot} (h0 : lvlOf x.1 x.2 = 0) (h6 : x.2 ≠ 6)
    (hp : E.pv r x = some p) : r = p + 1 := by
  have : E.pv r x = E.prv x.1 x.2 r := if_neg h6
  rw [this] at hp
  have ha := h.prv_adj (by rw [h0]; exact h.valid.pos) hr hp
  rw [h0] at ha
  exact adj_fine h ha

/-- The states after an iteration, before the clean-up of the processes that stop. -/
structure After (E : Cfg V K T N) (a it : Nat) (S : Nat → PState V N) : Prop where
  fin : ∀ r, a ≤ r → r < E.P →
    (S r).fin = ((S r).pre && ((E.vals r (S r)).all E.ltTol || decide (it + 1 = E.maxIter)))
  iter : ∀ r, a ≤ r → r < E.P → (S r).solveIter = it + 1
  finIt : ∀ r, a ≤ r → r < E.P → (S r).finIt = some (it + 1)
  conv : ∀ r, a ≤ r → r < E.P → (S r).conv (it + 1) = E.tnorm (E.vals r (S r))
  preA : a < E.P → (S a).pre = true ∧ (∃ j, j ≤ it ∧ (S a).preIt = some j) ∧ (0 < a → (S a).sf 0 6 = true)
  preS : ∀ r, a < r → r < E.P → (S r).pre = (S (r - 1)).fin ∧
    ((S r).pre = true → (S r).preIt = some (it + 1)) ∧ (S r).sf 0 6 = (S r).pre
  sfT : ∀ r, a ≤ r → r < E.P → ∀ x ∈ E.cleanS, ∀ p, E.pv r x = some p → p < a → (S r).sf x.1 x.2 = true
  sfF : ∀ r, a ≤ r → r < E.P → ∀ x, E.SlotOK x → x ≠ (0, 6) → ∀ p, E.pv r x = some p → a ≤ p →
    (S r).sf x.1 x.2 = false
  tags : ∀ r, a ≤ r → r < E.P → ∀ x, E.SlotOK x → ∀ p, E.pv r x = some p → a ≤ p →
    (S p).tagS x.1 x.2 = (S r).tagR x.1 x.2
  ghost : ∀ r, a ≤ r → r < E.P → ∀ p, E.pv r (0, 7) = some p → (S r).u 0 0 = (S p).u 0 (E.len p 0 - 1)

variable [SMul K V] [One K] [Sub K]

section step
variable {a0 a it : Nat} {S : Nat → PState V N} {Q : Queues (Msg V N)}

theorem Stage.after (h : E.Loc) (hs : Stage E a0 a it S Q) (f : Nat → List (Ev (Msg V N)) × PState V N)
    (hf0 : ∀ p, p < a → f p = ([], S p))
    (hf1 : ∀ r, a ≤ r → r < E.P →
        Round E r it (fun q => decide (q < a)) (S r) (inbox Q f r) (f r).1 (f r).2) :
    After E a it fun p => (f p).2 := by
  have hb := h.toBase
  have hpos := h.valid.pos
  have hle0 := hs.le0
  have hle := hs.le
  refine ⟨fun r ha hr => (hf1 r ha hr).fin, fun r ha hr => (hf1 r ha hr).solveIter, fun r ha hr => (hf1 r ha hr).finIt,
    fun r ha hr => (hf1 r ha hr).conv, fun ha => ?_, fun r ha hr => ?_, fun r ha hr x hx p hp hpa => ?_,
    fun r ha hr x hx hx6 p hp hpa => ?_, fun r ha hr x hx p hp hpa => ?_, fun r ha hr p hp => ?_⟩
  · have hR := hf1 a (Nat.le_refl _) ha
    have h6 : 0 < a → (S a).sf 0 6 = true := fun h0 => by rw [hs.actSf6 a (Nat.le_refl _) ha h0]; simp
    have hk := hR.skip (by
      rcases Nat.eq_zero_or_pos a with h0 | h0
      · exact .inl h0
      · exact .inr (h6 h0))
    obtain ⟨p1, j, p2, p3⟩ := hs.actPre ha
    exact ⟨hk.1.trans p1, ⟨j, p2, hk.2.trans p3⟩, fun h0 => hR.sfMono (0, 6) (h6 h0)⟩
  · have hR := hf1 r (by omega) hr
    have hR' := hf1 (r - 1) (by omega) (by omega)
    have h6 : (S r).sf 0 6 = false := by
      rw [hs.actSf6 r (by omega) hr (by omega)]
      simp
      omega
    obtain ⟨⟨t, m, c1, c2, c3⟩, c4, c5⟩ := hR.take (by omega) h6
    unfold inbox at c1
    rw [if_pos (by omega), List.mem_append] at c1
    refine ⟨?_, fun hp => by rw [c4, if_pos hp], c5⟩
    rcases c1 with c1 | c1
    · exact absurd c2 (hs.qmsg _ _ t m c1).1
    · have := (hR'.sndMsg r t m (mem_snds c1)).2.1 c2
      rw [this] at c3
      exact c3.symm
  · have hR := hf1 r ha hr
    by_cases hp0 : p < a0
    · exact hR.sfMono x (hs.sfT r ha hr x hx p hp hp0)
    · exact hR.sfJust x (cleanS_sub hb h.cfpos hr (hs.pos (by omega)) hx hp) p hp (by simpa using hpa)
  · have hR := hf1 r ha hr
    exact hR.sfNo x p hp (by simpa using hpa) (hs.sfF r ha hr x hx hx6 p hp (by omega)) hx6
  · have hR := hf1 r ha hr
    have hpr := pv_dn hb hx hr hp
    have hR' := hf1 p hpa (by omega)
    have hsf : (S r).sf x.1 x.2 = false := by
      by_cases hx6 : x = (0, 6)
      · subst hx6
        obtain ⟨e1, e2⟩ := pv6 hp
        show (S r).sf 0 6 = false
        rw [hs.actSf6 r ha hr e1]
        simp
        omega
      · exact hs.sfF r ha hr x hx hx6 p hp (by omega)
    show (f p).2.tagS x.1 x.2 = (f r).2.tagR x.1 x.2
    rw [hR'.tagS x, hR.tagR x p hp (by simpa using hpa) hsf, (nx_pv hb hx (by omega) hr).2 hp,
      hs.tags r ha hr x hx p hp hpa]
    simp
  · have hR := hf1 r ha hr
    have hrp := pv_fine hb hr (x := (0, 7)) rfl (by simp) hp
    show (f r).2.u 0 0 = (f p).2.u 0 (E.len p 0 - 1)
    by_cases hp0 : p < a0
    · rw [hR.ghostKeep (by omega) fun x hx hl => ?_, hf0 p (by omega)]
      · exact hs.ghost r ha hr p hp hp0
      · rcases hpv : E.pv r x with _ | q
        · exact .inl rfl
        · right
          have hq := pv_fine hb hr hl (roundS_op hb hx) hpv
          exact hs.sfT r ha hr x (roundS_sub hx) q hpv (by omega)
    · have h7 := hs.sfF r ha hr (0, 7) hpos (by simp) p hp (by omega)
      obtain ⟨t, m, c1, c2, c3⟩ := hR.ghostTake p hp h7
      unfold inbox at c1
      rw [if_pos (by omega), List.mem_append] at c1
      rcases c1 with c1 | c1
      · have hpa : p < a := by
          by_contra hpa
          rw [hs.qnil p r (by omega)] at c1
          cases c1
        have := (hs.qmsg _ _ t m c1).2.2.2 c2
        rw [c3] at this
        rw [hf0 p hpa]
        exact Payload.vec.inj this
      · have hpa : a ≤ p := by
          by_contra hpa
          rw [hf0 p (by omega)] at c1
          cases c1
        have := (hf1 p hpa (by omega)).data7 r t m (mem_snds c1) c2
        rw [c3] at this
        exact Payload.vec.inj this

/-- The processes in `a ≤ r < b` clean up. -/
theorem After.clean (h : E.Loc) (ha : After E a it S) {b : Nat} (hab : a ≤ b) (hbP : b ≤ E.P)
    (hfin : ∀ r, a ≤ r → r < b → (S r).fin = true) {β : Type}
    (K : Nat → PState V N → Prog (Msg V N) β) (D : Nat → Prog (Msg V N) β) :
    ∃ g : Nat → List (Ev (Msg V N)) × PState V N, (∀ p, ¬ (a ≤ p ∧ p < b) → g p = ([], S p)) ∧
      (∀ r, a ≤ r → r < b → Clean E r (S r) (inbox (fun _ _ => []) g r) (g r).1 (g r).2) ∧
      Steps (P := E.P) ⟨fun r => if a ≤ r.val ∧ r.val < b then (E.cleanBodyP r.val (S r.val)).bind (K r.val)
          else D r.val, Chans.empty⟩
        ⟨fun r => if a ≤ r.val ∧ r.val < b then K r.val (g r.val).2 else D r.val, Queues.chans fun p d =>
          if a ≤ p ∧ p < b ∧ b ≤ d ∧ d < E.P then snds d (g p).1 else []⟩ := by
  have hb := h.toBase
  have hpos := h.valid.pos
  have : Inhabited (List (Ev (Msg V N)) × PState V N) := ⟨([], S 0)⟩
  obtain ⟨g, hg⟩ := rank_build E.P (X := List (Ev (Msg V N)) × PState V N)
    (fun f r x => if a ≤ r ∧ r < b then Clean E r (S r) (inbox (fun _ _ => []) f r) x.1 x.2
      else x = ([], S r))
    (fun f g r x hfg hx => by
      split at hx
      · rw [if_pos (by assumption), ← inbox_congr hfg]; exact hx
      · rw [if_neg (by assumption)]; exact hx)
    (fun r hr f hf => by
      by_cases hra : a ≤ r ∧ r < b
      · have key : ∃ es s', Clean E r (S r) (inbox (fun _ _ => []) f r) es s' := by
          refine clean_tr (φ := fun _ => true) hb h.glob hr (S r) _ (fun hc => ?_) fun hc q => ?_
          · refine ⟨fun p => ?_, fun p x hx hop => ?_, fun p x hx hop => ?_⟩
            · rw [labR_true, firsts_of_nodup cleanS_nodup]
              unfold inbox
              split
              · rename_i hpr
                by_cases hpa : a ≤ p
                · have hC := hf p hpr
                  rw [if_pos (by omega)] at hC
                  rw [List.nil_append, hC.sndLab, lab_nodup cleanS_nodup]
                  have e : E.cleanS.filter (fun x => decide (E.nx p x = some r)) =
                      E.cleanS.filter fun x => decide (E.pv r x = some p ∧ (S r).sf x.1 x.2 = false) := by
                    refine List.filter_congr fun x hx => ?_
                    have hx' := cleanS_ok hb hx
                    have hnp := nx_pv hb hx'.1 (p := p) (q := r) (by omega) hr
                    by_cases hl : E.pv r x = some p
                    · have := ha.sfF r hra.1 hr x hx'.1 (fun e => hx'.2 (by rw [e])) p hl hpa
                      simp [hl, this, hnp]
                    · simp [hl, hnp]
                  rw [e]
                  refine List.map_congr_left fun x hx => ?_
                  rw [List.mem_filter, decide_eq_true_eq] at hx
                  rw [ha.tags r hra.1 hr x (cleanS_ok hb hx.1).1 p hx.2.1 hpa]
                · have hC := hf p hpr
                  rw [if_neg (by omega)] at hC
                  rw [hC, List.filter_eq_nil_iff.2]
                  · rfl
                  · intro x hx
                    by_cases hl : E.pv r x = some p
                    · have := ha.sfT r hra.1 hr x hx p hl (by omega)
                      simp [this]
                    · simp [hl]
              · rename_i hpr
                rw [List.filter_eq_nil_iff.2]
                · rfl
                · intro x hx
                  have : E.pv r x ≠ some p := fun hl => hpr (pv_dn hb (cleanS_ok hb hx).1 hr hl)
                  simp [this]
            · obtain ⟨t, m⟩ := x
              unfold inbox at hx
              split at hx
              · rename_i hpr
                have hC := hf p hpr
                rw [List.nil_append] at hx
                split at hC
                · obtain ⟨c1, c2, -⟩ := hC.sndMsg r t m (mem_snds hx)
                  exact ⟨c1.trans (hfin p (by omega) (by omega)), c2⟩
                · rw [hC] at hx; cases hx
              · cases hx
            · obtain ⟨t, m⟩ := x
              unfold inbox at hx
              split at hx
              · rename_i hpr
                have hC := hf p hpr
                rw [List.nil_append] at hx
                split at hC
                · obtain ⟨-, -, c3, -⟩ := hC.sndMsg r t m (mem_snds hx)
                  exact absurd hop (cleanS_ok hb c3).2
                · rw [hC] at hx; cases hx
              · cases hx
          · unfold inbox
            split
            · rename_i hpr
              have hra' : ¬ a < r := fun hlt => by
                apply hc
                obtain ⟨e1, e2, -⟩ := ha.preS r hlt hr
                rw [ha.finIt r hra.1 hr, e2 (e1.trans (hfin (r - 1) (by omega) (by omega)))]
              have hC := hf q hpr
              rw [if_neg (by omega)] at hC
              rw [hC]
              rfl
            · rfl
        obtain ⟨es, s', hC⟩ := key
        exact ⟨(es, s'), by rw [if_pos hra]; exact hC⟩
      · exact ⟨([], S r), by rw [if_neg hra]⟩)
  let g' : Nat → List (Ev (Msg V N)) × PState V N := fun p => if a ≤ p ∧ p < b then g p else ([], S p)
  have hgg : ∀ p, p < E.P → g p = g' p := fun p hp => by
    have := hg p hp
    show g p = if _ then _ else _
    split at this
    · rw [if_pos (by assumption)]
    · rw [if_neg (by assumption), this]
  have hg0 : ∀ p, ¬ (a ≤ p ∧ p < b) → g' p = ([], S p) := fun p hp => if_neg hp
  have hg1 : ∀ r, a ≤ r → r < b → Clean E r (S r) (inbox (fun _ _ => []) g' r) (g' r).1 (g' r).2 := fun r hra hrb => by
    have := hg r (by omega)
    rw [if_pos ⟨hra, hrb⟩] at this
    rw [← hgg r (by omega), ← inbox_congr (f := g) fun p hp => hgg p (by omega)]
    exact this
  refine ⟨g', hg0, hg1, ?_⟩
  rw [← Queues.chans_empty]
  refine phase_steps _ _ (fun r => (g' r).1) _ _ (fun r => ?_) (fun r hr d t m hm => ?_) (fun r hr s t m hm => ?_)
    (fun s d hsd hd => ?_) fun s d hsd => ?_
  · by_cases hra : a ≤ r.val ∧ r.val < b
    · simp only [hra, and_self, if_true]
      exact (hg1 r.val hra.1 hra.2).tr _ _
    · simp only [hra, if_false, hg0 _ hra]
      exact .nil _
  · by_cases hra : a ≤ r ∧ r < b
    · obtain ⟨-, -, c3, c4⟩ := (hg1 r hra.1 hra.2).sndMsg d t m hm
      exact nx_up hb (cleanS_ok hb c3).1 hr c4
    · rw [hg0 r hra] at hm; cases hm
  · by_cases hra : a ≤ r ∧ r < b
    · obtain ⟨x, c3, c4⟩ := (hg1 r hra.1 hra.2).rcvSrc s t m hm
      exact pv_dn hb (cleanS_ok hb c3).1 hr c4
    · rw [hg0 r hra] at hm; cases hm
  · rw [List.nil_append]
    by_cases hda : a ≤ d ∧ d < b
    · have := (hg1 d hda.1 hda.2).all s
      unfold inbox at this
      rw [if_pos hsd, List.nil_append] at this
      rw [this, if_neg (by omega), List.append_nil]
    · rw [hg0 d hda, rcvs_nil, List.nil_append]
      by_cases hsa : a ≤ s ∧ s < b
      · by_cases hdb : b ≤ d
        · rw [if_pos ⟨hsa.1, hsa.2, hdb, hd⟩]
        · omega
      · rw [hg0 s hsa, if_neg (by omega)]
        rfl
  · rw [if_neg (by omega)]

/-- The final values at the last point of a process are those of its last iteration. -/
theorem clean_last (h : E.Base) (ha : After E a it S) {b : Nat} (hbP : b ≤ E.P)
    {g : Nat → List (Ev (Msg V N)) × PState V N}
    (hg0 : ∀ p, ¬ (a ≤ p ∧ p < b) → g p = ([], S p))
    (hg1 : ∀ r, a ≤ r → r < b → Clean E r (S r) (inbox (fun _ _ => []) g r) (g r).1 (g r).2) (p : Nat) (hp : p < E.P) :
    (g p).2.u 0 (E.len p 0 - 1) = (S p).u 0 (E.len p 0 - 1) := by
  by_cases hpa : a ≤ p ∧ p < b
  · have hC := hg1 p hpa.1 hpa.2
    rcases Nat.eq_zero_or_pos p with h0 | h0
    · rw [hC.noRecv]
      subst h0
      have e : a = 0 := by omega
      subst e
      obtain ⟨-, ⟨j, h1, h2⟩, -⟩ := ha.preA (by omega)
      rw [ha.finIt 0 (Nat.le_refl _) hp, h2]
      intro e
      have := Option.some.inj e
      omega
    · exact hC.u 0 _ (len_fine h hp h0)
  · rw [hg0 p hpa]

/-- The invariant after the iteration. -/
theorem After.stage (h : E.Loc) (hs : Stage E a0 a it S Q) {S' : Nat → PState V N} (hS : ∀ p, p < a → S' p = S p)
    (ha : After E a it S') {b : Nat} (hab : a ≤ b) (hbP : b ≤ E.P)
    (hfin : ∀ r, a ≤ r → r < b → (S' r).fin = true) (hnf : b < E.P → (S' b).fin = false)
    {g : Nat → List (Ev (Msg V N)) × PState V N} (hg0 : ∀ p, ¬ (a ≤ p ∧ p < b) → g p = ([], S' p))
    (hg1 : ∀ r, a ≤ r → r < b → Clean E r (S' r) (inbox (fun _ _ => []) g r) (g r).1 (g r).2) :
    Stage E a b (it + 1) (fun p => (g p).2) (fun p d =>
      if a ≤ p ∧ p < b ∧ b ≤ d ∧ d < E.P then snds d (g p).1 else []) := by
  have hb := h.toBase
  have hpos := h.valid.pos
  have hlast := clean_last hb ha hbP hg0 hg1
  have hgt : ∀ p, b ≤ p → (g p).2 = S' p := fun p hp => by rw [hg0 p (by omega)]
  have hlt : ∀ p, p < a → (g p).2 = S p := fun p hp => by rw [hg0 p (by omega)]; exact hS p hp
  have hnf' : ∀ r, b ≤ r → r < E.P → (S' r).fin = false := by
    intro r hbr
    induction r, hbr using Nat.le_induction with
    | base => exact hnf
    | succ r hbr ih =>
      intro hr
      rw [ha.fin _ (by omega) hr, (ha.preS (r + 1) (by omega) hr).1, Nat.add_sub_cancel, ih (by omega)]
      rfl
  have hpre : ∀ r, b ≤ r → r < E.P → 0 < r → (S' r).sf 0 6 = decide (r = b) ∧ (r = b → (S' r).pre = true) := by
    intro r hbr hr h0
    by_cases hra : r = a
    · have e : r = b := by omega
      subst hra
      obtain ⟨c1, -, c3⟩ := ha.preA hr
      exact ⟨by simp [e ▸ c3 h0, e], fun _ => c1⟩
    · obtain ⟨c1, -, c3⟩ := ha.preS r (by omega) hr
      by_cases hrb : r = b
      · have : (S' r).pre = true := c1.trans (hfin (r - 1) (by omega) (by omega))
        exact ⟨by rw [c3, this]; simp [hrb], fun _ => this⟩
      · refine ⟨?_, fun e => absurd e hrb⟩
        rw [c3, c1, hnf' (r - 1) (by omega) (by omega)]
        simp [hrb]
  constructor
  case le0 => exact hab
  case le => exact hbP
  case pos => exact fun _ => by omega
  case qnil => exact fun p d hpd => if_neg hpd
  case qlab =>
    intro p d h1 h2 h3 h4
    show (if _ then _ else _ : List _).map label = _
    rw [if_pos ⟨h1, h2, h3, h4⟩, (hg1 p h1 h2).sndLab, hgt d h3]
    refine lab_congr (fun _ _ => Iff.rfl) fun x hx hl => ?_
    have hx' := (cleanS_ok hb hx).1
    exact ha.tags d (by omega) h4 x hx' p ((nx_pv hb hx' (by omega) h4).1 hl) h1
  case qmsg =>
    intro p d t m hm
    have hc : a ≤ p ∧ p < b ∧ b ≤ d ∧ d < E.P := by
      by_contra hc
      have hm : (t, m) ∈ (if a ≤ p ∧ p < b ∧ b ≤ d ∧ d < E.P then snds d (g p).1 else []) := hm
      rw [if_neg hc] at hm
      cases hm
    have hm : (t, m) ∈ (if a ≤ p ∧ p < b ∧ b ≤ d ∧ d < E.P then snds d (g p).1 else []) := hm
    rw [if_pos hc] at hm
    have hC := hg1 p hc.1 hc.2.1
    obtain ⟨c1, c2, c3, -⟩ := hC.sndMsg d t m (mem_snds hm)
    refine ⟨(cleanS_ok hb c3).2, c1.trans (hfin p hc.1 hc.2.1), c2, fun h7 => ?_⟩
    rw [hC.data7 d t m (mem_snds hm) h7, hlast p (by omega)]
  case actFin =>
    intro r hr1 hr2
    show (g r).2.fin = false
    rw [hgt r hr1]
    exact hnf' r hr1 hr2
  case actPre =>
    intro hbP'
    show (g b).2.pre = true ∧ ∃ j, j ≤ it + 1 ∧ (g b).2.preIt = some j
    rw [hgt b (Nat.le_refl _)]
    by_cases hba : b = a
    · subst hba
      obtain ⟨c1, ⟨j, c2, c3⟩, -⟩ := ha.preA hbP'
      exact ⟨c1, j, by omega, c3⟩
    · have c1 := (hpre b (Nat.le_refl _) hbP' (by omega)).2 rfl
      exact ⟨c1, it + 1, Nat.le_refl _, (ha.preS b (by omega) hbP').2.1 c1⟩
  case actSf6 =>
    intro r hr1 hr2 h0
    show (g r).2.sf 0 6 = _
    rw [hgt r hr1]
    exact (hpre r hr1 hr2 h0).1
  case sfT =>
    intro r hr1 hr2 x hx p hp hpa
    show (g r).2.sf x.1 x.2 = true
    rw [hgt r hr1]
    exact ha.sfT r (by omega) hr2 x hx p hp hpa
  case sfF =>
    intro r hr1 hr2 x hx hx6 p hp hpa
    show (g r).2.sf x.1 x.2 = false
    rw [hgt r hr1]
    exact ha.sfF r (by omega) hr2 x hx hx6 p hp hpa
  case tags =>
    intro r hr1 hr2 x hx p hp hpa
    show (g p).2.tagS x.1 x.2 = (g r).2.tagR x.1 x.2
    rw [hgt r hr1, hgt p hpa]
    exact ha.tags r (by omega) hr2 x hx p hp (by omega)
  case ghost =>
    intro r hr1 hr2 p hp hpa
    show (g r).2.u 0 0 = (g p).2.u 0 _
    have := pv_dn hb (x := (0, 7)) hpos hr2 hp
    rw [hgt r hr1, hlast p (by omega)]
    exact ha.ghost r (by omega) hr2 p hp
  case fini =>
    intro r hrb
    by_cases hra : r < a
    · obtain ⟨c1, w, c2, c3, c4, c5⟩ := hs.fini r hra
      have e : (g r).2 = S r := hlt r hra
      refine ⟨?_, w, ?_, ?_, fun p hp => ?_, ?_⟩
      · show (g r).2.solveIter ≤ _; rw [e]; omega
      · show ∀ j, j ≠ 0 → w j = (g r).2.u 0 j; rw [e]; exact c2
      · show r = 0 → w = (g r).2.u 0; rw [e]; exact c3
      · have hpr := pv_dn hb (x := (0, 7)) hpos (by omega) hp
        show w 0 = (g p).2.u 0 _
        rw [hlt p (by omega)]
        exact c4 p hp
      · show (g r).2.solveIter < _ → _; rw [e]; exact c5
    · have hC := hg1 r (by omega) hrb
      have hit : (g r).2.solveIter = it + 1 := hC.solveIter.trans (ha.iter r (by omega) (by omega))
      refine ⟨Nat.le_of_eq hit, (S' r).u 0, fun j hj => (hC.u 0 j hj).symm, fun h0 => ?_, fun p hp => ?_, fun hlt => ?_⟩
      · show (S' r).u 0 = (g r).2.u 0
        rw [hC.noRecv]
        subst h0
        have e : a = 0 := by omega
        subst e
        obtain ⟨-, ⟨j, h1, h2⟩, -⟩ := ha.preA (by omega)
        rw [ha.finIt 0 (Nat.le_refl _) (by omega), h2]
        intro e
        have := Option.some.inj e
        omega
      · have hpr := pv_dn hb (x := (0, 7)) hpos (by omega) hp
        show _ = (g p).2.u 0 _
        rw [hlast p (by omega)]
        exact ha.ghost r (by omega) (by omega) p hp
      · have h1 := ha.fin r (by omega) (by omega)
        rw [hfin r (by omega) hrb] at h1
        have hlt : (g r).2.solveIter < E.maxIter := hlt
        have : ¬ it + 1 = E.maxIter := by omega
        simp only [this, decide_false, Bool.or_false] at h1
        have h1 := h1.symm
        rw [Bool.and_eq_true] at h1
        exact h1.2
  case mono =>
    intro r r' hrr hr'
    show (g r).2.solveIter ≤ (g r').2.solveIter
    have hnew : ∀ r, a ≤ r → r < b → (g r).2.solveIter = it + 1 := fun r h1 h2 =>
      (hg1 r h1 h2).solveIter.trans (ha.iter r h1 (by omega))
    by_cases h1 : r' < a
    · rw [hlt r (by omega), hlt r' h1]
      exact hs.mono r r' hrr h1
    · rw [hnew r' (by omega) hr']
      by_cases h2 : r < a
      · rw [hlt r h2]
        have := (hs.fini r h2).iter
        omega
      · rw [hnew r (by omega) (by omega)]

/-- What follows the criterion in `solve`. -/
def decideP (E : Cfg V K T N) (r k it : Nat) (s : PState V N) : Prog (Msg V N) (PState V N) :=
  if E.ltTol (s.conv (it + 1)) ∨ it + 1 = E.maxIter then
    if E.global then E.cleanUpP r s
    else if (s.fin && s.pre) ∨ it + 1 = E.maxIter then E.cleanUpP r s
    else E.solveLoopP r k (it + 1) s
  else E.solveLoopP r k (it + 1) s

theorem solveLoopP_succ (r k it : Nat) (s : PState V N) :
    E.solveLoopP r (k + 1) it s = (E.roundP r it s).bind (E.decideP r k it) := by
  unfold roundP decideP
  rw [solveLoopP, Prog.bind_assoc]
  congr 1
  funext s
  rw [Prog.bind_assoc]
  rfl

/-- The network between two iterations. -/
def stageConf (E : Cfg V K T N) (a k it : Nat) (S : Nat → PState V N) (Q : Queues (Msg V N)) {β : Type}
    (K : Nat → PState V N → Prog (Msg V N) β) : Conf E.P (Msg V N) β :=
  ⟨fun r => if r.val < a then (Prog.wait (.ret (S r.val))).bind (K r.val)
    else (E.solveLoopP r.val k it (S r.val)).bind (K r.val), Q.chans⟩

/-- One iteration of all processes, including the clean-up of those that stop. -/
theorem Stage.step (h : E.Loc) (hs : Stage E a0 a it S Q) (hit : it + 1 ≤ E.maxIter) (k : Nat) {β : Type}
    (K : Nat → PState V N → Prog (Msg V N) β) :
    ∃ b S' Q', Stage E a b (it + 1) S' Q' ∧ (it + 1 = E.maxIter → b = E.P) ∧
      Steps (E.stageConf a (k + 1) it S Q K) (E.stageConf b k (it + 1) S' Q' K) := by
  have hb := h.toBase
  have hle := hs.le
  obtain ⟨f, hf0, hf1, hsteps⟩ := hs.round h (fun r s => (E.decideP r k it s).bind (K r))
    fun r => (Prog.wait (.ret (S r))).bind (K r)
  have ha := hs.after h f hf0 hf1
  -- the processes that stop
  have hex : ∃ b, a ≤ b ∧ (b < E.P → (f b).2.fin = false) := ⟨E.P, hle, fun h => absurd h (Nat.lt_irrefl _)⟩
  classical
  obtain ⟨b, hab, hnf, hmin⟩ : ∃ b, a ≤ b ∧ (b < E.P → (f b).2.fin = false) ∧
      ∀ b', b' < b → ¬ (a ≤ b' ∧ (b' < E.P → (f b').2.fin = false)) :=
    ⟨Nat.find hex, (Nat.find_spec hex).1, (Nat.find_spec hex).2, fun b' hb' => Nat.find_min hex hb'⟩
  have hbP : b ≤ E.P := by
    by_contra hlt
    exact hmin E.P (by omega) ⟨hle, fun h => absurd h (Nat.lt_irrefl _)⟩
  have hfin : ∀ r, a ≤ r → r < b → (f r).2.fin = true := by
    intro r h1 h2
    by_contra hc
    exact hmin r h2 ⟨h1, fun _ => by simpa using hc⟩
  have hpreT : ∀ r, a ≤ r → r ≤ b → r < E.P → (f r).2.pre = true := by
    intro r h1 h2 h3
    by_cases hra : r = a
    · subst hra; exact (ha.preA h3).1
    · exact ((ha.preS r (by omega) h3).1).trans (hfin (r - 1) (by omega) (by omega))
  have hmax : it + 1 = E.maxIter → b = E.P := by
    intro hm
    by_contra hne
    have h1 := hnf (by omega)
    have h2 := ha.fin b hab (by omega)
    have h3 : (f b).2.pre = true := hpreT b hab (Nat.le_refl _) (by omega)
    simp [hm, h3, h1] at h2
  obtain ⟨g, hg0, hg1, hclean⟩ := ha.clean h hab hbP hfin (fun r s => (Prog.wait (.ret s)).bind (K r))
    fun r => if r < a then (Prog.wait (.ret (S r))).bind (K r) else (E.solveLoopP r k (it + 1) (f r).2).bind (K r)
  refine ⟨b, fun p => (g p).2, _, After.stage h hs (fun p hp => by rw [hf0 p hp]) ha hab hbP hfin hnf hg0 hg1, hmax, ?_⟩
  have s1 : Steps (E.stageConf a (k + 1) it S Q K)
      (⟨fun r : Fin E.P => if r.val < a then (Prog.wait (.ret (S r.val))).bind (K r.val)
        else (E.decideP r.val k it (f r.val).2).bind (K r.val), Chans.empty⟩ : Conf E.P (Msg V N) β) := by
    have e : E.stageConf a (k + 1) it S Q K = ⟨fun r : Fin E.P => if r.val < a then
        (Prog.wait (.ret (S r.val))).bind (K r.val) else
        (E.roundP r.val it (S r.val)).bind fun s => (E.decideP r.val k it s).bind (K r.val), Q.chans⟩ := by
      unfold stageConf
      congr 1
      funext r
      rw [solveLoopP_succ, Prog.bind_assoc]
    rw [e]
    exact hsteps
  refine s1.trans ?_
  have s2 : Steps (⟨fun r : Fin E.P => if r.val < a then (Prog.wait (.ret (S r.val))).bind (K r.val)
        else (E.decideP r.val k it (f r.val).2).bind (K r.val), Chans.empty⟩ : Conf E.P (Msg V N) β)
      ⟨fun r => if a ≤ r.val ∧ r.val < b then
          (E.cleanBodyP r.val (f r.val).2).bind fun s => (Prog.wait (.ret s)).bind (K r.val)
          else if r.val < a then (Prog.wait (.ret (S r.val))).bind (K r.val) else
            (E.solveLoopP r.val k (it + 1) (f r.val).2).bind (K r.val), Chans.empty⟩ := by
    refine wait_steps _ _ _ fun r => ?_
    by_cases h1 : r.val < a
    · left
      rw [if_pos h1, if_neg (by omega), if_pos h1]
    · rw [if_neg h1]
      by_cases h2 : r.val < b
      · right
        rw [if_pos ⟨by omega, h2⟩]
        refine ⟨?_, fun _ _ => rfl⟩
        have c1 := hfin r.val (by omega) h2
        have c2 := ha.fin r.val (by omega) r.isLt
        have c3 : (f r.val).2.pre = true := hpreT r.val (by omega) (by omega) r.isLt
        have hdec : E.decideP r.val k it (f r.val).2 = E.cleanUpP r.val (f r.val).2 := by
          unfold decideP
          rw [h.glob, if_pos, if_neg (by simp), if_pos]
          · left
            rw [c1, c3]
            rfl
          · have c4 := ha.conv r.val (by omega) r.isLt
            by_cases hm : it + 1 = E.maxIter
            · exact .inr hm
            · left
              rw [c4]
              apply h.norm _ ?_
              simp only [c1, c3, hm, decide_false, Bool.or_false, Bool.true_and] at c2
              · exact c2.symm
              · intro x hx
                obtain ⟨j, -, e⟩ := List.mem_map.1 hx
                exact ⟨_, e.symm⟩
        rw [hdec, cleanUpP_eq' h.glob]
        show Prog.wait _ = Prog.wait _
        rw [Prog.bind_assoc]
      · left
        rw [if_neg (by omega), if_neg h1]
        have hm : ¬ it + 1 = E.maxIter := fun hm => by
          have := hmax hm
          have := r.isLt
          omega
        have hfr : (f r.val).2.fin = false := by
          have key : ∀ r, b ≤ r → r < E.P → (f r).2.fin = false := by
            intro r hbr
            induction r, hbr using Nat.le_induction with
            | base => exact hnf
            | succ r hbr ih =>
              intro hr
              have e := ha.fin (r + 1) (by omega) hr
              rw [(ha.preS (r + 1) (by omega) hr).1, Nat.add_sub_cancel] at e
              rw [e]
              rw [ih (by omega)]
              rfl
          exact key r.val (by omega) r.isLt
        have hdec : E.decideP r.val k it (f r.val).2 = E.solveLoopP r.val k (it + 1) (f r.val).2 := by
          unfold decideP
          rw [h.glob]
          simp [hm, hfr]
        rw [hdec]
  refine s2.trans ?_
  have e3 : E.stageConf b k (it + 1) (fun p => (g p).2) (fun p d =>
      if a ≤ p ∧ p < b ∧ b ≤ d ∧ d < E.P then snds d (g p).1 else []) K =
      ⟨fun r => if a ≤ r.val ∧ r.val < b then (Prog.wait (.ret (g r.val).2)).bind (K r.val)
          else if r.val < a then (Prog.wait (.ret (S r.val))).bind (K r.val) else
            (E.solveLoopP r.val k (it + 1) (f r.val).2).bind (K r.val), Queues.chans fun p d =>
          if a ≤ p ∧ p < b ∧ b ≤ d ∧ d < E.P then snds d (g p).1 else []⟩ := by
    unfold stageConf
    congr 1
    funext r
    dsimp only
    by_cases h1 : r.val < a
    · rw [if_pos (by omega), if_neg (by omega), if_pos h1, hg0 r.val (by omega), hf0 _ h1]
    · by_cases h2 : r.val < b
      · rw [if_pos h2, if_pos ⟨by omega, h2⟩]
      · rw [if_neg h2, if_neg (by omega), if_neg h1, hg0 r.val (by omega)]
  rw [e3]
  exact hclean

end step

end Cfg

end Pymgrit
