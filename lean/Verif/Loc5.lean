import Verif.Loc4

/-!
# Local criteria: one round of one process
-/

set_option linter.unusedSectionVars false

namespace Pymgrit

variable {V K T N : Type} [LinearOrder T] [Inhabited T]

namespace Cfg
variable {E : Cfg V K T N} {r : Nat} {φ : Nat → Bool}

theorem len_fine (h : E.Base) (hr : r < E.P) (h0 : 0 < r) : E.len r 0 - 1 ≠ 0 := by
  have hs := h.spec hr h.valid.pos
  have h1 := lo_lt h hr
  have h2 := h.off_add h.valid.pos (Nat.le_of_lt hr)
  unfold len
  rw [hs.t_len, if_pos h1]
  unfold gh at h2
  rw [if_neg (by omega)] at h2
  omega

theorem pv_pos (h : E.Base) (hr : r < E.P) {x : Slot} (hx : E.SlotOK x) {p : Nat} (hp : E.pv r x = some p) : 0 < r := by
  have := pv_dn h hx hr hp
  omega

section round
variable [Add V] [Sub V]

theorem resComm_stX (h : E.Base) (hg : E.global = false) (hr : r < E.P) :
    E.StX r φ [(0, 7)] [(0, 7)] (E.resComm r) fun s In es s' =>
      (∀ d t m, Ev.snd d t m ∈ es → m.data = .vec (s'.u 0 (E.len r 0 - 1))) ∧
      ∀ p, E.pv r (0, 7) = some p → s.sf 0 7 = false → ∃ t m, (t, m) ∈ In p ∧ m.op = 7 ∧
        m.data = .vec (s'.u 0 0) := by
  intro τ s In hF
  have h0 := St.sendX (φ := φ) hg h hr (l := 0) (op := 7) (by decide) h.valid.pos
    (fun s => s.u 0 (E.len r 0 - 1))
  have h1 := St.recv7 (φ := φ) hg h hr
  obtain ⟨es, s1, In1, a1, a2, a3, a4, a5, a6⟩ := h0 _ s In hF
  obtain ⟨es', s2, In2, b1, b2, b3, b4, b5, b6, b7⟩ := h1 _ s1 In1 a3
  have hsf : s1.sf 0 7 = s.sf 0 7 := (a4.keepR (0, 7) (by simp)).1
  have hu : s2.u 0 (E.len r 0 - 1) = s.u 0 (E.len r 0 - 1) := by
    rcases hp : E.pv r (0, 7) with _ | p
    · rw [b7 (.inl hp), a5]
    · by_cases hs : s1.sf 0 7 = false
      · obtain ⟨t, m, v, s0, c1, c2, c3, c4, rfl⟩ := b6 p hp hs
        have hne := len_fine h hr (pv_pos h hr (x := (0, 7)) h.valid.pos hp)
        rw [← a5, ← c4]
        show upd2 s0.u 0 0 v 0 (E.len r 0 - 1) = _
        exact upd2_ne _ _ (fun e => hne e.2)
      · rw [b7 (.inr (by simpa using hs)), a5]
  refine ⟨es ++ es', s2, In2, a1.bind b1, fun q => ?_, b3, a4.comp b4, fun d t m hm => ?_, fun p hp hs => ?_⟩
  · rw [a2, b2, rcvs_append, List.append_assoc]
  · rw [hu]
    rcases List.mem_append.1 hm with hm | hm
    · exact a6 d t m hm
    · exact absurd hm (b5 _ _ _)
  · obtain ⟨t, m, v, s0, c1, c2, c3, c4, rfl⟩ := b6 p hp (by rw [hsf]; exact hs)
    refine ⟨t, m, ?_, c2, ?_⟩
    · rw [a2 p]; exact List.mem_append_right _ c1
    · rw [c3]
      show _ = Payload.vec (upd2 s0.u 0 0 v 0 0)
      rw [upd2_self]

variable [SMul K V] [One K] [Sub K]

/-- One pass of the loop in `solve`, up to the decision whether to stop. -/
def roundP (E : Cfg V K T N) (r it : Nat) (s : PState V N) : Prog (Msg V N) (PState V N) :=
  (E.iterationP r (E.L - 1) 0 E.cyc it true { s with solveIter := it + 1 }).bind fun s =>
  (E.convergenceP r (it + 1) s).bind fun s => .ret (if E.outLvl = 2 then outputP s else s)

/-- Effect of one pass. -/
structure Round (E : Cfg V K T N) (r it : Nat) (φ : Nat → Bool) (s : PState V N)
    (In : Nat → List (Nat × Msg V N)) (es : List (Ev (Msg V N))) (s' : PState V N) : Prop where
  tr : Tr (E.roundP r it s) es s'
  all : ∀ q, In q = rcvs q es
  sndLab : ∀ d, (snds d es).map label = Pymgrit.lab (fun x => E.nx r x = some d) (E.roundS it ++ [(0, 6)]) s.tagS
  sndMsg : ∀ d t m, Ev.snd d t m ∈ es → (m.op ≠ 6 → m.fin = s.fin ∧ ∃ v, m.data = .vec v) ∧
    (m.op = 6 → m = ⟨.flag s'.fin, s'.fin, 0, 6⟩) ∧ E.SlotOK (m.lvl, m.op) ∧ E.nx r (m.lvl, m.op) = some d
  rcvSrc : ∀ q t m, Ev.rcv q t m ∈ es → ∃ x, E.SlotOK x ∧ E.pv r x = some q
  tagS : ∀ x : Slot, s'.tagS x.1 x.2 = s.tagS x.1 x.2 +
    if (E.nx r x).isSome then (E.roundS it ++ [(0, 6)]).count x else 0
  tagR : ∀ (x : Slot) p, E.pv r x = some p → φ p = false → s.sf x.1 x.2 = false →
    s'.tagR x.1 x.2 = s.tagR x.1 x.2 + (E.roundS it ++ [(0, 6)]).count x
  sfNo : ∀ (x : Slot) p, E.pv r x = some p → φ p = false → s.sf x.1 x.2 = false → x ≠ (0, 6) →
    s'.sf x.1 x.2 = false
  sfMono : ∀ x : Slot, s.sf x.1 x.2 = true → s'.sf x.1 x.2 = true
  sfJust : ∀ x ∈ E.roundS it, ∀ p, E.pv r x = some p → φ p = true → s'.sf x.1 x.2 = true
  solveIter : s'.solveIter = it + 1
  fin : s'.fin = (s'.pre && ((E.vals r s').all E.ltTol || decide (it + 1 = E.maxIter)))
  finIt : s'.finIt = some (it + 1)
  conv : s'.conv (it + 1) = E.tnorm (E.vals r s')
  skip : r = 0 ∨ s.sf 0 6 = true → s'.pre = s.pre ∧ s'.preIt = s.preIt
  take : 0 < r → s.sf 0 6 = false → (∃ t m, (t, m) ∈ In (r - 1) ∧ m.op = 6 ∧ m.fin = s'.pre) ∧
    s'.preIt = (if s'.pre then some (it + 1) else s.preIt) ∧ s'.sf 0 6 = s'.pre
  data7 : ∀ d t m, Ev.snd d t m ∈ es → m.op = 7 → m.data = .vec (s'.u 0 (E.len r 0 - 1))
  ghostTake : ∀ p, E.pv r (0, 7) = some p → s.sf 0 7 = false → ∃ t m, (t, m) ∈ In p ∧ m.op = 7 ∧
    m.data = .vec (s'.u 0 0)
  ghostKeep : 0 < r → (∀ x ∈ E.roundS it, lvlOf x.1 x.2 = 0 → E.pv r x = none ∨ s.sf x.1 x.2 = true) →
    s'.u 0 0 = s.u 0 0

theorem roundS_op {it : Nat} (h : E.Base) {x : Slot} (hx : x ∈ E.roundS it) : x.2 ≠ 6 :=
  (cleanS_ok h (roundS_sub hx)).2

theorem round_tr (h : E.Loc) (hr : r < E.P) (it : Nat) (s : PState V N)
    (In : Nat → List (Nat × Msg V N)) (hF : E.Feed r φ (E.roundS it ++ [(0, 6)]) s In) :
    ∃ es s', Round E r it φ s In es s' := by
  have hg := h.glob
  have hb := h.toBase
  have hL : E.L = E.ts.length := rfl
  have hpos := h.valid.pos
  have hF0 : E.Feed r φ (E.iterS (E.L - 1) 0 E.cyc it true ++ ([(0, 7)] ++ [(0, 6)]))
      { s with solveIter := it + 1 } In := by
    rw [roundS, List.append_assoc] at hF
    exact ⟨hF.lab, hF.data, hF.flag⟩
  obtain ⟨es1, s1, In1, a1, a2, a3, a4⟩ := iteration_st hb hg hr (E.L - 1) 0 E.cyc it true (by omega) _ _ _ hF0
  obtain ⟨es2, s2, In2, b1, b2, b3, b4, b5, b6⟩ := resComm_stX hb hg hr _ _ _ a3
  obtain ⟨es3, s3, c1, c2, c3⟩ := annP_tr hg hr (it + 1) s2 In2 b3
  have hE := a4.comp b4
  have eR : E.iterS (E.L - 1) 0 E.cyc it true ++ [(0, 7)] = E.roundS it := rfl
  rw [eR] at hE
  set s4 : PState V N := if E.outLvl = 2 then outputP s3 else s3 with hs4
  have hs : s4.u = s3.u ∧ s4.tagS = s3.tagS ∧ s4.tagR = s3.tagR ∧ s4.sf = s3.sf ∧ s4.solveIter = s3.solveIter ∧
      s4.fin = s3.fin ∧ s4.finIt = s3.finIt ∧ s4.pre = s3.pre ∧ s4.preIt = s3.preIt ∧ s4.conv = s3.conv := by
    rw [hs4]
    split
    · exact ⟨rfl, rfl, rfl, rfl, rfl, rfl, rfl, rfl, rfl, rfl⟩
    · exact ⟨rfl, rfl, rfl, rfl, rfl, rfl, rfl, rfl, rfl, rfl⟩
  obtain ⟨e1, e2, e3, e4, e5, e6, e7, e8, e9, e10⟩ := hs
  have hv : E.vals r s4 = E.vals r s2 := by
    unfold vals
    rw [e1, c3.u]
  have h6 : ((0, 6) : Slot) ∉ E.roundS it := fun hx => roundS_op hb hx rfl
  have h66 : s2.sf 0 6 = s.sf 0 6 ∧ s2.tagR 0 6 = s.tagR 0 6 := hE.keepR (0, 6) h6
  have hsf3 : ∀ x : Slot, x ≠ (0, 6) → s3.sf x.1 x.2 = s2.sf x.1 x.2 ∧ s3.tagR x.1 x.2 = s2.tagR x.1 x.2 := by
    intro x hx
    by_cases hc : r = 0 ∨ s2.sf 0 6 = true
    · obtain ⟨-, -, d3, d4⟩ := c3.skip hc
      rw [d3, d4]
      exact ⟨rfl, rfl⟩
    · rw [not_or] at hc
      obtain ⟨-, -, d3, d4⟩ := c3.take (Nat.pos_of_ne_zero hc.1) (by simpa using hc.2)
      rw [d3, d4, upd2_at, upd2_at, if_neg (show ¬ (x.1, x.2) = (0, 6) from hx),
        if_neg (show ¬ (x.1, x.2) = (0, 6) from hx)]
      exact ⟨rfl, rfl⟩
  refine ⟨es1 ++ ((es2 ++ es3) ++ []), s4, ?_, ?_, ?_, ?_, ?_, ?_, ?_, ?_, ?_, ?_, ?_, ?_, ?_, ?_, ?_, ?_, ?_, ?_, ?_⟩
  · -- tr
    refine a1.bind ?_
    refine Tr.bind (a := s3) ?_ ?_
    · rw [convergenceP_eq h.crit]
      exact b1.bind c1
    · exact .ret _
  · -- all
    intro q
    rw [a2, b2, c2]
    simp
  · -- sndLab
    intro d
    have : snds d (es1 ++ ((es2 ++ es3) ++ [])) = snds d (es1 ++ es2) ++ snds d es3 := by simp
    rw [this, List.map_append, hE.sndLab, c3.sndLab]
    refine (lab_append _ _ _ _ fun x hx => ?_).symm
    rw [hE.tagS x, hx]
    simp
  · -- sndMsg
    intro d t m hm
    have hm' : Ev.snd d t m ∈ es1 ++ es2 ∨ Ev.snd d t m ∈ es3 := by
      simp only [List.mem_append, List.not_mem_nil, or_false] at hm ⊢
      tauto
    rcases hm' with hm' | hm'
    · obtain ⟨f1, f2, f3, f4⟩ := hE.sndMsg d t m hm'
      have := cleanS_ok hb (roundS_sub f3)
      exact ⟨fun _ => ⟨f1, f2⟩, fun h => absurd h this.2, this.1, f4⟩
    · obtain ⟨rfl, f2⟩ := c3.sndMsg d t m hm'
      refine ⟨fun h => absurd rfl h, fun _ => by rw [e6], ?_, f2⟩
      exact hpos
  · -- rcvSrc
    intro q t m hm
    have hm' : Ev.rcv q t m ∈ es1 ++ es2 ∨ Ev.rcv q t m ∈ es3 := by
      simp only [List.mem_append, List.not_mem_nil, or_false] at hm ⊢
      tauto
    rcases hm' with hm' | hm'
    · obtain ⟨x, f1, f2⟩ := hE.rcvSrc q t m hm'
      exact ⟨x, (cleanS_ok hb (roundS_sub f1)).1, f2⟩
    · exact ⟨(0, 6), hpos, c3.rcvSrc q t m hm'⟩
  · -- tagS
    intro x
    rw [e2, c3.tagS x, hE.tagS x, List.count_append]
    split <;> simp only [Nat.add_assoc, Nat.add_zero]
  · -- tagR
    intro x p hp hφ hs
    rw [e3, List.count_append]
    by_cases hx : x = (0, 6)
    · subst hx
      have h0 := pv_pos hb hr (x := (0, 6)) hpos hp
      have hs2 : s2.sf 0 6 = false := h66.1.trans hs
      obtain ⟨-, -, d3, d4⟩ := c3.take h0 hs2
      rw [d4]
      show upd2 _ 0 6 _ 0 6 = _
      rw [upd2_self, h66.2, List.count_eq_zero_of_not_mem h6]
      simp
    · have hx' : ((0, 6) : Slot) ≠ x := fun e => hx e.symm
      rw [(hsf3 x hx).2, (hE.tagR x p hp hφ hs).1, List.count_cons_of_ne hx']
      simp
  · -- sfNo
    intro x p hp hφ hs hx
    rw [e4, (hsf3 x hx).1]
    exact (hE.tagR x p hp hφ hs).2
  · -- sfMono
    intro x hx
    rw [e4]
    by_cases hx6 : x = (0, 6)
    · subst hx6
      have hs2 : s2.sf 0 6 = true := h66.1.trans hx
      rw [(c3.skip (.inr hs2)).2.2.1]
      exact hs2
    · rw [(hsf3 x hx6).1]
      exact hE.sfMono x hx
  · -- sfJust
    intro x hx p hp hφ
    rw [e4, (hsf3 x (fun e => h6 (e ▸ hx))).1]
    exact hE.sfJust x hx p hp hφ
  · rw [e5, c3.solveIter, hE.same.solveIter]
  · rw [hv, e6, e8]; exact c3.fin
  · rw [e7]; exact c3.finIt
  · rw [hv, e10]; exact c3.conv
  · -- skip
    intro hc
    obtain ⟨d1, d2, -, -⟩ := c3.skip (hc.imp id fun h => h66.1.trans h)
    rw [e8, e9, d1, d2]
    exact ⟨hE.same.pre, hE.same.preIt⟩
  · -- take
    intro h0 hc
    obtain ⟨⟨t, m, d1, d2, d3⟩, d4, d5, d6⟩ := c3.take h0 (h66.1.trans hc)
    refine ⟨⟨t, m, ?_, d2, ?_⟩, ?_, ?_⟩
    · rw [a2, b2]
      exact List.mem_append_right _ (List.mem_append_right _ d1)
    · rw [e8]; exact d3
    · rw [e8, e9, d4, hE.same.preIt]
    · rw [e8, e4, d5, upd2_self]
  · -- data7
    intro d t m hm h7
    simp only [List.mem_append, List.not_mem_nil, or_false] at hm
    rcases hm with hm | hm | hm
    · exfalso
      obtain ⟨-, -, f3, -⟩ := a4.sndMsg d t m hm
      have := (canS_lvl (iterS_sub f3)).2.1
      simp only [h7] at this
      omega
    · rw [e1, c3.u]
      exact b5 d t m hm
    · obtain ⟨rfl, -⟩ := c3.sndMsg d t m hm
      cases h7
  · -- ghostTake
    intro p hp hs
    have h7 : ((0, 7) : Slot) ∉ E.iterS (E.L - 1) 0 E.cyc it true := fun hx => by
      have := (canS_lvl (iterS_sub hx)).2.1
      simp at this
    obtain ⟨t, m, f1, f2, f3⟩ := b6 p hp ((a4.keepR (0, 7) h7).1.trans hs)
    refine ⟨t, m, ?_, f2, ?_⟩
    · rw [a2]; exact List.mem_append_right _ f1
    · rw [e1, c3.u]; exact f3
  · -- ghostKeep
    intro h0 hk
    rw [e1, c3.u]
    exact hE.ghost h0 hk

end round

end Cfg

end Pymgrit
