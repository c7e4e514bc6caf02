import Verif.Loc3

/-!
# Local criteria: one round of one process, and its clean-up
-/

set_option linter.unusedSectionVars false

namespace Pymgrit

variable {V K T N : Type} [LinearOrder T] [Inhabited T]

/-- Requirements for the positive statements about the local residual criterion (`conv_crit = 2`): at least
one C-relaxation per level, and a time norm that is below the tolerance whenever all entries (norms of vectors) are. -/
structure Cfg.Loc (E : Cfg V K T N) : Prop extends E.Base where
  crit : E.convCrit = 2
  cfpos : ∀ l, l + 1 < E.ts.length → 1 ≤ E.cf l
  norm : ∀ xs : List N, (∀ x ∈ xs, ∃ v, x = E.norm v) → xs.all E.ltTol = true → E.ltTol (E.tnorm xs) = true

namespace Cfg
variable {E : Cfg V K T N} {r : Nat} {φ : Nat → Bool}

theorem Loc.glob (h : E.Loc) : E.global = false := by simp [global, h.crit]

/-! ### Clean-up -/

theorem forIn_st {α : Type} {σS σR : α → List Slot} {f : PState V N → α → Prog (Msg V N) (PState V N)}
    (xs : List α) (hf : ∀ x ∈ xs, E.St r φ (σS x) (σR x) fun s => f s x) :
    E.St r φ (xs.flatMap σS) (xs.flatMap σR) (Prog.forIn' xs f) := by
  induction xs with
  | nil => exact St.id
  | cons x xs ih =>
    exact (hf x List.mem_cons_self).comp (ih fun y hy => hf y (List.mem_cons_of_mem _ hy))

theorem lo_lt (h : E.Base) (hr : r < E.P) : lo E.ts E.P 0 r < lo E.ts E.P 0 (r + 1) := by
  rw [h.valid.lo_fine h.Ppos h.PN (by omega), h.valid.lo_fine h.Ppos h.PN (by omega)]
  exact firstPt_lt h.PN hr

/-- On the fine level partners are neighbours. -/
theorem adj_fine (h : E.Base) {p q : Nat} (ha : Adj E.ts E.P 0 p q) : q = p + 1 := by
  obtain ⟨h1, h2, h3, h4, h5⟩ := ha
  by_contra hne
  have := lo_lt h (r := p + 1) (by omega)
  have := h.lo_mono h.valid.pos (show p + 1 + 1 ≤ q by omega) (by omega)
  omega

theorem lastF_sendTo (h : E.Base) (hr : r < E.P) (hf : (E.info r 0).lastF = true) :
    (E.info r 0).sendTo = some (r + 1) := by
  obtain ⟨q, hq⟩ := h.sendFlag_some (l := 0) (op := 7) h.valid.pos hr hf
  have ha := h.nxt_adj (l := 0) (op := 7) h.valid.pos hr hq
  have e := adj_fine h ha
  subst e
  unfold nxt at hq
  split at hq
  · exact hq
  · cases hq

/-- Sending part of the clean-up. -/
def cleanSendP (E : Cfg V K T N) (r : Nat) (s : PState V N) : Prog (Msg V N) (PState V N) :=
  (Prog.forIn' (List.range (E.L - 1)) (E.cleanSend r) s).bind fun s =>
  (if (E.info r (E.L - 1)).sendTo.isSome then
    E.sendP (E.info r (E.L - 1)).sendTo (E.L - 1) 5 (.vec (s.u (E.L - 1) ((E.info r (E.L - 1)).idx.getLastD 0))) s
   else .ret s).bind fun s =>
  if (E.info r 0).lastF then E.sendP (some (r + 1)) 0 7 (.vec (s.u 0 (E.len r 0 - 1))) s else .ret s

/-- Receiving part of the clean-up. -/
def cleanRecvP (E : Cfg V K T N) (r : Nat) (s : PState V N) : Prog (Msg V N) (PState V N) :=
  (Prog.forIn' (List.range (E.L - 1)) (E.cleanRecv r) s).bind fun s =>
  (if (E.info r (E.L - 1)).getFrom.isSome && !s.sf (E.L - 1) 5 then
    E.recvU (E.info r (E.L - 1)).getFrom (E.L - 1) 5 (E.L - 1) s else .ret s).bind fun s =>
  if (E.info r 0).firstC && !s.sf 0 7 then E.recvU (E.info r 0).getFrom 0 7 0 s else .ret s

theorem cleanUpP_eq (hg : E.global = false) (s : PState V N) : E.cleanUpP r s =
    .wait ((E.cleanSendP r s).bind fun s => (if s.finIt = s.preIt then E.cleanRecvP r s else .ret s).bind fun s =>
      .wait (.ret s)) := by
  unfold cleanUpP cleanSendP cleanRecvP
  simp only [hg, Bool.false_eq_true, if_false, Prog.bind_assoc]

theorem cleanS_eq : E.cleanS = (List.range (E.L - 1)).flatMap lvlS ++ ([(E.L - 1, 5)] ++ [(0, 7)]) := by
  rw [cleanS, canS_eq, List.range_eq_range', Nat.zero_add, List.append_assoc]

section clean
variable (h : E.Base) (hg : E.global = false) (hr : r < E.P)
include h hg hr

theorem cleanSend_st {l : Nat} (hl : l + 1 < E.ts.length) :
    E.St r φ (lvlS l) [] fun s => E.cleanSend r s l := by
  have h0 := St.send (φ := φ) hg h hr (l := l) (op := 0) (by decide)
    (by rw [lvlOf_ne (by decide)]; omega) (fun s => s.u l (E.len r l - 1))
  have h1 := St.send (φ := φ) hg h hr (l := l) (op := 1) (by decide)
    (by rw [lvlOf_ne (by decide)]; omega) (fun s => s.u l (E.len r l - 1))
  have h2 := St.send (φ := φ) hg h hr (l := l) (op := 2) (by decide)
    (by rw [lvlOf_ne (by decide)]; omega) (fun s => s.u l (E.len r l - 1))
  have h3 := St.send (φ := φ) hg h hr (l := l) (op := 3) (by decide)
    (by rw [lvlOf_ne (by decide)]; omega) (fun s => s.u l (E.len r l - 1))
  have h4 := St.send (φ := φ) hg h hr (l := l) (op := 4) (by decide)
    hl (fun s => s.u l ((E.info r l).idxC.getLastD 0))
  exact h0.comp (h1.comp (h2.comp (h3.comp h4)))

theorem cleanRecv_st {l : Nat} (hl : l + 1 < E.ts.length) :
    E.St r φ [] (lvlS l) fun s => E.cleanRecv r s l := by
  have h0 := St.recv (φ := φ) hg h hr (l := l) (op := 0) (by decide) (by rw [lvlOf_ne (by decide)]; omega)
  have h1 := St.recv (φ := φ) hg h hr (l := l) (op := 1) (by decide) (by rw [lvlOf_ne (by decide)]; omega)
  have h2 := St.recv (φ := φ) hg h hr (l := l) (op := 2) (by decide) (by rw [lvlOf_ne (by decide)]; omega)
  have h3 := St.recv (φ := φ) hg h hr (l := l) (op := 3) (by decide) (by rw [lvlOf_ne (by decide)]; omega)
  have h4 := St.recvDrop (φ := φ) hg h hr (l := l) (op := 4) (by decide) hl
  exact h0.comp (h1.comp (h2.comp (h3.comp h4)))

/-- The last message of the clean-up. -/
theorem cleanLast_st : E.St r φ [(0, 7)] [] fun s =>
    if (E.info r 0).lastF then E.sendP (some (r + 1)) 0 7 (.vec (s.u 0 (E.len r 0 - 1))) s else .ret s := by
  have h0 := St.send (φ := φ) hg h hr (l := 0) (op := 7) (by decide) h.valid.pos
    (fun s => s.u 0 (E.len r 0 - 1))
  refine h0.congr fun s => ?_
  show _ = if (E.info r 0).lastF then E.sendP (E.info r 0).sendTo 0 7 _ s else _
  split
  · rename_i hf
    rw [lastF_sendTo h hr hf]
  · rfl

theorem cleanSendP_st : E.St r φ E.cleanS [] (E.cleanSendP r) := by
  have hL : E.L = E.ts.length := rfl
  have hpos := h.valid.pos
  rw [cleanS_eq]
  have h1 := forIn_st (E := E) (r := r) (φ := φ) (σS := lvlS) (σR := fun _ => []) (f := E.cleanSend r)
    (List.range (E.L - 1)) fun l hl => cleanSend_st h hg hr (by rw [List.mem_range] at hl; omega)
  have e : ((List.range (E.L - 1)).flatMap fun _ => ([] : List Slot)) = [] := by simp
  rw [e] at h1
  have h5 := St.send (φ := φ) hg h hr (l := E.L - 1) (op := 5) (by decide)
    (by rw [lvlOf_ne (by decide)]; omega) (fun s => s.u (E.L - 1) ((E.info r (E.L - 1)).idx.getLastD 0))
  exact h1.comp (h5.comp (cleanLast_st h hg hr))

theorem cleanRecvP_st : E.St r φ [] E.cleanS (E.cleanRecvP r) := by
  have hL : E.L = E.ts.length := rfl
  have hpos := h.valid.pos
  rw [cleanS_eq]
  have h1 := forIn_st (E := E) (r := r) (φ := φ) (σR := lvlS) (σS := fun _ => []) (f := E.cleanRecv r)
    (List.range (E.L - 1)) fun l hl => cleanRecv_st h hg hr (by rw [List.mem_range] at hl; omega)
  have e : ((List.range (E.L - 1)).flatMap fun _ => ([] : List Slot)) = [] := by simp
  rw [e] at h1
  have h5 := St.recv (φ := φ) hg h hr (l := E.L - 1) (op := 5) (by decide)
    (by rw [lvlOf_ne (by decide)]; omega)
  have h7 := St.recv (φ := φ) hg h hr (l := 0) (op := 7) (by decide) h.valid.pos
  exact h1.comp (h5.comp h7)

end clean

/-! ### One round -/

section round
variable [Add V] [Sub V]

/-- The values of `compute_residual`. -/
def vals (E : Cfg V K T N) (r : Nat) (s : PState V N) : List N :=
  (((E.info r 0).idxC.filter fun j => decide (r ≠ 0 ∨ j ≠ 0)).map fun j =>
    E.norm (E.stepAt r 0 j (s.u 0) - s.u 0 j))

/-- The announcement. -/
def annP (E : Cfg V K T N) (r it : Nat) (s : PState V N) : Prog (Msg V N) (PState V N) :=
  let val := E.vals r s
  (if 0 < r ∧ s.sf 0 6 = false then
    (E.recvP (some (r - 1)) 0 6 s).bind fun p =>
      match p.1 with
      | .flag b => .ret { p.2 with pre := b, preIt := if b then some it else p.2.preIt }
      | _ => .fail "wrong data"
   else .ret s).bind fun s =>
  let s := { s with fin := s.pre && (val.all E.ltTol || decide (it = E.maxIter)), finIt := some it }
  (if r + 1 < E.P then E.sendP (some (r + 1)) 0 6 (.flag s.fin) s else .ret s).bind fun s =>
  .ret { s with conv := Function.update s.conv it (E.tnorm val) }

theorem convergenceP_eq (hc : E.convCrit = 2) (it : Nat) (s : PState V N) :
    E.convergenceP r it s = (E.resComm r s).bind (E.annP r it) := by
  have hg : E.global = false := by simp [global, hc]
  unfold convergenceP
  rw [if_pos (.inr hc)]
  simp only [hg, Bool.false_eq_true, if_false]
  unfold residualP resComm
  simp only [Prog.bind_assoc]
  rfl

/-- Effect of the announcement. -/
structure Ann (E : Cfg V K T N) (r it : Nat) (s : PState V N) (In : Nat → List (Nat × Msg V N))
    (es : List (Ev (Msg V N))) (s' : PState V N) : Prop where
  u : s'.u = s.u
  solveIter : s'.solveIter = s.solveIter
  fin : s'.fin = (s'.pre && ((E.vals r s).all E.ltTol || decide (it = E.maxIter)))
  finIt : s'.finIt = some it
  conv : s'.conv it = E.tnorm (E.vals r s)
  skip : r = 0 ∨ s.sf 0 6 = true → s'.pre = s.pre ∧ s'.preIt = s.preIt ∧ s'.sf = s.sf ∧ s'.tagR = s.tagR
  take : 0 < r → s.sf 0 6 = false → (∃ t m, (t, m) ∈ In (r - 1) ∧ m.op = 6 ∧ m.fin = s'.pre) ∧
    s'.preIt = (if s'.pre then some it else s.preIt) ∧ s'.sf = upd2 s.sf 0 6 s'.pre ∧
    s'.tagR = upd2 s.tagR 0 6 (s.tagR 0 6 + 1)
  sndLab : ∀ d, (snds d es).map label = Pymgrit.lab (fun x => E.nx r x = some d) [(0, 6)] s.tagS
  sndMsg : ∀ d t m, Ev.snd d t m ∈ es → m = ⟨.flag s'.fin, s'.fin, 0, 6⟩ ∧ E.nx r (0, 6) = some d
  rcvSrc : ∀ q t m, Ev.rcv q t m ∈ es → E.pv r (0, 6) = some q
  tagS : ∀ x : Slot, s'.tagS x.1 x.2 = s.tagS x.1 x.2 + if (E.nx r x).isSome then [((0, 6) : Slot)].count x else 0

theorem annP_tr (hg : E.global = false) (hr : r < E.P) (it : Nat) (s : PState V N)
    (In : Nat → List (Nat × Msg V N)) (hF : E.Feed r φ [(0, 6)] s In) :
    ∃ es s', Tr (E.annP r it s) es s' ∧ (∀ q, In q = rcvs q es) ∧ Ann E r it s In es s' := by
  -- receiving part
  have h1 : ∃ es s1, Tr (if 0 < r ∧ s.sf 0 6 = false then
      (E.recvP (some (r - 1)) 0 6 s).bind fun p =>
        match p.1 with
        | .flag b => .ret { p.2 with pre := b, preIt := if b then some it else p.2.preIt }
        | _ => .fail "wrong data"
      else .ret s) es s1 ∧ (∀ q, In q = rcvs q es) ∧ (∀ d, snds d es = []) ∧
      (∀ d t m, Ev.snd d t m ∉ es) ∧
      (∀ q t m, Ev.rcv q t m ∈ es → E.pv r (0, 6) = some q) ∧
      s1.u = s.u ∧ s1.solveIter = s.solveIter ∧ s1.tagS = s.tagS ∧
      (r = 0 ∨ s.sf 0 6 = true → s1.pre = s.pre ∧ s1.preIt = s.preIt ∧ s1.sf = s.sf ∧ s1.tagR = s.tagR) ∧
      (0 < r → s.sf 0 6 = false → (∃ t m, (t, m) ∈ In (r - 1) ∧ m.op = 6 ∧ m.fin = s1.pre) ∧
        s1.preIt = (if s1.pre then some it else s.preIt) ∧ s1.sf = upd2 s.sf 0 6 s1.pre ∧
        s1.tagR = upd2 s.tagR 0 6 (s.tagR 0 6 + 1)) := by
    by_cases hc : 0 < r ∧ s.sf 0 6 = false
    · rw [if_pos hc]
      have hpv : E.pv r (0, 6) = some (r - 1) := by simp [pv, hc.1]
      obtain ⟨m, rest, a1, a2, a3, -, a5, a6⟩ := hF.head hpv hc.2
      obtain ⟨b, rfl⟩ := a5 a3
      have hF' := (a6 (.inr (by simp)) { s with
        tagR := upd2 s.tagR 0 6 (s.tagR 0 6 + 1), sf := upd2 s.sf 0 6 b } rfl rfl).lab
      have hrest : rest = [] := by
        have := hF' (r - 1)
        rw [Function.update_self] at this
        simpa [labR] using this
      subst hrest
      refine ⟨[.rcv (r - 1) (s.tagR 0 6) ⟨.flag b, b, 0, 6⟩], { s with
        tagR := upd2 s.tagR 0 6 (s.tagR 0 6 + 1)
        sf := upd2 s.sf 0 6 b
        pre := b
        preIt := if b then some it else s.preIt }, ?_, ?_, ?_, ?_, ?_, rfl, rfl, rfl, ?_, ?_⟩
      · intro β k
        refine LTr.recv (m := (⟨.flag b, b, 0, 6⟩ : Msg V N)) ?_
        simp only [decide_true, Bool.and_self, Bool.not_true, Bool.and_false, Bool.false_eq_true,
          if_false, hg, Prog.ret_bind]
        exact .nil _
      · intro q
        rw [rcvs_rcv]
        by_cases hq : r - 1 = q
        · subst hq; simp [a1]
        · rw [if_neg hq]
          have := hF' q
          rw [Function.update_of_ne (fun e => hq e.symm)] at this
          simpa [labR] using this
      · intro d; rfl
      · intro d t m h; simp at h
      · intro q t m h
        rw [List.mem_singleton] at h
        cases h
        exact hpv
      · rintro (h | h)
        · omega
        · rw [hc.2] at h; cases h
      · intro _ _
        refine ⟨⟨s.tagR 0 6, ⟨.flag b, b, 0, 6⟩, ?_, rfl, rfl⟩, rfl, rfl, rfl⟩
        rw [a1]; exact List.mem_cons_self
    · rw [if_neg hc]
      refine ⟨[], s, .ret _, fun q => ?_, fun d => rfl, by simp, by simp, rfl, rfl, rfl, fun _ => ⟨rfl, rfl, rfl, rfl⟩,
        fun h1 h2 => absurd ⟨h1, h2⟩ hc⟩
      have := (hF.skip (σ := []) (by
        by_cases h0 : 0 < r
        · right
          by_contra h2
          exact hc ⟨h0, Bool.eq_false_iff.2 h2⟩
        · left
          simp [pv, h0])).lab q
      simpa [labR] using this
  obtain ⟨es, s1, a1, a2, a3, a3', a4, a5, a6, a7, a8, a9⟩ := h1
  unfold annP
  by_cases hP : r + 1 < E.P
  · have hnx : E.nx r (0, 6) = some (r + 1) := by simp [nx, hP]
    refine ⟨es ++ ([.snd (r + 1) (s1.tagS 0 6) ⟨.flag (s1.pre && ((E.vals r s).all E.ltTol || decide (it = E.maxIter))),
      (s1.pre && ((E.vals r s).all E.ltTol || decide (it = E.maxIter))), 0, 6⟩] ++ []), { s1 with
        fin := (s1.pre && ((E.vals r s).all E.ltTol || decide (it = E.maxIter)))
        finIt := some it
        tagS := upd2 s1.tagS 0 6 (s1.tagS 0 6 + 1)
        conv := Function.update s1.conv it (E.tnorm (E.vals r s)) }, ?_, fun q => ?_, ?_⟩
    · refine a1.bind ?_
      refine Tr.bind (a := { s1 with
        fin := (s1.pre && ((E.vals r s).all E.ltTol || decide (it = E.maxIter)))
        finIt := some it
        tagS := upd2 s1.tagS 0 6 (s1.tagS 0 6 + 1) }) ?_ (.ret _)
      rw [if_pos hP]
      simp only [sendP, hg, Bool.false_eq_true, if_false]
      exact fun β k => .send (.nil _)
    · rw [a2, rcvs_append]; simp
    · refine ⟨a5, a6, rfl, rfl, by simp, a8, a9, fun d => ?_, fun d t m h => ?_, fun q t m h => ?_, fun x => ?_⟩
      · rw [snds_append, a3, List.nil_append, List.append_nil, snds_snd]
        by_cases e : r + 1 = d
        · subst e; simp [Pymgrit.lab, hnx, label, a7]
        · simp [Pymgrit.lab, hnx, e]
      · rw [List.mem_append] at h
        rcases h with h | h
        · exact absurd h (a3' _ _ _)
        · simp only [List.append_nil, List.mem_singleton] at h
          cases h
          exact ⟨rfl, hnx⟩
      · rw [List.mem_append] at h
        rcases h with h | h
        · exact a4 _ _ _ h
        · simp at h
      · show upd2 s1.tagS 0 6 _ _ _ = _
        rw [upd2_at, a7]
        by_cases hy : x = (0, 6)
        · subst hy; simp [hnx]
        · have : ((0, 6) : Slot) ≠ x := fun e => hy e.symm
          rw [if_neg (show ¬ (x.1, x.2) = (0, 6) from hy), List.count_cons_of_ne this]
          simp
  · have hnx : E.nx r (0, 6) = none := by simp [nx, hP]
    refine ⟨es ++ ([] ++ []), { s1 with
        fin := (s1.pre && ((E.vals r s).all E.ltTol || decide (it = E.maxIter)))
        finIt := some it
        conv := Function.update s1.conv it (E.tnorm (E.vals r s)) }, ?_, fun q => ?_, ?_⟩
    · refine a1.bind ?_
      refine Tr.bind (a := { s1 with
        fin := (s1.pre && ((E.vals r s).all E.ltTol || decide (it = E.maxIter)))
        finIt := some it }) ?_ (.ret _)
      rw [if_neg hP]
      exact .ret _
    · rw [a2, rcvs_append]; simp
    · refine ⟨a5, a6, rfl, rfl, by simp, a8, a9, fun d => ?_, fun d t m h => ?_, fun q t m h => ?_, fun x => ?_⟩
      · rw [snds_append, a3]
        simp [Pymgrit.lab, hnx]
      · rw [List.mem_append] at h
        rcases h with h | h
        · exact absurd h (a3' _ _ _)
        · simp at h
      · rw [List.mem_append] at h
        rcases h with h | h
        · exact a4 _ _ _ h
        · simp at h
      · show s1.tagS _ _ = _
        rw [a7]
        by_cases hy : x = (0, 6)
        · subst hy; simp [hnx]
        · have : ((0, 6) : Slot) ≠ x := fun e => hy e.symm
          rw [List.count_cons_of_ne this]
          simp

end round

end Cfg

end Pymgrit
