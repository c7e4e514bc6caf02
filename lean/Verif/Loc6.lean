import Verif.Loc5
import Verif.Dist3

/-!
# Local criteria: the clean-up of one process; building executions rank by rank
-/

set_option linter.unusedSectionVars false

namespace Pymgrit

variable {M α β : Type}

/-- Every value the program can return satisfies `Q`. -/
def Prog.Rets (Q : α → Prop) : Prog M α → Prop
  | .ret a => Q a
  | .send _ _ _ k => k.Rets Q
  | .recv _ _ k => ∀ m, (k m).Rets Q
  | .wait k => k.Rets Q
  | .fail _ => True

theorem Prog.Rets.bind {Q : α → Prop} {Q' : β → Prop} {p : Prog M α} {f : α → Prog M β} (h : p.Rets Q)
    (hf : ∀ a, Q a → (f a).Rets Q') : (p.bind f).Rets Q' := by
  induction p with
  | ret a => exact hf a h
  | send d t m k ih => exact ih h
  | recv s t k ih => exact fun m => ih m (h m)
  | wait k ih => exact ih h
  | fail => trivial

theorem Tr.rets {Q : α → Prop} {p : Prog M α} {es : List (Ev M)} {a : α} (h : Tr p es a) (hQ : p.Rets Q) : Q a := by
  have := h _ Prog.ret
  rw [Prog.bind_ret] at this
  clear h
  generalize hp : (Prog.ret a : Prog M α) = q at this
  induction this with
  | nil p => subst hp; exact hQ
  | send _ ih => exact ih hQ hp
  | recv _ ih => exact ih (hQ _) hp

/-- Data for all processes, built in rank order. -/
theorem rank_build {X : Type} [Inhabited X] (P : Nat) (R : (Nat → X) → Nat → X → Prop)
    (hloc : ∀ f g r x, (∀ p, p < r → f p = g p) → R f r x → R g r x)
    (hex : ∀ r, r < P → ∀ f, (∀ p, p < r → R f p (f p)) → ∃ x, R f r x) :
    ∃ f, ∀ r, r < P → R f r (f r) := by
  have key : ∀ n, n ≤ P → ∃ f, ∀ r, r < n → R f r (f r) := by
    intro n
    induction n with
    | zero => exact fun _ => ⟨fun _ => default, fun r hr => absurd hr (Nat.not_lt_zero r)⟩
    | succ n ih =>
      intro hn
      obtain ⟨f, hf⟩ := ih (by omega)
      obtain ⟨x, hx⟩ := hex n (by omega) f hf
      refine ⟨Function.update f n x, fun r hr => ?_⟩
      by_cases hrn : r = n
      · subst hrn
        rw [Function.update_self]
        exact hloc f _ r x (fun p hp => (Function.update_of_ne (by omega) _ _).symm) hx
      · rw [Function.update_of_ne hrn]
        exact hloc f _ r _ (fun p hp => (Function.update_of_ne (by omega) _ _).symm) (hf r (by omega))
  exact key P (Nat.le_refl _)

/-- Processes of a set pass a `wait`, their outgoing channels being empty. -/
theorem wait_steps {P : Nat} (f f' : Fin P → Prog M α) (c : Chans M)
    (h : ∀ r : Fin P, f r = f' r ∨ f r = .wait (f' r) ∧ ∀ d t, c r.val d t = []) :
    Steps ⟨f, c⟩ ⟨f', c⟩ := by
  refine Steps.rankOrder f f' (fun _ => c) fun r => ?_
  rcases h r with h | ⟨h, hc⟩
  · rw [h]
  · rw [h]
    exact Relation.ReflTransGen.single (LStep.wait hc)

variable {V K T N : Type} [LinearOrder T] [Inhabited T]

namespace Cfg
variable {E : Cfg V K T N} {r : Nat} {φ : Nat → Bool}

/-! ### What the clean-up leaves unchanged -/

theorem rets_sendP {Q : PState V N → Prop} {dst : Option Nat} {l op : Nat} {x : Payload V N} {s : PState V N}
    (h : ∀ c, Q { s with tagS := c }) : (E.sendP dst l op x s).Rets Q := by
  unfold sendP
  split
  · trivial
  · exact h _

theorem rets_recvP {Q : Payload V N × PState V N → Prop} {src : Option Nat} {l op : Nat} {s : PState V N}
    (h : ∀ x c f, Q (x, { s with tagR := c, sf := f })) : (E.recvP src l op s).Rets Q := by
  unfold recvP
  split
  · trivial
  · intro m
    show Prog.Rets Q (if _ then _ else _)
    split
    · trivial
    · exact h _ _ _

theorem rets_recvU {Q : PState V N → Prop} {src : Option Nat} {l op lu : Nat} {s : PState V N}
    (h : ∀ x c f, Q ({ s with tagR := c, sf := f }.setU lu 0 x)) : (E.recvU src l op lu s).Rets Q := by
  refine Prog.Rets.bind (Q := fun p => ∃ c f, p.2 = { s with tagR := c, sf := f })
    (rets_recvP fun x c f => ⟨c, f, rfl⟩) ?_
  rintro ⟨x, s'⟩ ⟨c, f, rfl⟩
  dsimp only
  split
  · exact h _ _ _
  · trivial

theorem rets_ite {Q : PState V N → Prop} {c : Prop} [Decidable c] {p : Prog (Msg V N) (PState V N)} {s : PState V N}
    (h : Q s) (hp : p.Rets Q) : (if c then p else .ret s).Rets Q := by
  split
  · exact hp
  · exact h

theorem rets_forIn {ι : Type} {Q : PState V N → Prop} {f : PState V N → ι → Prog (Msg V N) (PState V N)}
    (hf : ∀ s i, Q s → (f s i).Rets Q) (xs : List ι) {s : PState V N} (h : Q s) : (Prog.forIn' xs f s).Rets Q := by
  induction xs generalizing s with
  | nil => exact h
  | cons i xs ih => exact Prog.Rets.bind (hf s i h) fun s' hs' => ih hs'

/-- The sends of the clean-up change only tag counters. -/
theorem cleanSendP_rets (s : PState V N) : (E.cleanSendP r s).Rets fun s' => s'.u = s.u ∧ s'.sf = s.sf ∧
    s'.solveIter = s.solveIter ∧ s'.finIt = s.finIt ∧ s'.preIt = s.preIt := by
  set Q : PState V N → Prop := fun s' => s'.u = s.u ∧ s'.sf = s.sf ∧
    s'.solveIter = s.solveIter ∧ s'.finIt = s.finIt ∧ s'.preIt = s.preIt with hQ
  have hs : ∀ {s' : PState V N} {dst l op x}, Q s' → (E.sendP dst l op x s').Rets Q :=
    fun h => rets_sendP fun c => h
  refine Prog.Rets.bind (rets_forIn (Q := Q) (fun s' l h => ?_) _ ⟨rfl, rfl, rfl, rfl, rfl⟩) fun s' h => ?_
  · refine Prog.Rets.bind (rets_ite h (hs h)) fun s' h => ?_
    refine Prog.Rets.bind (rets_ite h (hs h)) fun s' h => ?_
    refine Prog.Rets.bind (rets_ite h (hs h)) fun s' h => ?_
    refine Prog.Rets.bind (rets_ite h (hs h)) fun s' h => ?_
    exact rets_ite h (hs h)
  · refine Prog.Rets.bind (rets_ite h (hs h)) fun s' h => ?_
    exact rets_ite h (hs h)

/-- The receives of the clean-up change, besides counters and flags, only ghost points. -/
theorem cleanRecvP_rets (s : PState V N) : (E.cleanRecvP r s).Rets fun s' =>
    (∀ l j, j ≠ 0 → s'.u l j = s.u l j) ∧ s'.solveIter = s.solveIter := by
  set Q : PState V N → Prop := fun s' => (∀ l j, j ≠ 0 → s'.u l j = s.u l j) ∧ s'.solveIter = s.solveIter with hQ
  have hs : ∀ {s' : PState V N} {src l op lu}, Q s' → (E.recvU src l op lu s').Rets Q :=
    fun h => rets_recvU fun x c f => ⟨fun l j hj => by
      show upd2 _ _ 0 x l j = _
      rw [upd2_ne _ _ (fun e => hj e.2)]
      exact h.1 l j hj, h.2⟩
  refine Prog.Rets.bind (rets_forIn (Q := Q) (fun s' l h => ?_) _ ⟨fun _ _ _ => rfl, rfl⟩) fun s' h => ?_
  · refine Prog.Rets.bind (rets_ite h (hs h)) fun s' h => ?_
    refine Prog.Rets.bind (rets_ite h (hs h)) fun s' h => ?_
    refine Prog.Rets.bind (rets_ite h (hs h)) fun s' h => ?_
    refine Prog.Rets.bind (rets_ite h (hs h)) fun s' h => ?_
    exact rets_ite h (Prog.Rets.bind (Q := fun p => Q p.2) (rets_recvP fun x c f => h)
      fun p (hp : Q p.2) => show Q p.2 from hp)
  · refine Prog.Rets.bind (rets_ite h (hs h)) fun s' h => ?_
    exact rets_ite h (hs h)

/-! ### The clean-up of one process -/

/-- The clean-up between its two waits. -/
def cleanBodyP (E : Cfg V K T N) (r : Nat) (s : PState V N) : Prog (Msg V N) (PState V N) :=
  (E.cleanSendP r s).bind fun s => if s.finIt = s.preIt then E.cleanRecvP r s else .ret s

theorem cleanUpP_eq' (hg : E.global = false) (s : PState V N) :
    E.cleanUpP r s = .wait ((E.cleanBodyP r s).bind fun s => .wait (.ret s)) := by
  rw [cleanUpP_eq hg, cleanBodyP, Prog.bind_assoc]

structure Clean (E : Cfg V K T N) (r : Nat) (s : PState V N)
    (In : Nat → List (Nat × Msg V N)) (es : List (Ev (Msg V N))) (s' : PState V N) : Prop where
  tr : Tr (E.cleanBodyP r s) es s'
  all : ∀ q, In q = rcvs q es
  sndLab : ∀ d, (snds d es).map label = Pymgrit.lab (fun x => E.nx r x = some d) E.cleanS s.tagS
  sndMsg : ∀ d t m, Ev.snd d t m ∈ es → m.fin = s.fin ∧ (∃ v, m.data = .vec v) ∧ (m.lvl, m.op) ∈ E.cleanS ∧
    E.nx r (m.lvl, m.op) = some d
  rcvSrc : ∀ q t m, Ev.rcv q t m ∈ es → ∃ x ∈ E.cleanS, E.pv r x = some q
  solveIter : s'.solveIter = s.solveIter
  u : ∀ l j, j ≠ 0 → s'.u l j = s.u l j
  data7 : ∀ d t m, Ev.snd d t m ∈ es → m.op = 7 → m.data = .vec (s.u 0 (E.len r 0 - 1))
  noRecv : s.finIt ≠ s.preIt → s'.u = s.u
  ghost : s.finIt = s.preIt → ∀ p, E.pv r (0, 7) = some p → s.sf 0 7 = false → ∃ t m, (t, m) ∈ In p ∧ m.op = 7 ∧
    m.data = .vec (s'.u 0 0)

/-- The sends of the clean-up, with the value of the last message. -/
theorem cleanSendP_stX (h : E.Base) (hg : E.global = false) (hr : r < E.P) :
    E.StX r φ E.cleanS [] (E.cleanSendP r) fun s _ es _ =>
      ∀ d t m, Ev.snd d t m ∈ es → m.op = 7 → m.data = .vec (s.u 0 (E.len r 0 - 1)) := by
  have hL : E.L = E.ts.length := rfl
  have hpos := h.valid.pos
  have h1 := forIn_st (E := E) (r := r) (φ := φ) (σS := lvlS) (σR := fun _ => []) (f := E.cleanSend r)
    (List.range (E.L - 1)) fun l hl => cleanSend_st h hg hr (by rw [List.mem_range] at hl; omega)
  have e : ((List.range (E.L - 1)).flatMap fun _ => ([] : List Slot)) = [] := by simp
  rw [e] at h1
  have h5 := St.send (φ := φ) hg h hr (l := E.L - 1) (op := 5) (by decide)
    (by rw [lvlOf_ne (by decide)]; omega) (fun s => s.u (E.L - 1) ((E.info r (E.L - 1)).idx.getLastD 0))
  have h15 := h1.comp h5
  have h7 := St.sendX (φ := φ) hg h hr (l := 0) (op := 7) (by decide) h.valid.pos
    (fun s => s.u 0 (E.len r 0 - 1))
  intro τ s In hF
  obtain ⟨es, s1, In1, a1, a2, a3, a4⟩ := h15 _ s In hF
  obtain ⟨es', s2, In2, b1, b2, b3, b4, b5, b6⟩ := h7 _ s1 In1 a3
  have b1' : Tr (if (E.info r 0).lastF then E.sendP (some (r + 1)) 0 7 (.vec (s1.u 0 (E.len r 0 - 1))) s1 else .ret s1)
      es' s2 := by
    have e : (if (E.info r 0).lastF then E.sendP (some (r + 1)) 0 7 (.vec (s1.u 0 (E.len r 0 - 1))) s1 else .ret s1) =
      if E.sendFlag 0 r 7 then
      E.sendP (E.info r (lvlOf 0 7)).sendTo 0 7 (.vec (s1.u 0 (E.len r 0 - 1))) s1 else .ret s1 := by
      show _ = if (E.info r 0).lastF then E.sendP (E.info r 0).sendTo 0 7 _ s1 else _
      split
      · rename_i hf
        rw [lastF_sendTo h hr hf]
      · rfl
    rw [e]
    exact b1
  have htr' : Tr (E.cleanSendP r s) (es ++ es') s2 := by
    unfold cleanSendP
    rw [← Prog.bind_assoc]
    exact a1.bind b1'
  have hu1 : s1.u = s.u := by
    refine (Tr.rets (Q := fun s' => s'.u = s.u) a1 ?_)
    have hs : ∀ {s' : PState V N} {dst l op x}, s'.u = s.u → (E.sendP dst l op x s').Rets fun s' => s'.u = s.u :=
      fun h => rets_sendP fun c => h
    refine Prog.Rets.bind (rets_forIn (Q := fun s' => s'.u = s.u) (fun s' l h => ?_) _ rfl) fun s' h => ?_
    · refine Prog.Rets.bind (rets_ite h (hs h)) fun s' h => ?_
      refine Prog.Rets.bind (rets_ite h (hs h)) fun s' h => ?_
      refine Prog.Rets.bind (rets_ite h (hs h)) fun s' h => ?_
      refine Prog.Rets.bind (rets_ite h (hs h)) fun s' h => ?_
      exact rets_ite h (hs h)
    · exact rets_ite h (hs h)
  refine ⟨es ++ es', s2, In2, htr', fun q => ?_, b3, ?_, fun d t m hm h7 => ?_⟩
  · rw [a2, b2, rcvs_append, List.append_assoc]
  · have := a4.comp b4
    rw [cleanS_eq]
    rw [List.append_assoc] at this
    exact this
  · rcases List.mem_append.1 hm with hm | hm
    · exfalso
      obtain ⟨-, -, c3, -⟩ := a4.sndMsg d t m hm
      have : (m.lvl, m.op) ∈ canS (E.L - 1) 0 := by
        rw [canS_eq, Nat.zero_add, ← List.range_eq_range']; exact c3
      have := (canS_lvl this).2.1
      simp only [h7] at this
      omega
    · rw [b6 d t m hm, hu1]

theorem clean_tr (h : E.Base) (hg : E.global = false) (hr : r < E.P) (s : PState V N)
    (In : Nat → List (Nat × Msg V N)) (hF : s.finIt = s.preIt → E.Feed r φ E.cleanS s In)
    (hN : s.finIt ≠ s.preIt → ∀ q, In q = []) :
    ∃ es s', Clean E r s In es s' := by
  have hL : E.L = E.ts.length := rfl
  have hpos := h.valid.pos
  have hF0 : ∃ τ, E.Feed r φ ([] ++ τ) s In ∧ (s.finIt = s.preIt → τ = E.cleanS) := by
    by_cases hc : s.finIt = s.preIt
    · exact ⟨E.cleanS, hF hc, fun _ => rfl⟩
    · refine ⟨[], ⟨fun p => ?_, fun p x hx => ?_, fun p x hx => ?_⟩, fun h => absurd h hc⟩
      · rw [hN hc p]; rfl
      · rw [hN hc p] at hx; cases hx
      · rw [hN hc p] at hx; cases hx
  obtain ⟨τ, hF0, hτ⟩ := hF0
  obtain ⟨es, s1, In1, a1, a2, a3, a4, a5⟩ := cleanSendP_stX (φ := φ) h hg hr τ s In hF0
  obtain ⟨k1, k2, k3, k4, k5⟩ := Tr.rets a1 (cleanSendP_rets s)
  by_cases hc : s.finIt = s.preIt
  · have hτ := hτ hc
    subst hτ
    -- receive
    have h1 := forIn_st (E := E) (r := r) (φ := φ) (σR := lvlS) (σS := fun _ => []) (f := E.cleanRecv r)
      (List.range (E.L - 1)) fun l hl => cleanRecv_st h hg hr (by rw [List.mem_range] at hl; omega)
    have e : ((List.range (E.L - 1)).flatMap fun _ => ([] : List Slot)) = [] := by simp
    rw [e] at h1
    have h5 := St.recv (φ := φ) hg h hr (l := E.L - 1) (op := 5) (by decide)
      (by rw [lvlOf_ne (by decide)]; omega)
    have h15 := h1.comp h5
    have h7 := St.recv7 (φ := φ) hg h hr
    have a3' := a3
    rw [cleanS_eq, ← List.append_assoc, ← List.append_nil ([(0, 7)] : List Slot), ← List.append_assoc,
      List.append_assoc _ ([(0, 7)] : List Slot)] at a3'
    obtain ⟨es2, s2, In2, b1, b2, b3, b4⟩ := h15 _ s1 In1 a3'
    obtain ⟨es3, s3, In3, c1, c2, c3, c4, c5, c6, c7⟩ := h7 _ s2 In2 b3
    have hE := b4.comp c4
    have htr : Tr (E.cleanRecvP r s1) (es2 ++ es3) s3 := by
      unfold cleanRecvP
      rw [← Prog.bind_assoc]
      exact b1.bind c1
    obtain ⟨l1, l2⟩ := Tr.rets htr (cleanRecvP_rets s1)
    have hIn3 : ∀ q, In3 q = [] := fun q => by
      have := c3.lab q
      simpa [labR] using this
    have hsub : ∀ d t m, Ev.snd d t m ∉ es2 ++ es3 := by
      intro d t m hm
      obtain ⟨-, -, c3, -⟩ := hE.sndMsg d t m hm
      simp at c3
    have h7no : ((0, 7) : Slot) ∉ (List.range (E.L - 1)).flatMap lvlS ++ [(E.L - 1, 5)] := by
      intro hx
      have : ((0, 7) : Slot) ∈ canS (E.L - 1) 0 := by
        rw [canS_eq, Nat.zero_add, ← List.range_eq_range']; exact hx
      have := (canS_lvl this).2.1
      simp at this
    refine ⟨es ++ (es2 ++ es3), s3, ?_, fun q => ?_, fun d => ?_, fun d t m hm => ?_, fun q t m hm => ?_,
      l2.trans k3, fun l j hj => ?_, fun d t m hm h7 => ?_, fun hn => absurd hc hn, fun _ p hp hs => ?_⟩
    · refine a1.bind ?_
      rw [if_pos (by rw [k4, k5]; exact hc)]
      exact htr
    · rw [a2, b2, c2, hIn3, rcvs_append, rcvs_append, List.append_nil]
    · rw [snds_append, snds_eq_nil fun t m => hsub d t m, List.append_nil]
      exact a4.sndLab d
    · rcases List.mem_append.1 hm with hm | hm
      · exact a4.sndMsg d t m hm
      · exact absurd hm (hsub _ _ _)
    · rcases List.mem_append.1 hm with hm | hm
      · obtain ⟨x, hx, -⟩ := a4.rcvSrc q t m hm
        cases hx
      · obtain ⟨x, hx, e⟩ := hE.rcvSrc q t m hm
        refine ⟨x, ?_, e⟩
        rw [cleanS_eq, ← List.append_assoc]
        exact hx
    · rw [l1 l j hj, k1]
    · rcases List.mem_append.1 hm with hm | hm
      · exact a5 d t m hm h7
      · exact absurd hm (hsub _ _ _)
    · obtain ⟨t, m, v, s0, d1, d2, d3, d4, rfl⟩ := c6 p hp (by
        rw [(b4.keepR (0, 7) h7no).1, k2]; exact hs)
      refine ⟨t, m, ?_, d2, ?_⟩
      · rw [a2, b2]
        exact List.mem_append_right _ (List.mem_append_right _ d1)
      · rw [d3]
        show _ = Payload.vec (upd2 s0.u 0 0 v 0 0)
        rw [upd2_self]
  · refine ⟨es ++ [], s1, ?_, fun q => ?_, fun d => ?_, fun d t m hm => ?_, fun q t m hm => ?_,
      k3, fun l j hj => by rw [k1], fun d t m hm h7 => ?_, fun _ => k1, fun he => absurd he hc⟩
    · refine a1.bind ?_
      rw [if_neg (by rw [k4, k5]; exact hc)]
      exact .ret _
    · have := hN hc q
      have e := a2 q
      rw [this] at e
      rw [this, List.append_nil]
      exact ((List.append_eq_nil_iff.1 e.symm).1).symm
    · rw [List.append_nil]; exact a4.sndLab d
    · rw [List.append_nil] at hm; exact a4.sndMsg d t m hm
    · rw [List.append_nil] at hm
      obtain ⟨x, hx, -⟩ := a4.rcvSrc q t m hm
      cases hx
    · rw [List.append_nil] at hm; exact a5 d t m hm h7

end Cfg

end Pymgrit
