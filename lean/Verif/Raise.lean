import Verif.PropsCrash

/-!
# Exceptions inside `solve()`

`Verif.Proc` takes the norm over time as a total function.  Here the two places of `solve` where NumPy
raises an exception are added:

* `np.linalg.norm(.., ord=np.inf)` of an empty list (mgrit.py:430, 455; `abs(x).max()`, a `ValueError` in
  NumPy before 2.3, which returns zero from that version on);
* `np.max` of the empty list of step sizes in `ouput_run_information` (mgrit.py:575-576) if there is one
  time point only (every version).
-/

set_option linter.unusedSectionVars false

namespace Pymgrit

namespace Prog
variable {M α β : Type}

/-- No path through the program returns. -/
def NoRet : Prog M α → Prop
  | .ret _ => False
  | .fail _ => True
  | .send _ _ _ k => k.NoRet
  | .recv _ _ k => ∀ m, (k m).NoRet
  | .wait k => k.NoRet

/-- Every path that returns does so with a value in `Q`. -/
def Post (Q : α → Prop) : Prog M α → Prop
  | .ret a => Q a
  | .fail _ => True
  | .send _ _ _ k => k.Post Q
  | .recv _ _ k => ∀ m, (k m).Post Q
  | .wait k => k.Post Q

theorem Post.bind {Q : α → Prop} {R : β → Prop} {p : Prog M α} {f : α → Prog M β} (hp : p.Post Q)
    (hf : ∀ a, Q a → (f a).Post R) : (p.bind f).Post R := by
  induction p with
  | ret a => exact hf a hp
  | fail e => trivial
  | send d t m k ih => exact ih hp
  | recv s t k ih => exact fun m => ih m (hp m)
  | wait k ih => exact ih hp

theorem Post.true (p : Prog M α) : p.Post fun _ => True := by
  induction p with
  | ret a => trivial
  | fail e => trivial
  | send d t m k ih => exact ih
  | recv s t k ih => exact fun m => ih m
  | wait k ih => exact ih

theorem Post.noRet {Q : α → Prop} {p : Prog M α} {f : α → Prog M β} (hp : p.Post Q)
    (hf : ∀ a, Q a → (f a).NoRet) : (p.bind f).NoRet := by
  induction p with
  | ret a => exact hf a hp
  | fail e => trivial
  | send d t m k ih => exact ih hp
  | recv s t k ih => exact fun m => ih m (hp m)
  | wait k ih => exact ih hp

theorem Post.congr {Q : α → Prop} {p : Prog M α} {f g : α → Prog M β} (hp : p.Post Q)
    (hf : ∀ a, Q a → f a = g a) : p.bind f = p.bind g := by
  induction p with
  | ret a => exact hf a hp
  | fail e => rfl
  | send d t m k ih => rw [send_bind, send_bind, ih hp]
  | recv s t k ih => rw [recv_bind, recv_bind, funext fun m => ih m (hp m)]
  | wait k ih => rw [wait_bind, wait_bind, ih hp]

theorem NoRet.bind {p : Prog M α} (hp : p.NoRet) (f : α → Prog M β) : (p.bind f).NoRet := by
  induction p with
  | ret a => exact hp.elim
  | fail e => trivial
  | send d t m k ih => exact ih hp
  | recv s t k ih => exact fun m => ih m (hp m)
  | wait k ih => exact ih hp

theorem NoRet.not_returns [Inhabited M] {p : Prog M α} (h : p.NoRet) (a : α) : ¬ p.Returns a := by
  induction p with
  | ret a => exact h.elim
  | fail e => exact id
  | send d t m k ih => exact ih h
  | recv s t k ih => exact fun h' => ih default (h default) (h' default)
  | wait k ih => exact ih h

end Prog

/-- What a program has in front of it stays true along every execution. -/
theorem XSteps.noRet {P : Nat} {M α : Type} {c c' : Conf P M α} (h : XSteps c c') {r : Fin P}
    (hr : (c.prog r).NoRet) : (c'.prog r).NoRet := by
  induction h with
  | refl => exact hr
  | tail _ h ih =>
    rename_i b d _
    obtain ⟨r', h1, h2⟩ := h
    by_cases hrr : r = r'
    · subst hrr
      revert h1 ih
      generalize b.prog r = p
      generalize d.prog r = p'
      generalize b.chan = q
      generalize d.chan = q'
      intro ih h1
      rcases h1 with h1 | ⟨k, hk, e⟩
      · cases h1 with
        | send _ => exact ih
        | recv _ => exact ih _
        | wait _ => exact ih
      · cases hk
        cases e
        exact ih
    · rw [h2 r hrr]; exact ih

/-! ### Programs that agree as long as the messages received are as expected -/

/-- The two programs of process `r` behave alike if every message received satisfies `I` (of sender, tag and
message), and send only messages that do. -/
inductive Prog.Rel {M α : Type} (I : Nat → Nat → M → Prop) (r : Nat) : Prog M α → Prog M α → Prop
  | ret (a : α) : Rel I r (.ret a) (.ret a)
  | fail (e : String) : Rel I r (.fail e) (.fail e)
  | send {d t : Nat} {m : M} {k k' : Prog M α} (hm : I r t m) (hk : Rel I r k k') :
      Rel I r (.send d t m k) (.send d t m k')
  | recv {s t : Nat} {k k' : M → Prog M α} (hk : ∀ m, I s t m → Rel I r (k m) (k' m)) :
      Rel I r (.recv s t k) (.recv s t k')
  | wait {k k' : Prog M α} (hk : Rel I r k k') : Rel I r (.wait k) (.wait k')

section rel
variable {P : Nat} {M α β : Type} {I : Nat → Nat → M → Prop}

theorem Prog.Rel.symm {r : Nat} {p p' : Prog M α} (h : p.Rel I r p') : p'.Rel I r p := by
  induction h with
  | ret a => exact .ret a
  | fail e => exact .fail e
  | send hm _ ih => exact .send hm ih
  | recv _ ih => exact .recv ih
  | wait _ ih => exact .wait ih

/-- Configurations with related programs and expected messages in transit. -/
structure Conf.Rel (I : Nat → Nat → M → Prop) (c c' : Conf P M α) : Prop where
  prog : ∀ r : Fin P, (c.prog r).Rel I r (c'.prog r)
  chan : c'.chan = c.chan
  msgs : ∀ s d t, ∀ m ∈ c.chan s d t, I s t m

theorem Conf.Rel.symm {c c' : Conf P M α} (h : c.Rel I c') : c'.Rel I c :=
  ⟨fun r => (h.prog r).symm, h.chan.symm, by rw [h.chan]; exact h.msgs⟩

theorem Conf.Rel.step {c c' d : Conf P M α} (h : c.Rel I c') (hs : Step c d) : ∃ d', Step c' d' ∧ d.Rel I d' := by
  obtain ⟨r, h1, h2⟩ := hs
  have key : ∀ (p : Prog M α) (q' : Chans M) (p' : Prog M α), LStep P r.val (c.prog r, c.chan) (p, q') →
      (c.prog r).Rel I r p' → ∃ p2, LStep P r.val (p', c.chan) (p2, q') ∧ p.Rel I r p2 ∧
        ∀ s d t, ∀ m ∈ q' s d t, I s t m := by
    have hm := h.msgs
    generalize c.prog r = p0
    generalize c.chan = q0 at hm ⊢
    intro p q' p' hl hr
    cases hl with
    | send hd =>
      cases hr with
      | send hI hk =>
        refine ⟨_, .send hd, hk, fun s d t m hmm => ?_⟩
        simp only [Chans.push] at hmm
        split at hmm
        · rename_i hc
          rcases List.mem_append.1 hmm with hmm | hmm
          · exact hm s d t m hmm
          · rw [List.mem_singleton.1 hmm, hc.1, hc.2.2]
            exact hI
        · exact hm s d t m hmm
    | recv hq =>
      cases hr with
      | recv hk =>
        refine ⟨_, .recv hq, hk _ (hm _ _ _ _ (by rw [hq]; exact List.mem_cons_self)), fun s d t m hmm => ?_⟩
        simp only [Chans.pop] at hmm
        split at hmm
        · exact hm s d t m (List.mem_of_mem_tail hmm)
        · exact hm s d t m hmm
    | wait hq =>
      cases hr with
      | wait hk => exact ⟨_, .wait hq, hk, hm⟩
  obtain ⟨p2, hp2, hr2, hI⟩ := key _ _ _ h1 (h.prog r)
  refine ⟨⟨Function.update c'.prog r p2, d.chan⟩, ⟨r, ?_, fun r' hr' => ?_⟩, ⟨fun r' => ?_, rfl, hI⟩⟩
  · rw [h.chan]
    simpa only [Function.update_self] using hp2
  · exact Function.update_of_ne hr' _ _
  · by_cases hr' : r' = r
    · subst hr'
      simpa only [Function.update_self] using hr2
    · simp only [Function.update_of_ne hr']
      rw [h2 r' hr']
      exact h.prog r'

theorem Conf.Rel.steps {c c' d : Conf P M α} (h : c.Rel I c') (hs : Steps c d) :
    ∃ d', Steps c' d' ∧ d.Rel I d' := by
  induction hs with
  | refl => exact ⟨c', .refl, h⟩
  | tail _ hs ih =>
    obtain ⟨e, he, hr⟩ := ih
    obtain ⟨e', he', hr'⟩ := hr.step hs
    exact ⟨e', he.tail he', hr'⟩

/-- Related configurations in which all processes have returned are equal. -/
theorem Conf.Rel.eq_of_done {c c' : Conf P M α} (h : c.Rel I c') (hd : c'.Done) : c = c' := by
  refine Conf.ext' (fun r => ?_) h.chan.symm
  obtain ⟨a, ha⟩ := hd r
  have := h.prog r
  rw [ha] at this ⊢
  generalize c.prog r = p at this
  cases this
  rfl

/-- No message with tag 0 is sent, and `Q` holds of what is returned. -/
def Prog.NoZero (Q : α → Prop) : Prog M α → Prop
  | .ret a => Q a
  | .fail _ => True
  | .send _ t _ k => t ≠ 0 ∧ k.NoZero Q
  | .recv _ _ k => ∀ m, (k m).NoZero Q
  | .wait k => k.NoZero Q

theorem Prog.Quiet.noZero {Q : α → Prop} {p : Prog M α} (h : p.Quiet 0 Q) : p.NoZero Q := by
  induction p with
  | ret a => exact h
  | fail e => trivial
  | send d t m k ih => exact ⟨by have := h.1; omega, ih h.2⟩
  | recv s t k ih => exact fun m => ih m (h.2 m)
  | wait k ih => exact ih h

/-- A part that both programs have in common and that sends nothing with tag 0. -/
theorem Prog.NoZero.rel {Q : α → Prop} {r : Nat} {p : Prog M α} {f f' : α → Prog M β}
    (hI : ∀ s t m, t ≠ 0 → I s t m) (h : p.NoZero Q) (hf : ∀ a, Q a → (f a).Rel I r (f' a)) :
    (p.bind f).Rel I r (p.bind f') := by
  induction p with
  | ret a => exact hf a h
  | fail e => exact .fail e
  | send d t m k ih => exact .send (hI _ _ _ h.1) (ih h.2)
  | recv s t k ih => exact .recv fun m _ => ih m (h m)
  | wait k ih => exact .wait (ih h)

theorem Prog.Quiet.and {b : Nat} {Q R : α → Prop} {p : Prog M α} (h : p.Quiet b Q) (h' : p.Post R) :
    p.Quiet b fun a => Q a ∧ R a := by
  induction p with
  | ret a => exact ⟨h, h'⟩
  | fail e => trivial
  | send d t m k ih => exact ⟨h.1, ih h.2 h'⟩
  | recv s t k ih => exact ⟨h.1, fun m => ih m (h.2 m) (h' m)⟩
  | wait k ih => exact ih h h'

end rel

namespace Cfg
variable {V K T N : Type} [LinearOrder T] [Inhabited T] (E : Cfg V K T N)

/-- `np.linalg.norm(xs, ord=self.t_norm)` raises a `ValueError`: `inf` says that `self.t_norm` is `np.inf`
(mgrit.py:182). -/
def normRaises (inf : Bool) (xs : List N) : Bool := inf && xs.isEmpty

section ops
variable [Add V] [Sub V]

/-- Gather to rank 0, the norm on rank 0, and the broadcast (mgrit.py:428-432): as `collectP`, with the
exception of the norm on rank 0. -/
def collectX (inf : Bool) (r : Nat) (val : List N) : Prog (Msg V N) (Payload V N) :=
  if r = 0 then
    (Prog.forIn' (List.range' 1 (E.P - 1)) (fun acc q =>
      .recv q 0 fun m => .ret (acc ++ [m.data])) [.nums val]).bind fun xs =>
    if normRaises inf (allNums xs) then .fail "ValueError: zero-size array" else
    (Prog.forIn' (List.range' 1 (E.P - 1)) (fun _ q =>
      .send q 1 ⟨.num (E.tnorm (allNums xs)), false, 0, 8⟩ (.ret ())) ()).bind fun _ =>
    .ret (.num (E.tnorm (allNums xs)))
  else
    .send 0 0 ⟨.nums val, false, 0, 8⟩ (.recv 0 1 fun m => .ret m.data)

/-- `convergence_criterion` (mgrit.py:415-457) with the exceptions of `np.linalg.norm`. -/
def convergenceX (inf : Bool) (r it : Nat) (s : PState V N) : Prog (Msg V N) (PState V N) :=
  (if E.convCrit = 0 ∨ E.convCrit = 2 then E.residualP r s else .ret (E.jumpP r s)).bind fun vs =>
  let val := vs.1
  let s := vs.2
  if E.global then
    (E.collectX inf r val).bind fun p =>
    match p with
    | .num x => .ret { s with conv := Function.update s.conv it x }
    | _ => .fail "wrong data"
  else
    (if 0 < r ∧ s.sf 0 6 = false then
      (E.recvP (some (r - 1)) 0 6 s).bind fun p =>
        match p.1 with
        | .flag b => .ret { p.2 with pre := b, preIt := if b then some it else p.2.preIt }
        | _ => .fail "wrong data"
     else .ret s).bind fun s =>
    let s := { s with fin := s.pre && (val.all E.ltTol || decide (it = E.maxIter)), finIt := some it }
    (if r + 1 < E.P then E.sendP (some (r + 1)) 0 6 (.flag s.fin) s else .ret s).bind fun s =>
    if normRaises inf val then .fail "ValueError: zero-size array" else
    .ret { s with conv := Function.update s.conv it (E.tnorm val) }

variable [SMul K V] [One K] [Sub K]

/-- Loop of `solve` (mgrit.py:603-635). -/
def solveLoopX (inf : Bool) (r : Nat) : Nat → Nat → PState V N → Prog (Msg V N) (PState V N)
  | 0, _, s => .ret s
  | k + 1, it, s =>
    (E.iterationP r (E.L - 1) 0 E.cyc it true { s with solveIter := it + 1 }).bind fun s =>
    (E.convergenceX inf r (it + 1) s).bind fun s =>
    let s := if E.outLvl = 2 then outputP s else s
    if E.ltTol (s.conv (it + 1)) ∨ it + 1 = E.maxIter then
      if E.global then E.cleanUpP r s
      else if (s.fin && s.pre) ∨ it + 1 = E.maxIter then E.cleanUpP r s
      else solveLoopX inf r k (it + 1) s
    else solveLoopX inf r k (it + 1) s

/-- `ouput_run_information` (mgrit.py:567-588) as far as it can fail: `np.max(t[1:] - t[:-1])`. -/
def runInfoX (s : PState V N) : Prog (Msg V N) (PState V N) :=
  if (grid E.ts 0).length < 2 then .fail "ValueError: zero-size array" else .ret s

/-- `solve` (mgrit.py:590-646) with the exceptions of NumPy. -/
def solveX (inf : Bool) (r : Nat) (s : PState V N) : Prog (Msg V N) (PState V N) :=
  (E.solveLoopX inf r E.maxIter 0 s).bind fun s =>
  (E.barrierP r).bind fun _ =>
  E.runInfoX (if E.outLvl = 1 then outputP s else s)

/-- Constructor followed by `solve()`, with the exceptions of NumPy. -/
def mainX (inf : Bool) (r : Nat) (s : PState V N) : Prog (Msg V N) (PState V N) :=
  (E.setupP r s).bind (E.solveX inf r)

end ops
end Cfg

section start
variable {V K T N : Type} [LinearOrder T] [Inhabited T] [Add V] [Sub V] [SMul K V] [One K] [Sub K] [Zero N]

/-- All processes in front of the constructor, as `startConf`. -/
def startX (E : Cfg V K T N) (inf : Bool) : Conf E.P (Msg V N) (PState V N) :=
  ⟨fun r => E.mainX inf r (E.initState (fun r l => off E.ts E.P l r) r), Chans.empty⟩

end start
end Pymgrit
