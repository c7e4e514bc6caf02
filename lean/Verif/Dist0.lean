import Verif.Hier
import Verif.NetLemmas

/-!
# The distributed program against the global sweeps: basic facts

`Rep G s`: the processes' own points hold the values of the global arrays `G`, nothing is said about
ghost points, and the tag counters of every pair of partners agree.
-/

set_option linter.unusedSectionVars false

namespace Pymgrit

variable {V K T N : Type} [LinearOrder T] [Inhabited T]

/-- Requirements on a configuration for the run on `P` processes, whatever the convergence criterion: a
valid hierarchy, at least one fine point per process, F-point orders that respect predecessors. -/
structure Cfg.Base (E : Cfg V K T N) : Prop where
  valid : Valid E.ts
  Ppos : 0 < E.P
  PN : E.P ≤ npts E.ts 0
  ord : ∀ r l, r < E.P → l < E.ts.length → OrdOK E.ts E.P (E.ord r l) r l

/-- Requirements for runs with a global criterion: in addition a global convergence criterion, and no two
neighbouring C-points separated by a process boundary, unless the step between them does not depend on its
start value. -/
structure Cfg.Good (E : Cfg V K T N) : Prop extends E.Base where
  glob : E.global = true
  noCC : ∀ r l, r < E.P → l + 1 < E.ts.length → 0 < lo E.ts E.P l r →
    lo E.ts E.P l r < npts E.ts l →
    lo E.ts E.P l r - 1 ∈ allC E.ts l ∧ lo E.ts E.P l r ∈ allC E.ts l →
    ∀ x y, E.step l x (tAt (grid E.ts l) (lo E.ts E.P l r - 1)) (tAt (grid E.ts l) (lo E.ts E.P l r)) =
      E.step l y (tAt (grid E.ts l) (lo E.ts E.P l r - 1)) (tAt (grid E.ts l) (lo E.ts E.P l r))

namespace Cfg
variable (E : Cfg V K T N)

/-- Level of the points an operation's message is about. -/
def lvlOf (l op : Nat) : Nat := if op = 4 then l + 1 else l

/-- Does process `r` send a message in operation `op` of level `l`? -/
def sendFlag (l r : Nat) : Nat → Bool
  | 0 => (E.info r l).lastC
  | 1 => (E.info r l).commBack
  | 2 => (E.info r l).lastF
  | 3 => (E.info r l).lastF
  | 4 => (E.info r (l + 1)).sendTo.isSome
  | 5 => (E.info r l).sendTo.isSome
  | 7 => (E.info r l).lastF
  | _ => false

/-- Does process `r` receive a message in operation `op` of level `l`? -/
def recvFlag (l r : Nat) : Nat → Bool
  | 0 => (E.info r l).firstF
  | 1 => (E.info r l).commFront
  | 2 => (E.info r l).firstC
  | 3 => (E.info r l).firstC
  | 4 => (E.info r (l + 1)).getFrom.isSome
  | 5 => (E.info r l).getFrom.isSome
  | 7 => (E.info r l).firstC
  | _ => false

def nxt (l op r : Nat) : Option Nat :=
  if E.sendFlag l r op then (E.info r (lvlOf l op)).sendTo else none

def prv (l op r : Nat) : Option Nat :=
  if E.recvFlag l r op then (E.info r (lvlOf l op)).getFrom else none

variable {E}

namespace Base
variable (h : E.Base)
include h

theorem spec {r l : Nat} (hr : r < E.P) (hl : l < E.ts.length) :
    LSpec E.ts E.P r l (E.info r l) :=
  setupLevel_spec h.valid h.PN hl hr (h.ord r l hr hl)

theorem lo_mono {l r r' : Nat} (hl : l < E.ts.length) (hrr : r ≤ r') (hr : r' ≤ E.P) :
    lo E.ts E.P l r ≤ lo E.ts E.P l r' := h.valid.lo_mono h.Ppos h.PN hl hrr hr

theorem lo_zero {l : Nat} (hl : l < E.ts.length) : lo E.ts E.P l 0 = 0 :=
  h.valid.lo_zero h.Ppos h.PN hl

theorem lo_pos {l r : Nat} (hl : l < E.ts.length) (hr : r ≤ E.P) (h0 : r ≠ 0) :
    0 < lo E.ts E.P l r := h.valid.lo_pos h.PN hl hr (by omega)

theorem lo_le (l r : Nat) : lo E.ts E.P l r ≤ npts E.ts l := h.valid.lo_le E.P l r

theorem off_add {l r : Nat} (hl : l < E.ts.length) (hr : r ≤ E.P) :
    off E.ts E.P l r + gh r = lo E.ts E.P l r := by
  unfold off gh
  split
  · omega
  · have := h.lo_pos hl hr (by assumption); omega

theorem adj_right {l r : Nat} (hr : r < E.P) (hl : l < E.ts.length)
    (h1 : lo E.ts E.P l r < lo E.ts E.P l (r + 1)) (h2 : lo E.ts E.P l (r + 1) < npts E.ts l) :
    ∃ q, Adj E.ts E.P l r q := by
  obtain ⟨q, hq, a, b⟩ := h.valid.exists_owner h.Ppos h.PN hl h2
  exact ⟨q, adj_of_next h.valid h.PN hl hr hq h1 a b⟩

theorem adj_left {l r : Nat} (hr : r < E.P) (hl : l < E.ts.length)
    (h1 : lo E.ts E.P l r < lo E.ts E.P l (r + 1)) (h2 : 0 < lo E.ts E.P l r) :
    ∃ q, Adj E.ts E.P l q r := by
  obtain ⟨q, hq, a, b⟩ := h.valid.exists_owner (P := E.P) (i := lo E.ts E.P l r - 1) h.Ppos h.PN hl
    (by have := h.lo_le l r; omega)
  refine ⟨q, ?_⟩
  have hqr : q < r := by
    by_contra hle
    have := h.lo_mono hl (show r ≤ q by omega) (by omega); omega
  have := h.lo_mono hl (show q + 1 ≤ r by omega) (by omega)
  exact ⟨hqr, hr, by omega, h1, by omega⟩

theorem chain {l op : Nat} (hl : lvlOf l op < E.ts.length) : Chain E.P (E.nxt l op) (E.prv l op) := by
  have key : ∀ p q, p < E.P → q < E.P → Adj E.ts E.P (lvlOf l op) p q →
      (E.sendFlag l p op = true ↔ E.recvFlag l q op = true) := by
    intro p q hp hq hadj
    have hs := h.spec hp hl
    have ht := h.spec hq hl
    obtain ⟨a1, a2, a3, a4, a5⟩ := hadj
    have e : lo E.ts E.P (lvlOf l op) (p + 1) = lo E.ts E.P (lvlOf l op) q := a5
    have hlt : lo E.ts E.P (lvlOf l op) q < npts E.ts (lvlOf l op) :=
      Nat.lt_of_lt_of_le a4 (h.lo_le _ _)
    match op with
    | 0 => exact (hs.lastC).trans (by rw [e]; exact (by
            constructor
            · rintro ⟨x1, x2, x3, x4⟩; exact ht.firstF.2 ⟨a4, by omega, x4, x3⟩
            · intro x; obtain ⟨x1, x2, x3, x4⟩ := ht.firstF.1 x; exact ⟨e ▸ a3, hlt, x4, x3⟩))
    | 1 => exact (hs.commBack).trans (by rw [e]; exact (by
            constructor
            · rintro ⟨x1, x2, x3, x4⟩; exact ht.commFront.2 ⟨a4, by omega, x4, x3⟩
            · intro x; obtain ⟨x1, x2, x3, x4⟩ := ht.commFront.1 x; exact ⟨e ▸ a3, hlt, x4, x3⟩))
    | 2 => exact (hs.lastF).trans (by rw [e]; exact (by
            constructor
            · rintro ⟨x1, x2, x3, x4⟩; exact ht.firstC.2 ⟨a4, by omega, x4, x3⟩
            · intro x; obtain ⟨x1, x2, x3, x4⟩ := ht.firstC.1 x; exact ⟨e ▸ a3, hlt, x4, x3⟩))
    | 3 => exact (hs.lastF).trans (by rw [e]; exact (by
            constructor
            · rintro ⟨x1, x2, x3, x4⟩; exact ht.firstC.2 ⟨a4, by omega, x4, x3⟩
            · intro x; obtain ⟨x1, x2, x3, x4⟩ := ht.firstC.1 x; exact ⟨e ▸ a3, hlt, x4, x3⟩))
    | 4 =>
      have b1 : (E.info p (l + 1)).sendTo = some q := (hs.sendTo q).2 ⟨a1, a2, a3, a4, a5⟩
      have b2 : (E.info q (l + 1)).getFrom = some p := (ht.getFrom p).2 ⟨a1, a2, a3, a4, a5⟩
      simp [sendFlag, recvFlag, b1, b2]
    | 5 =>
      have b1 : (E.info p l).sendTo = some q := (hs.sendTo q).2 ⟨a1, a2, a3, a4, a5⟩
      have b2 : (E.info q l).getFrom = some p := (ht.getFrom p).2 ⟨a1, a2, a3, a4, a5⟩
      simp [sendFlag, recvFlag, b1, b2]
    | 6 => simp [sendFlag, recvFlag]
    | 7 => exact (hs.lastF).trans (by rw [e]; exact (by
            constructor
            · rintro ⟨x1, x2, x3, x4⟩; exact ht.firstC.2 ⟨a4, by omega, x4, x3⟩
            · intro x; obtain ⟨x1, x2, x3, x4⟩ := ht.firstC.1 x; exact ⟨e ▸ a3, hlt, x4, x3⟩))
    | n + 8 => simp [sendFlag, recvFlag]
  constructor
  · intro p q hp hq
    have hs := h.spec hp hl
    have ht := h.spec hq hl
    unfold nxt prv
    constructor
    · intro hn
      split at hn
      · have ha := (hs.sendTo q).1 hn
        rw [if_pos ((key p q hp hq ha).1 (by assumption))]
        exact (ht.getFrom p).2 ha
      · cases hn
    · intro hn
      split at hn
      · have ha := (ht.getFrom p).1 hn
        rw [if_pos ((key p q hp hq ha).2 (by assumption))]
        exact (hs.sendTo q).2 ha
      · cases hn
  · intro p q hp hn
    unfold nxt at hn
    split at hn
    · have ha := ((h.spec hp hl).sendTo q).1 hn
      exact ⟨ha.1, ha.2.1⟩
    · cases hn
  · intro p q hq hn
    unfold prv at hn
    split at hn
    · have ha := ((h.spec hq hl).getFrom p).1 hn
      exact Nat.lt_trans ha.1 hq
    · cases hn

theorem nxt_adj {l op p q : Nat} (hl : lvlOf l op < E.ts.length) (hp : p < E.P)
    (hn : E.nxt l op p = some q) : Adj E.ts E.P (lvlOf l op) p q := by
  unfold nxt at hn
  split at hn
  · exact ((h.spec hp hl).sendTo q).1 hn
  · cases hn

theorem prv_adj {l op p q : Nat} (hl : lvlOf l op < E.ts.length) (hp : q < E.P)
    (hn : E.prv l op q = some p) : Adj E.ts E.P (lvlOf l op) p q := by
  unfold prv at hn
  split at hn
  · exact ((h.spec hp hl).getFrom p).1 hn
  · cases hn

theorem sendFlag_some {l op r : Nat} (hl : lvlOf l op < E.ts.length) (hr : r < E.P)
    (hf : E.sendFlag l r op = true) : ∃ q, E.nxt l op r = some q := by
  have hs := h.spec hr hl
  unfold nxt
  rw [if_pos hf]
  have go : lo E.ts E.P (lvlOf l op) r < lo E.ts E.P (lvlOf l op) (r + 1) →
      lo E.ts E.P (lvlOf l op) (r + 1) < npts E.ts (lvlOf l op) →
      ∃ q, (E.info r (lvlOf l op)).sendTo = some q := fun h1 h2 => by
    obtain ⟨q, hq⟩ := h.adj_right hr hl h1 h2
    exact ⟨q, (hs.sendTo q).2 hq⟩
  match op with
  | 0 => have := hs.lastC.1 hf; exact go this.1 this.2.1
  | 1 => have := hs.commBack.1 hf; exact go this.1 this.2.1
  | 2 => have := hs.lastF.1 hf; exact go this.1 this.2.1
  | 3 => have := hs.lastF.1 hf; exact go this.1 this.2.1
  | 4 => exact Option.isSome_iff_exists.1 hf
  | 5 => exact Option.isSome_iff_exists.1 hf
  | 6 => cases hf
  | 7 => have := hs.lastF.1 hf; exact go this.1 this.2.1
  | n + 8 => cases hf

theorem recvFlag_some {l op r : Nat} (hl : lvlOf l op < E.ts.length) (hr : r < E.P)
    (hf : E.recvFlag l r op = true) : ∃ q, E.prv l op r = some q := by
  have hs := h.spec hr hl
  unfold prv
  rw [if_pos hf]
  have go : lo E.ts E.P (lvlOf l op) r < lo E.ts E.P (lvlOf l op) (r + 1) →
      1 ≤ lo E.ts E.P (lvlOf l op) r →
      ∃ q, (E.info r (lvlOf l op)).getFrom = some q := fun h1 h2 => by
    obtain ⟨q, hq⟩ := h.adj_left hr hl h1 h2
    exact ⟨q, (hs.getFrom q).2 hq⟩
  match op with
  | 0 => have := hs.firstF.1 hf; exact go this.1 this.2.1
  | 1 => have := hs.commFront.1 hf; exact go this.1 this.2.1
  | 2 => have := hs.firstC.1 hf; exact go this.1 this.2.1
  | 3 => have := hs.firstC.1 hf; exact go this.1 this.2.1
  | 4 => exact Option.isSome_iff_exists.1 hf
  | 5 => exact Option.isSome_iff_exists.1 hf
  | 6 => cases hf
  | 7 => have := hs.firstC.1 hf; exact go this.1 this.2.1
  | n + 8 => cases hf

end Base

/-! ### Representation -/

/-- Fields that the cycle does not touch. -/
structure Same (s s' : PState V N) : Prop where
  saved : s'.saved = s.saved
  conv : s'.conv = s.conv
  fin : s'.fin = s.fin
  finIt : s'.finIt = s.finIt
  pre : s'.pre = s.pre
  preIt : s'.preIt = s.preIt
  solveIter : s'.solveIter = s.solveIter
  outs : s'.outs = s.outs

theorem Same.refl (s : PState V N) : Same s s := ⟨rfl, rfl, rfl, rfl, rfl, rfl, rfl, rfl⟩

theorem Same.trans {a b c : PState V N} (h1 : Same a b) (h2 : Same b c) : Same a c :=
  ⟨h2.saved.trans h1.saved, h2.conv.trans h1.conv, h2.fin.trans h1.fin, h2.finIt.trans h1.finIt,
    h2.pre.trans h1.pre, h2.preIt.trans h1.preIt, h2.solveIter.trans h1.solveIter,
    h2.outs.trans h1.outs⟩

variable (E)

/-- Process `r` holds the values of the global arrays at its own points. -/
structure LRep (G : GState V) (r : Nat) (s : PState V N) : Prop where
  u : ∀ l i, l < E.ts.length → lo E.ts E.P l r ≤ i → i < lo E.ts E.P l (r + 1) →
    s.u l (i - off E.ts E.P l r) = G.u l i
  v : ∀ l i, l < E.ts.length → lo E.ts E.P l r ≤ i → i < lo E.ts E.P l (r + 1) →
    s.v l (i - off E.ts E.P l r) = G.v l i
  g : ∀ l i, l < E.ts.length → lo E.ts E.P l r ≤ i → i < lo E.ts E.P l (r + 1) →
    s.g l (i - off E.ts E.P l r) = G.g l i
  sf : ∀ l op, s.sf l op = false

/-- Tag counters of partners agree. -/
def Tags (s : Nat → PState V N) : Prop :=
  ∀ l op p q, lvlOf l op < E.ts.length → p < E.P → E.nxt l op p = some q →
    (s p).tagS l op = (s q).tagR l op

structure Rep (G : GState V) (s : Nat → PState V N) : Prop where
  loc : ∀ r, r < E.P → E.LRep G r (s r)
  tags : E.Tags s

/-- Increase of the tag counters by a message of operation `op` on level `l`. -/
structure Bump (l op r : Nat) (s s' : PState V N) : Prop where
  S : s'.tagS = if E.sendFlag l r op then upd2 s.tagS l op (s.tagS l op + 1) else s.tagS
  R : s'.tagR = if E.recvFlag l r op then upd2 s.tagR l op (s.tagR l op + 1) else s.tagR

variable {E}

theorem upd2_self {A : Type} (a : Nat → Nat → A) (l i : Nat) (x : A) : upd2 a l i x l i = x := by
  simp [upd2]

theorem upd2_ne {A : Type} (a : Nat → Nat → A) {l i l' i' : Nat} (x : A) (h : ¬ (l' = l ∧ i' = i)) :
    upd2 a l i x l' i' = a l' i' := by
  unfold upd2
  by_cases h1 : l' = l
  · subst h1
    have : i' ≠ i := fun e => h ⟨rfl, e⟩
    simp [this]
  · simp [h1]

theorem upd2_lvl_ne {A : Type} (a : Nat → Nat → A) {l l' : Nat} (i : Nat) (x : A) (h : l' ≠ l) :
    upd2 a l i x l' = a l' := by
  simp [upd2, h]

theorem Tags.bump (h : E.Good) {s s' : Nat → PState V N} (ht : E.Tags s) {l op : Nat}
    (hl : lvlOf l op < E.ts.length) (hb : ∀ r, r < E.P → E.Bump l op r (s r) (s' r)) : E.Tags s' := by
  intro l' op' p q hl' hp hn
  have hq := ((h.chain hl').up p q hp hn).2
  rw [(hb p hp).S, (hb q hq).R]
  by_cases he : l' = l ∧ op' = op
  · obtain ⟨rfl, rfl⟩ := he
    have h1 : E.sendFlag l' p op' = true := by
      by_contra hc
      rw [nxt, if_neg hc] at hn; cases hn
    have hn' := ((h.chain hl').iff p q hp hq).1 hn
    have h2 : E.recvFlag l' q op' = true := by
      by_contra hc
      rw [prv, if_neg hc] at hn'; cases hn'
    rw [if_pos h1, if_pos h2, upd2_self, upd2_self, ht l' op' p q hl' hp hn]
  · have := ht l' op' p q hl' hp hn
    split <;> split <;> (try simp only [upd2_ne _ _ he]) <;> exact this

/-! ### Single communication steps -/

def sentS (s : PState V N) (l op : Nat) : PState V N :=
  { s with tagS := upd2 s.tagS l op (s.tagS l op + 1) }

def rcvdS (s : PState V N) (l op : Nat) : PState V N :=
  { s with tagR := upd2 s.tagR l op (s.tagR l op + 1) }

theorem sendP_run {β : Type} (hg : E.global = true) {d : Nat} (hd : d < E.P) (l op r : Nat)
    (x : Payload V N) (s : PState V N) (k : PState V N → Prog (Msg V N) β) (q : Chans (Msg V N)) :
    LRun E.P r ((E.sendP (some d) l op x s).bind k, q)
      (k (sentS s l op), q.push r d (s.tagS l op) ⟨x, false, l, op⟩) := by
  unfold sendP
  simp only [hg, if_true, Prog.send_bind, Prog.ret_bind]
  exact LRun.send_step hd

theorem recvP_run {β : Type} (hg : E.global = true) {p : Nat} (l op r : Nat) (y : Payload V N)
    (s : PState V N) (k : Payload V N × PState V N → Prog (Msg V N) β) (q : Chans (Msg V N))
    (hq : q p r (s.tagR l op) = [⟨y, false, l, op⟩]) :
    LRun E.P r ((E.recvP (some p) l op s).bind k, q)
      (k (y, rcvdS s l op), q.pop p r (s.tagR l op)) := by
  unfold recvP
  simp only [hg, if_true, Prog.recv_bind]
  refine (LRun.recv_step hq).trans ?_
  simp only [decide_true, Bool.and_self, Bool.not_true, Bool.and_false, Bool.false_eq_true, if_false,
    Prog.ret_bind]
  exact Relation.ReflTransGen.refl

theorem recvU_run {β : Type} (hg : E.global = true) {p : Nat} (l op lu r : Nat) (y : V)
    (s : PState V N) (k : PState V N → Prog (Msg V N) β) (q : Chans (Msg V N))
    (hq : q p r (s.tagR l op) = [⟨.vec y, false, l, op⟩]) :
    LRun E.P r ((E.recvU (some p) l op lu s).bind k, q)
      (k ((rcvdS s l op).setU lu 0 y), q.pop p r (s.tagR l op)) := by
  unfold recvU
  rw [Prog.bind_assoc]
  exact recvP_run hg l op r (.vec y) s _ q hq

/-- A phase that can be run in rank order, with the outcome described per process. -/
theorem runs_of_local {α M : Type} {P : Nat} (hne : Nonempty α) {f : Nat → Prog M α}
    {Post : Nat → α → Prop}
    (Q : Nat → Chans M) (h0 : Q 0 = Chans.empty) (hP : Q P = Chans.empty)
    (h : ∀ r, r < P → ∃ a, Post r a ∧ ∀ (β : Type) (k : α → Prog M β),
      LRun P r ((f r).bind k, Q r) (k a, Q (r + 1))) :
    ∃ a : Nat → α, (∀ r, r < P → Post r (a r)) ∧ Runs P f a := by
  choose! a ha using h
  exact ⟨a, fun r hr => (ha r hr).1, Runs.of_rankOrder Q h0 hP fun r hr k => (ha r hr).2 _ k⟩

/-! ### Exchange phases: send the last point, then receive the ghost point -/

/-- Send (if `cs`) and receive (if `cr`) a vector. -/
def exP (E : Cfg V K T N) (l op lu r : Nat) (x : V) (s : PState V N) :
    Prog (Msg V N) (PState V N) :=
  (if E.sendFlag l r op then E.sendP (E.info r (lvlOf l op)).sendTo l op (.vec x) s
    else .ret s).bind fun s =>
  (if E.recvFlag l r op && !s.sf l op then E.recvU (E.info r (lvlOf l op)).getFrom l op lu s
    else .ret s)

/-- Messages of a phase. -/
abbrev phasePend (E : Cfg V K T N) (s : Nat → PState V N) (l op : Nat) (x : Nat → V) (r : Nat) :
    Chans (Msg V N) :=
  pend E.P (E.nxt l op) (fun p => (s p).tagS l op) (fun p => ⟨.vec (x p), false, l, op⟩) r

abbrev phasePendI (E : Cfg V K T N) (s : Nat → PState V N) (l op : Nat) (x : Nat → V) (r : Nat)
    (rc sd : Bool) : Chans (Msg V N) :=
  pendI E.P (E.nxt l op) (fun p => (s p).tagS l op) (fun p => ⟨.vec (x p), false, l, op⟩) r rc sd

theorem recvFlag_false {l op r : Nat} (hf : ¬ E.recvFlag l r op = true) : E.prv l op r = none := by
  rw [prv, if_neg hf]

theorem sendFlag_false {l op r : Nat} (hf : ¬ E.sendFlag l r op = true) : E.nxt l op r = none := by
  rw [nxt, if_neg hf]

theorem phase_sd {l op r : Nat} (s : Nat → PState V N) (x : Nat → V)
    (hf : ¬ E.sendFlag l r op = true) (rc sd sd' : Bool) :
    phasePendI E s l op x r rc sd = phasePendI E s l op x r rc sd' :=
  pendI_sd (sendFlag_false hf) rc sd sd'

theorem phase_rc (h : E.Good) {l op r : Nat} (hl : lvlOf l op < E.ts.length) (hr : r < E.P)
    (s : Nat → PState V N) (x : Nat → V) (hf : ¬ E.recvFlag l r op = true) (rc rc' sd : Bool) :
    phasePendI E s l op x r rc sd = phasePendI E s l op x r rc' sd :=
  (h.chain hl).pendI_rc hr (recvFlag_false hf) rc rc' sd

/-- Receiving in a rank-ordered phase. -/
theorem phase_recv {β : Type} (h : E.Good) {l op lu r p : Nat} (hl : lvlOf l op < E.ts.length)
    (hr : r < E.P) {s : Nat → PState V N} (ht : E.Tags s) (x : Nat → V) {st : PState V N}
    (htag : st.tagR l op = (s r).tagR l op) (hp : E.prv l op r = some p) (sd : Bool)
    (k : PState V N → Prog (Msg V N) β) :
    LRun E.P r ((E.recvU (E.info r (lvlOf l op)).getFrom l op lu st).bind k,
        phasePendI E s l op x r false sd)
      (k ((rcvdS st l op).setU lu 0 (x p)), phasePendI E s l op x r true sd) := by
  have hc := h.chain hl
  have hpP := hc.down p r hr hp
  have hn := (hc.iff p r hpP hr).2 hp
  have hgf : (E.info r (lvlOf l op)).getFrom = some p := by
    unfold prv at hp
    split at hp
    · exact hp
    · cases hp
  rw [hgf]
  have htg : st.tagR l op = (s p).tagS l op := by rw [htag, ht l op p r hl hpP hn]
  have := recvU_run (E := E) h.glob (p := p) l op lu r (x p) st k (phasePendI E s l op x r false sd)
    (by rw [htg]; exact hc.pendI_recv hr hp sd)
  rw [htg] at this
  rw [hc.pendI_pop (tg := fun p => (s p).tagS l op) hr hp sd] at this
  exact this

/-- Sending in a rank-ordered phase. -/
theorem phase_send {β : Type} (h : E.Good) {l op r q : Nat} (hl : lvlOf l op < E.ts.length)
    (hr : r < E.P) {s : Nat → PState V N} (x : Nat → V) {st : PState V N}
    (htag : st.tagS l op = (s r).tagS l op) (hn : E.nxt l op r = some q) (rc : Bool)
    (k : PState V N → Prog (Msg V N) β) :
    LRun E.P r ((E.sendP (E.info r (lvlOf l op)).sendTo l op (.vec (x r)) st).bind k,
        phasePendI E s l op x r rc false)
      (k (sentS st l op), phasePendI E s l op x r rc true) := by
  have hc := h.chain hl
  have hup := hc.up r q hr hn
  have hst : (E.info r (lvlOf l op)).sendTo = some q := by
    unfold nxt at hn
    split at hn
    · exact hn
    · cases hn
  rw [hst]
  have := sendP_run (E := E) h.glob hup.2 l op r (.vec (x r)) st k (phasePendI E s l op x r rc false)
  rw [htag] at this
  rw [hc.pendI_push (tg := fun p => (s p).tagS l op)
    (msg := fun p => (⟨.vec (x p), false, l, op⟩ : Msg V N)) hr hn rc] at this
  exact this

/-- State of process `r` after an exchange. -/
def afterEx (E : Cfg V K T N) (l op lu : Nat) (x : Nat → V) (r : Nat) (s : PState V N) :
    PState V N :=
  let s1 := if E.sendFlag l r op then sentS s l op else s
  match E.prv l op r with
  | some p => (rcvdS s1 l op).setU lu 0 (x p)
  | none => s1

theorem exP_runs (h : E.Good) {l op lu : Nat} (hl : lvlOf l op < E.ts.length)
    {s : Nat → PState V N} (ht : E.Tags s) (hsf : ∀ r, r < E.P → (s r).sf l op = false)
    (x : Nat → V) :
    Runs E.P (fun r => exP E l op lu r (x r) (s r)) (fun r => afterEx E l op lu x r (s r)) := by
  have hc := h.chain hl
  refine Runs.of_rankOrder (phasePend E s l op x) pend_zero (pend_last hc) ?_
  intro β r hr k
  show LRun E.P r _ (_, phasePend E s l op x (r + 1))
  unfold exP phasePend
  rw [Prog.bind_assoc, ← pendI_start, ← pendI_done]
  -- sending
  have hsend : LRun E.P r
      ((if E.sendFlag l r op then E.sendP (E.info r (lvlOf l op)).sendTo l op (.vec (x r)) (s r)
        else .ret (s r)).bind fun a =>
        ((if E.recvFlag l r op && !a.sf l op then E.recvU (E.info r (lvlOf l op)).getFrom l op lu a
          else .ret a).bind k), phasePendI E s l op x r false false)
      ((if E.recvFlag l r op && !(if E.sendFlag l r op then sentS (s r) l op else s r).sf l op then
          E.recvU (E.info r (lvlOf l op)).getFrom l op lu
            (if E.sendFlag l r op then sentS (s r) l op else s r)
          else .ret (if E.sendFlag l r op then sentS (s r) l op else s r)).bind k,
        phasePendI E s l op x r false true) := by
    by_cases hf : E.sendFlag l r op = true
    · obtain ⟨q, hq⟩ := h.sendFlag_some hl hr hf
      simp only [hf, if_true]
      exact phase_send h hl hr x rfl hq false _
    · rw [phase_sd s x hf false false true]
      simp only [hf]
      exact Relation.ReflTransGen.refl
  refine hsend.trans ?_
  have hsf1 : (if E.sendFlag l r op then sentS (s r) l op else s r).sf l op = false := by
    split <;> exact hsf r hr
  have htR : (if E.sendFlag l r op then sentS (s r) l op else s r).tagR l op
      = (s r).tagR l op := by
    split <;> rfl
  rw [hsf1]
  by_cases hf : E.recvFlag l r op = true
  · obtain ⟨p, hp⟩ := h.recvFlag_some hl hr hf
    simp only [hf, Bool.not_false, Bool.and_self, if_true]
    have := phase_recv (lu := lu) h hl hr ht x htR hp true k
    unfold afterEx
    rw [hp]
    exact this
  · have hp := recvFlag_false hf
    rw [phase_rc h hl hr s x hf false true true]
    unfold afterEx
    simp only [hf, hp, Bool.false_and]
    exact Relation.ReflTransGen.refl

theorem afterEx_u_lvl {l op lu r l' : Nat} {x : Nat → V} {s : PState V N} (hne : l' ≠ lu) :
    (afterEx E l op lu x r s).u l' = s.u l' := by
  unfold afterEx
  simp only
  split
  · simp only [PState.setU, upd2_lvl_ne _ _ _ hne, rcvdS]
    split <;> rfl
  · split <;> rfl

theorem afterEx_u_pos {l op lu r l' j : Nat} {x : Nat → V} {s : PState V N} (hj : j ≠ 0) :
    (afterEx E l op lu x r s).u l' j = s.u l' j := by
  unfold afterEx
  simp only
  split
  · simp only [PState.setU, rcvdS]
    rw [upd2_ne _ _ (by omega)]
    split <;> rfl
  · split <;> rfl

theorem afterEx_u_none {l op lu r : Nat} {x : Nat → V} {s : PState V N}
    (hp : E.prv l op r = none) : (afterEx E l op lu x r s).u = s.u := by
  unfold afterEx
  simp only [hp]
  split <;> rfl

theorem afterEx_u_ghost {l op lu r p : Nat} {x : Nat → V} {s : PState V N}
    (hp : E.prv l op r = some p) : (afterEx E l op lu x r s).u lu 0 = x p := by
  unfold afterEx
  simp only [hp, PState.setU]
  exact upd2_self _ _ _ _

theorem afterEx_rest {l op lu r : Nat} {x : Nat → V} {s : PState V N} :
    (afterEx E l op lu x r s).v = s.v ∧ (afterEx E l op lu x r s).g = s.g ∧
      (afterEx E l op lu x r s).sf = s.sf := by
  unfold afterEx
  simp only
  split <;> split <;> exact ⟨rfl, rfl, rfl⟩

theorem afterEx_same {l op lu r : Nat} {x : Nat → V} {s : PState V N} :
    Same s (afterEx E l op lu x r s) := by
  unfold afterEx
  simp only
  split <;> split <;> exact ⟨rfl, rfl, rfl, rfl, rfl, rfl, rfl, rfl⟩

theorem afterEx_bump (h : E.Good) {l op lu r : Nat} (hl : lvlOf l op < E.ts.length) (hr : r < E.P)
    {x : Nat → V} {s : PState V N} : E.Bump l op r s (afterEx E l op lu x r s) := by
  unfold afterEx
  by_cases hf : E.recvFlag l r op = true
  · obtain ⟨p, hp⟩ := h.recvFlag_some hl hr hf
    simp only [hp]
    constructor
    · simp only [PState.setU, rcvdS]
      split <;> rfl
    · simp only [PState.setU, rcvdS, hf, if_true]
      split <;> rfl
  · have hp := recvFlag_false hf
    simp only [hp]
    constructor
    · split <;> rfl
    · rw [if_neg hf]
      split <;> rfl

/-- Own points never sit at the ghost index. -/
theorem Base.own_ne (h : E.Base) {l r i : Nat} (hl : l < E.ts.length) (hr : r ≤ E.P) (h0 : r ≠ 0)
    (hi : lo E.ts E.P l r ≤ i) : i - off E.ts E.P l r ≠ 0 := by
  have := h.off_add hl hr
  simp only [gh, h0, if_false] at this
  omega

theorem prv_ne_zero (h : E.Good) {l op r p : Nat} (hl : lvlOf l op < E.ts.length) (hr : r < E.P)
    (hp : E.prv l op r = some p) : r ≠ 0 := by
  have := (h.prv_adj hl hr hp).1
  omega

theorem afterEx_lrep (h : E.Good) {l op lu r : Nat} (hl : lvlOf l op < E.ts.length) (hr : r < E.P)
    {x : Nat → V} {G : GState V} {s : PState V N} (hR : E.LRep G r s) :
    E.LRep G r (afterEx E l op lu x r s) where
  u := by
    intro l' i hl' h1 h2
    rcases hp : E.prv l op r with _ | p
    · rw [afterEx_u_none hp]; exact hR.u l' i hl' h1 h2
    · rw [afterEx_u_pos (h.own_ne hl' (Nat.le_of_lt hr) (prv_ne_zero h hl hr hp) h1)]
      exact hR.u l' i hl' h1 h2
  v := by rw [afterEx_rest.1]; exact hR.v
  g := by rw [afterEx_rest.2.1]; exact hR.g
  sf := by rw [afterEx_rest.2.2]; exact hR.sf

theorem afterEx_rep (h : E.Good) {l op lu : Nat} (hl : lvlOf l op < E.ts.length)
    {x : Nat → V} {G : GState V} {s : Nat → PState V N} (hR : E.Rep G s) :
    E.Rep G (fun r => afterEx E l op lu x r (s r)) where
  loc := fun r hr => afterEx_lrep h hl hr (hR.loc r hr)
  tags := hR.tags.bump h hl fun r hr => afterEx_bump h hl hr

end Cfg
end Pymgrit
