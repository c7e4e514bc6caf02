import Verif.Net
import Mathlib.Data.List.Range

/-! Derived rules for running phases of communicating programs. -/

namespace Pymgrit

variable {M α β γ : Type} {P : Nat}

/-- Started with empty channels, all processes `r < P` can run `f r` to completion with result
`a r`, whatever they do afterwards, leaving all channels empty. -/
def Runs (P : Nat) (f : Nat → Prog M α) (a : Nat → α) : Prop :=
  ∀ (β : Type) (k : Nat → α → Prog M β),
    Steps (⟨fun r : Fin P => (f r.val).bind (k r.val), Chans.empty⟩ : Conf P M β)
      ⟨fun r : Fin P => k r.val (a r.val), Chans.empty⟩

theorem Runs.ret (a : Nat → α) : Runs P (fun r => (Prog.ret (a r) : Prog M α)) a := by
  intro β k
  exact Relation.ReflTransGen.refl

theorem Runs.bind {f : Nat → Prog M α} {a : Nat → α} {g : Nat → α → Prog M γ} {b : Nat → γ}
    (h1 : Runs P f a) (h2 : Runs P (fun r => g r (a r)) b) :
    Runs P (fun r => (f r).bind (g r)) b := by
  intro β k
  have e1 := h1 β (fun r x => (g r x).bind (k r))
  have e2 := h2 β k
  simp only [Prog.bind_assoc]
  exact e1.trans e2

theorem Runs.congr {f f' : Nat → Prog M α} {a a' : Nat → α} (h : Runs P f a)
    (hf : ∀ r, r < P → f' r = f r) (ha : ∀ r, r < P → a' r = a r) : Runs P f' a' := by
  intro β k
  have e : (fun r : Fin P => (f' r.val).bind (k r.val)) = fun r : Fin P => (f r.val).bind (k r.val) := by
    funext r; rw [hf r.val r.isLt]
  have e2 : (fun r : Fin P => k r.val (a' r.val)) = fun r : Fin P => k r.val (a r.val) := by
    funext r; rw [ha r.val r.isLt]
  rw [e, e2]
  exact h β k

theorem Runs.pure {f : Nat → Prog M α} {a : Nat → α} (h : ∀ r, r < P → f r = Prog.ret (a r)) :
    Runs P f a := by
  have h0 : Runs P (fun r => (Prog.ret (a r) : Prog M α)) a := Runs.ret a
  exact Runs.congr h0 h fun _ _ => rfl

/-- A phase in which the processes can run one after the other in rank order. -/
theorem Runs.of_rankOrder {f : Nat → Prog M α} {a : Nat → α} (Q : Nat → Chans M)
    (h0 : Q 0 = Chans.empty) (hP : Q P = Chans.empty)
    (h : ∀ {β : Type} (r : Nat), r < P → ∀ k : α → Prog M β,
      LRun P r ((f r).bind k, Q r) (k (a r), Q (r + 1))) : Runs P f a := by
  intro β k
  have := Steps.rankOrder (P := P) (fun r => (f r.val).bind (k r.val)) (fun r => k r.val (a r.val)) Q
    (fun r => h r.val r.isLt (k r.val))
  rwa [h0, hP] at this

/-! ### Chains: every process sends at most one message to a higher rank -/

/-- `nxt p = some q` : `p` sends one message to `q > p`; `prv` is the inverse. -/
structure Chain (P : Nat) (nxt prv : Nat → Option Nat) : Prop where
  iff : ∀ p q, p < P → q < P → (nxt p = some q ↔ prv q = some p)
  up : ∀ p q, p < P → nxt p = some q → p < q ∧ q < P
  down : ∀ p q, q < P → prv q = some p → p < P

/-- Channels holding the messages of those links `s → d` with `A s d`. -/
def chanOf (nxt : Nat → Option Nat) (tg : Nat → Nat) (msg : Nat → M) (A : Nat → Nat → Bool) :
    Chans M :=
  fun s d t => if A s d ∧ nxt s = some d ∧ t = tg s then [msg s] else []

/-- Messages pending while process `r` runs: `rc` – it has received its message, `sd` – it has sent. -/
def pendA (r : Nat) (rc sd : Bool) (s d : Nat) : Bool :=
  (decide (s < r) || (decide (s = r) && sd)) && (decide (r < d) || (decide (d = r) && !rc))

section chain
variable {nxt prv : Nat → Option Nat} {tg : Nat → Nat} {msg : Nat → M}

theorem chanOf_congr {A B : Nat → Nat → Bool}
    (h : ∀ s d, nxt s = some d → A s d = B s d) : chanOf nxt tg msg A = chanOf nxt tg msg B := by
  funext s d t
  unfold chanOf
  by_cases hn : nxt s = some d
  · rw [h s d hn]
  · simp [hn]

theorem chanOf_empty {A : Nat → Nat → Bool} (h : ∀ s d, nxt s = some d → A s d = false) :
    chanOf nxt tg msg A = Chans.empty := by
  funext s d t
  unfold chanOf Chans.empty
  by_cases hn : nxt s = some d
  · simp [h s d hn]
  · simp [hn]

/-- Pending messages before process `r` runs in a rank-ordered phase. -/
def pend (P : Nat) (nxt : Nat → Option Nat) (tg : Nat → Nat) (msg : Nat → M) (r : Nat) : Chans M :=
  chanOf nxt tg msg fun s d => decide (s < P) && decide (s < r) && decide (r ≤ d)

theorem pend_zero : pend P nxt tg msg 0 = Chans.empty :=
  chanOf_empty fun s d _ => by simp

theorem pend_last (hc : Chain P nxt prv) : pend P nxt tg msg P = Chans.empty := by
  funext s d t
  unfold pend chanOf Chans.empty
  split
  · rename_i h
    simp only [Bool.and_eq_true, decide_eq_true_eq] at h
    have := hc.up s d h.1.1.1 h.2.1
    omega
  · rfl

/-- The four intermediate channel contents of a rank-ordered phase. -/
def pendI (P : Nat) (nxt : Nat → Option Nat) (tg : Nat → Nat) (msg : Nat → M) (r : Nat)
    (rc sd : Bool) : Chans M :=
  chanOf nxt tg msg fun s d => decide (s < P) && pendA r rc sd s d

theorem pendI_start : pendI P nxt tg msg r false false = pend P nxt tg msg r := by
  apply chanOf_congr
  intro s d _
  rw [Bool.eq_iff_iff]
  simp [pendA]
  omega

theorem pendI_done {r : Nat} :
    pendI P nxt tg msg r true true = pend P nxt tg msg (r + 1) := by
  apply chanOf_congr
  intro s d _
  rw [Bool.eq_iff_iff]
  simp [pendA]
  omega

/-- If nothing is received the flag `rc` does not matter. -/
theorem Chain.pendI_rc (hc : Chain P nxt prv) {r : Nat} (hr : r < P) (hp : prv r = none)
    (rc rc' sd : Bool) :
    pendI P nxt tg msg r rc sd = pendI P nxt tg msg r rc' sd := by
  apply chanOf_congr
  intro s d hn
  by_cases hs : s < P
  · have hd : d ≠ r := by
      rintro rfl
      have := (hc.iff s d hs hr).1 hn
      rw [hp] at this; cases this
    simp [pendA, hd]
  · simp [hs]

/-- If nothing is sent the flag `sd` does not matter. -/
theorem pendI_sd {r : Nat} (hp : nxt r = none) (rc sd sd' : Bool) :
    pendI P nxt tg msg r rc sd = pendI P nxt tg msg r rc sd' := by
  apply chanOf_congr
  intro s d hn
  have hd : s ≠ r := by rintro rfl; rw [hp] at hn; cases hn
  simp [pendA, hd]

theorem Chain.pendI_recv (hc : Chain P nxt prv) {r p : Nat} (hr : r < P) (hp : prv r = some p)
    (sd : Bool) : pendI P nxt tg msg r false sd p r (tg p) = [msg p] := by
  have hpP := hc.down p r hr hp
  have hn := (hc.iff p r hpP hr).2 hp
  have := hc.up p r hpP hn
  unfold pendI chanOf
  rw [if_pos]
  refine ⟨?_, hn, rfl⟩
  simp [pendA, this.1, hpP]

theorem Chain.pendI_pop (hc : Chain P nxt prv) {r p : Nat} (hr : r < P) (hp : prv r = some p)
    (sd : Bool) : (pendI P nxt tg msg r false sd).pop p r (tg p) = pendI P nxt tg msg r true sd := by
  have hpP := hc.down p r hr hp
  funext s d t
  unfold Chans.pop
  split
  · rename_i h
    obtain ⟨rfl, rfl, rfl⟩ := h
    rw [hc.pendI_recv hr hp]
    unfold pendI chanOf
    rw [if_neg]
    · rfl
    · simp [pendA]
  · rename_i h
    unfold pendI chanOf
    by_cases hn : nxt s = some d
    · by_cases hd : d = r
      · by_cases hs : s < P
        · have h1 := (hc.iff s d hs (hd ▸ hr)).1 hn
          rw [hd, hp] at h1
          cases h1
          have ht : t ≠ tg p := fun e => h ⟨rfl, hd, e⟩
          simp [ht]
        · simp [hs]
      · simp [pendA, hd]
    · simp [hn]

theorem Chain.pendI_push (hc : Chain P nxt prv) {r q : Nat} (hr : r < P) (hq : nxt r = some q)
    (rc : Bool) : (pendI P nxt tg msg r rc false).push r q (tg r) (msg r)
      = pendI P nxt tg msg r rc true := by
  have hu := hc.up r q hr hq
  funext s d t
  unfold Chans.push
  split
  · rename_i h
    obtain ⟨rfl, rfl, rfl⟩ := h
    unfold pendI chanOf
    simp [pendA, hq, hr, hu.1]
  · rename_i h
    unfold pendI chanOf
    by_cases hn : nxt s = some d
    · by_cases hs : s = r
      · subst hs
        rw [hq] at hn
        cases hn
        have ht : t ≠ tg s := fun e => h ⟨rfl, rfl, e⟩
        simp [ht]
      · simp [pendA, hs]
    · simp [hn]

end chain

/-- Single steps of process `r`. -/
theorem LRun.send_step {r d t : Nat} {m : M} {k : Prog M α} {q : Chans M} (hd : d < P) :
    LRun P r (Prog.send d t m k, q) (k, q.push r d t m) :=
  Relation.ReflTransGen.single (LStep.send hd)

theorem LRun.recv_step {r s t : Nat} {m : M} {ms : List M} {k : M → Prog M α} {q : Chans M}
    (h : q s r t = m :: ms) : LRun P r (Prog.recv s t k, q) (k m, q.pop s r t) :=
  Relation.ReflTransGen.single (LStep.recv h)

/-! ### Waiting with empty channels -/

theorem Runs.wait {f : Nat → Prog M α} {a : Nat → α} (h : Runs P f a) :
    Runs P (fun r => Prog.wait (f r)) a := by
  intro β k
  have h1 : Steps (⟨fun r : Fin P => (Prog.wait (f r.val)).bind (k r.val), Chans.empty⟩ : Conf P M β)
      ⟨fun r : Fin P => (f r.val).bind (k r.val), Chans.empty⟩ :=
    Steps.rankOrder _ _ (fun _ => Chans.empty) fun r =>
      Relation.ReflTransGen.single (LStep.wait fun _ _ => rfl)
  exact h1.trans (h β k)

/-! ### Gather followed by broadcast -/

section collect
variable {D : Type}

/-- Channels during the gather: the messages of ranks `1, …, k-1` for rank 0. -/
def gatherChan (tag : Nat) (mk : Nat → M) (lo hi : Nat) : Chans M :=
  fun s d t => if lo ≤ s ∧ s < hi ∧ d = 0 ∧ t = tag then [mk s] else []

/-- Channels during the broadcast: messages of rank 0 for ranks `lo, …, hi-1`. -/
def bcastChan (tag : Nat) (m : M) (lo hi : Nat) : Chans M :=
  fun s d t => if s = 0 ∧ lo ≤ d ∧ d < hi ∧ t = tag then [m] else []

theorem gatherChan_empty (tag : Nat) (mk : Nat → M) {lo hi : Nat} (h : hi ≤ lo) :
    gatherChan tag mk lo hi = Chans.empty := by
  funext s d t
  unfold gatherChan Chans.empty
  rw [if_neg]; omega

theorem bcastChan_empty (tag : Nat) (m : M) {lo hi : Nat} (h : hi ≤ lo) :
    bcastChan tag m lo hi = Chans.empty := by
  funext s d t
  unfold bcastChan Chans.empty
  rw [if_neg]; omega

theorem gather_push (tag : Nat) (mk : Nat → M) {k : Nat} (hk : 1 ≤ k) :
    (gatherChan tag mk 1 k).push k 0 tag (mk k) = gatherChan tag mk 1 (k + 1) := by
  funext s d t
  unfold Chans.push gatherChan
  split
  · rename_i h
    obtain ⟨rfl, rfl, rfl⟩ := h
    rw [if_neg (by omega), if_pos (by omega)]; rfl
  · rename_i h
    by_cases h1 : 1 ≤ s ∧ s < k ∧ d = 0 ∧ t = tag
    · rw [if_pos h1, if_pos (by omega)]
    · rw [if_neg h1, if_neg (by omega)]

theorem gather_pop (tag : Nat) (mk : Nat → M) {k n : Nat} (hk : k < n) :
    (gatherChan tag mk k n).pop k 0 tag = gatherChan tag mk (k + 1) n := by
  funext s d t
  unfold Chans.pop gatherChan
  split
  · rename_i h
    obtain ⟨rfl, rfl, rfl⟩ := h
    rw [if_pos (by omega), if_neg (by omega)]; rfl
  · rename_i h
    by_cases h1 : k ≤ s ∧ s < n ∧ d = 0 ∧ t = tag
    · rw [if_pos h1, if_pos (by omega)]
    · rw [if_neg h1, if_neg (by omega)]

theorem bcast_push (tag : Nat) (m : M) {k : Nat} (hk : 1 ≤ k) :
    (bcastChan tag m 1 k).push 0 k tag m = bcastChan tag m 1 (k + 1) := by
  funext s d t
  unfold Chans.push bcastChan
  split
  · rename_i h
    obtain ⟨rfl, rfl, rfl⟩ := h
    rw [if_neg (by omega), if_pos (by omega)]; rfl
  · rename_i h
    by_cases h1 : s = 0 ∧ 1 ≤ d ∧ d < k ∧ t = tag
    · rw [if_pos h1, if_pos (by omega)]
    · rw [if_neg h1, if_neg (by omega)]

theorem bcast_pop (tag : Nat) (m : M) {k n : Nat} (hk : k < n) :
    (bcastChan tag m k n).pop 0 k tag = bcastChan tag m (k + 1) n := by
  funext s d t
  unfold Chans.pop bcastChan
  split
  · rename_i h
    obtain ⟨rfl, rfl, rfl⟩ := h
    rw [if_pos (by omega), if_neg (by omega)]; rfl
  · rename_i h
    by_cases h1 : s = 0 ∧ k ≤ d ∧ d < n ∧ t = tag
    · rw [if_pos h1, if_pos (by omega)]
    · rw [if_neg h1, if_neg (by omega)]

/-- Rank 0 receives the contributions of ranks `k, …, n-1` in order. -/
theorem gather_loop (tag : Nat) (mk : Nat → M) (data : M → D) (n : Nat) (m k : Nat)
    (hmk : k + m = n) (acc : List D) (cont : List D → Prog M β) :
    LRun P 0 ((Prog.forIn' (List.range' k m) (fun acc q =>
        Prog.recv q tag fun x => Prog.ret (acc ++ [data x])) acc).bind cont, gatherChan tag mk k n)
      (cont (acc ++ (List.range' k m).map fun q => data (mk q)), Chans.empty) := by
  induction m generalizing k acc with
  | zero =>
    rw [gatherChan_empty tag mk (by omega)]
    simp
    exact Relation.ReflTransGen.refl
  | succ m ih =>
    rw [List.range'_succ, Prog.forIn'_cons, Prog.bind_assoc, Prog.recv_bind]
    refine (LRun.recv_step (m := mk k) (ms := []) ?_).trans ?_
    · unfold gatherChan; rw [if_pos (by omega)]
    · rw [gather_pop tag mk (by omega)]
      simp only [Prog.ret_bind]
      have := ih (k + 1) (by omega) (acc ++ [data (mk k)])
      simpa using this

/-- Rank 0 sends the result to ranks `k, …, n-1`. -/
theorem bcast_loop (tag : Nat) (msg : M) (n : Nat) (m k : Nat) (hmk : k + m = n) (hn : n ≤ P)
    (hk : 1 ≤ k) (cont : Unit → Prog M β) :
    LRun P 0 ((Prog.forIn' (List.range' k m) (fun _ q =>
        Prog.send q tag msg (Prog.ret ())) ()).bind cont, bcastChan tag msg 1 k)
      (cont (), bcastChan tag msg 1 n) := by
  induction m generalizing k with
  | zero =>
    have : k = n := by omega
    subst this
    simp
    exact Relation.ReflTransGen.refl
  | succ m ih =>
    rw [List.range'_succ, Prog.forIn'_cons, Prog.bind_assoc, Prog.send_bind]
    refine (LRun.send_step (by omega)).trans ?_
    rw [bcast_push tag msg hk]
    simp only [Prog.ret_bind]
    exact ih (k + 1) (by omega) (by omega)

/-- A gather to rank 0 followed by a broadcast gives every process the value computed from all
contributions in rank order. -/
theorem Runs.collect (hP : 0 < P) (tag tag' : Nat) (mk : Nat → M) (data : M → D)
    (f : List D → D) (mkR : D → M) (hmkR : ∀ x, data (mkR x) = x) :
    Runs P (fun r => if r = 0 then
        (Prog.forIn' (List.range' 1 (P - 1)) (fun acc q =>
          Prog.recv q tag fun x => Prog.ret (acc ++ [data x])) [data (mk 0)]).bind fun xs =>
        (Prog.forIn' (List.range' 1 (P - 1)) (fun _ q =>
          Prog.send q tag' (mkR (f xs)) (Prog.ret ())) ()).bind fun _ => Prog.ret (f xs)
      else Prog.send 0 tag (mk r) (Prog.recv 0 tag' fun x => Prog.ret (data x)))
      (fun _ => f ((List.range P).map fun q => data (mk q))) := by
  intro β k
  -- stage 1: everybody but rank 0 sends
  have s1 := Steps.rankOrder (P := P) (M := M)
    (fun r : Fin P => (if r.val = 0 then
        (Prog.forIn' (List.range' 1 (P - 1)) (fun acc q =>
          Prog.recv q tag fun x => Prog.ret (acc ++ [data x])) [data (mk 0)]).bind fun xs =>
        (Prog.forIn' (List.range' 1 (P - 1)) (fun _ q =>
          Prog.send q tag' (mkR (f xs)) (Prog.ret ())) ()).bind fun _ => Prog.ret (f xs)
      else Prog.send 0 tag (mk r.val) (Prog.recv 0 tag' fun x => Prog.ret (data x))).bind (k r.val))
    (fun r : Fin P => (if r.val = 0 then
        (Prog.forIn' (List.range' 1 (P - 1)) (fun acc q =>
          Prog.recv q tag fun x => Prog.ret (acc ++ [data x])) [data (mk 0)]).bind fun xs =>
        (Prog.forIn' (List.range' 1 (P - 1)) (fun _ q =>
          Prog.send q tag' (mkR (f xs)) (Prog.ret ())) ()).bind fun _ => Prog.ret (f xs)
      else (Prog.recv 0 tag' fun x => Prog.ret (data x))).bind (k r.val))
    (fun r => gatherChan tag mk 1 r) (by
      intro r
      by_cases hr : r.val = 0
      · simp only [hr, if_true]
        rw [gatherChan_empty tag mk (by omega), gatherChan_empty tag mk (by omega)]
      · simp only [hr, if_false]
        rw [← gather_push tag mk (show 1 ≤ r.val by omega)]
        exact LRun.send_step hP)
  -- stage 2: rank 0 receives everything and sends the result
  have s2 := Steps.rankOrder (P := P) (M := M)
    (fun r : Fin P => (if r.val = 0 then
        (Prog.forIn' (List.range' 1 (P - 1)) (fun acc q =>
          Prog.recv q tag fun x => Prog.ret (acc ++ [data x])) [data (mk 0)]).bind fun xs =>
        (Prog.forIn' (List.range' 1 (P - 1)) (fun _ q =>
          Prog.send q tag' (mkR (f xs)) (Prog.ret ())) ()).bind fun _ => Prog.ret (f xs)
      else (Prog.recv 0 tag' fun x => Prog.ret (data x))).bind (k r.val))
    (fun r : Fin P => (if r.val = 0 then Prog.ret (f ((List.range P).map fun q => data (mk q)))
      else (Prog.recv 0 tag' fun x => Prog.ret (data x))).bind (k r.val))
    (fun r => if r = 0 then gatherChan tag mk 1 P else
      bcastChan tag' (mkR (f ((List.range P).map fun q => data (mk q)))) 1 P) (by
      intro r
      by_cases hr : r.val = 0
      · simp only [hr, if_true, Nat.zero_add, if_neg (Nat.one_ne_zero)]
        rw [Prog.bind_assoc]
        refine (gather_loop tag mk data P (P - 1) 1 (by omega) [data (mk 0)] _).trans ?_
        have hl : [data (mk 0)] ++ (List.range' 1 (P - 1)).map (fun q => data (mk q))
            = (List.range P).map fun q => data (mk q) := by
          have : List.range P = 0 :: List.range' 1 (P - 1) := by
            rw [List.range_eq_range']
            have : P = (P - 1) + 1 := by omega
            rw [this, List.range'_succ]; simp
          rw [this]; rfl
        rw [hl, Prog.bind_assoc, ← bcastChan_empty tag' (mkR (f ((List.range P).map fun q => data (mk q))))
          (Nat.le_refl 1)]
        exact bcast_loop tag' _ P (P - 1) 1 (by omega) (Nat.le_refl P) (Nat.le_refl 1) _
      · simp only [hr, if_false, Nat.add_eq_zero_iff, Nat.one_ne_zero, and_false]
        exact Relation.ReflTransGen.refl)
  -- stage 3: the others receive
  have s3 := Steps.rankOrder (P := P) (M := M)
    (fun r : Fin P => (if r.val = 0 then Prog.ret (f ((List.range P).map fun q => data (mk q)))
      else (Prog.recv 0 tag' fun x => Prog.ret (data x))).bind (k r.val))
    (fun r : Fin P => k r.val (f ((List.range P).map fun q => data (mk q))))
    (fun r => bcastChan tag' (mkR (f ((List.range P).map fun q => data (mk q)))) (max 1 r) P) (by
      intro r
      by_cases hr : r.val = 0
      · simp only [hr, if_true]
        exact Relation.ReflTransGen.refl
      · simp only [hr, if_false]
        have e1 : max 1 r.val = r.val := by omega
        have e2 : max 1 (r.val + 1) = r.val + 1 := by omega
        rw [e1, e2, ← bcast_pop tag' _ r.isLt, Prog.recv_bind]
        refine (LRun.recv_step (ms := []) (m := mkR (f ((List.range P).map fun q => data (mk q)))) ?_).trans ?_
        · unfold bcastChan; rw [if_pos ⟨rfl, Nat.le_refl _, r.isLt, rfl⟩]
        · rw [Prog.ret_bind, hmkR])
  rw [gatherChan_empty tag mk (Nat.zero_le 1)] at s1
  rw [if_pos rfl, if_neg (by omega)] at s2
  have e0 : max 1 0 = 1 := rfl
  have e1 : max 1 P = P := by omega
  rw [e0, e1, bcastChan_empty _ _ (Nat.le_refl P)] at s3
  exact s1.trans (s2.trans s3)

end collect

end Pymgrit
