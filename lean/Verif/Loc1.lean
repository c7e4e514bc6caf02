import Verif.Loc0
import Verif.Dist0

/-!
# Local criteria: what one process sends and receives

A slot `(l, op)` is one communication of operation `op` on level `l`.  `St` describes a piece of a
process' program by the slots in which it sends and receives: given matching messages it runs through,
and its own messages have the labels a receiver expects.
-/

set_option linter.unusedSectionVars false

namespace Pymgrit

variable {V K T N : Type} [LinearOrder T] [Inhabited T]

abbrev Slot := Nat × Nat

namespace Cfg
variable (E : Cfg V K T N)

/-- Partner to which process `r` sends in a slot. -/
def nx (r : Nat) (x : Slot) : Option Nat :=
  if x.2 = 6 then (if x.1 = 0 ∧ r + 1 < E.P then some (r + 1) else none) else E.nxt x.1 x.2 r

/-- Partner from which process `r` receives in a slot. -/
def pv (r : Nat) (x : Slot) : Option Nat :=
  if x.2 = 6 then (if x.1 = 0 ∧ 0 < r then some (r - 1) else none) else E.prv x.1 x.2 r

/-- Slots that exist. -/
def SlotOK (x : Slot) : Prop := lvlOf x.1 x.2 < E.ts.length

variable {E}

theorem nx_pv (h : E.Base) {x : Slot} (hx : E.SlotOK x) {p q : Nat} (hp : p < E.P) (hq : q < E.P) :
    E.nx p x = some q ↔ E.pv q x = some p := by
  unfold nx pv
  split
  · by_cases h0 : x.1 = 0
    · by_cases h1 : p + 1 < E.P
      · by_cases h2 : 0 < q
        · simp [h0, h1, h2]; omega
        · simp [h0, h1, h2]; omega
      · by_cases h2 : 0 < q
        · simp [h0, h1, h2]; omega
        · simp [h0, h1, h2]
    · simp [h0]
  · exact (h.chain hx).iff p q hp hq

theorem nx_up (h : E.Base) {x : Slot} (hx : E.SlotOK x) {p q : Nat} (hp : p < E.P) (hn : E.nx p x = some q) :
    p < q ∧ q < E.P := by
  unfold nx at hn
  split at hn
  · split at hn
    · cases hn; omega
    · cases hn
  · exact (h.chain hx).up p q hp hn

theorem pv_dn (h : E.Base) {x : Slot} (hx : E.SlotOK x) {p q : Nat} (hq : q < E.P) (hn : E.pv q x = some p) :
    p < q := by
  unfold pv at hn
  split at hn
  · split at hn
    · cases hn; omega
    · cases hn
  · exact (h.prv_adj hx hq hn).1

end Cfg

/-! ### Labels -/

/-- Tag, level and operation of a message. -/
def label (x : Nat × Msg V N) : Nat × Nat × Nat := (x.1, x.2.lvl, x.2.op)

/-- Labels of the messages a process sends in the slots `σ` to one partner; `c` are its tag counters. -/
def lab (link : Slot → Prop) [DecidablePred link] : List Slot → (Nat → Nat → Nat) → List (Nat × Nat × Nat)
  | [], _ => []
  | x :: σ, c => if link x then (c x.1 x.2, x.1, x.2) :: lab link σ (upd2 c x.1 x.2 (c x.1 x.2 + 1))
      else lab link σ c

/-- Labels a process expects from one partner in the slots `σ`, where `f` are its `send_finished` flags
and all messages carry the flag `φ`. -/
def labR (link : Slot → Prop) [DecidablePred link] (φ : Bool) :
    List Slot → (Nat → Nat → Nat) → (Nat → Nat → Bool) → List (Nat × Nat × Nat)
  | [], _, _ => []
  | x :: σ, c, f => if link x ∧ f x.1 x.2 = false then
      (c x.1 x.2, x.1, x.2) :: labR link φ σ (upd2 c x.1 x.2 (c x.1 x.2 + 1)) (upd2 f x.1 x.2 φ)
      else labR link φ σ c f

section labels
variable {link : Slot → Prop} [DecidablePred link]

theorem upd2_at {A : Type} (a : Nat → Nat → A) (l i : Nat) (x : A) (l' i' : Nat) :
    upd2 a l i x l' i' = if (l', i') = (l, i) then x else a l' i' := by
  by_cases h : l' = l ∧ i' = i
  · obtain ⟨rfl, rfl⟩ := h
    simp [Cfg.upd2_self]
  · rw [Cfg.upd2_ne _ _ h, if_neg]
    simpa using h

theorem lab_congr {link' : Slot → Prop} [DecidablePred link'] {σ : List Slot} {c c' : Nat → Nat → Nat}
    (hl : ∀ x ∈ σ, link x ↔ link' x) (hc : ∀ x ∈ σ, link x → c x.1 x.2 = c' x.1 x.2) :
    lab link σ c = lab link' σ c' := by
  induction σ generalizing c c' with
  | nil => rfl
  | cons x σ ih =>
    have hx := hl x List.mem_cons_self
    have hl' : ∀ x ∈ σ, link x ↔ link' x := fun y hy => hl y (List.mem_cons_of_mem _ hy)
    have hc' : ∀ x ∈ σ, link x → c x.1 x.2 = c' x.1 x.2 := fun y hy => hc y (List.mem_cons_of_mem _ hy)
    by_cases h : link x
    · have h' := hx.1 h
      simp only [lab, h, h', if_true, hc x List.mem_cons_self h]
      congr 1
      refine ih hl' fun y hm hy => ?_
      rw [upd2_at, upd2_at]
      split
      · rfl
      · exact hc' y hm hy
    · have h' : ¬ link' x := fun h'' => h (hx.2 h'')
      simp only [lab, h, h', if_false]
      exact ih hl' hc'

theorem lab_append (σ τ : List Slot) (c : Nat → Nat → Nat) (c' : Nat → Nat → Nat)
    (hc : ∀ x, link x → c' x.1 x.2 = c x.1 x.2 + σ.count x) :
    lab link (σ ++ τ) c = lab link σ c ++ lab link τ c' := by
  induction σ generalizing c with
  | nil =>
    simp only [List.nil_append, lab]
    exact lab_congr (fun _ _ => Iff.rfl) fun x _ hx => by rw [hc x hx]; simp
  | cons y σ ih =>
    by_cases h : link y
    · simp only [List.cons_append, lab, h, if_true]
      congr 1
      refine ih _ fun x hx => ?_
      rw [hc x hx, upd2_at, List.count_cons]
      by_cases hxy : x = y
      · subst hxy; simp; omega
      · have : ¬ y = x := fun e => hxy e.symm
        simp [hxy, this]
    · simp only [List.cons_append, lab, h, if_false]
      refine ih _ fun x hx => ?_
      have : y ≠ x := fun e => h (e ▸ hx)
      rw [hc x hx, List.count_cons_of_ne this]

/-- A partner that goes on: the receiver expects what is sent. -/
theorem labR_false {σ : List Slot} {c : Nat → Nat → Nat} {f : Nat → Nat → Bool}
    (hf : ∀ x ∈ σ, link x → f x.1 x.2 = false) : labR link false σ c f = lab link σ c := by
  induction σ generalizing c f with
  | nil => rfl
  | cons x σ ih =>
    have hf' : ∀ y ∈ σ, link y → f y.1 y.2 = false := fun y hy => hf y (List.mem_cons_of_mem _ hy)
    by_cases h : link x
    · have := hf x List.mem_cons_self h
      simp only [labR, lab, h, this, and_self, if_true]
      congr 1
      refine ih fun y hy hl => ?_
      rw [upd2_at]
      split
      · rfl
      · exact hf' y hy hl
    · simp only [labR, lab, h, false_and, if_false]
      exact ih hf'

/-- A partner that has finished before: nothing is expected. -/
theorem labR_none {φ : Bool} {σ : List Slot} {c : Nat → Nat → Nat} {f : Nat → Nat → Bool}
    (hf : ∀ x ∈ σ, link x → f x.1 x.2 = true) : labR link φ σ c f = [] := by
  induction σ with
  | nil => rfl
  | cons x σ ih =>
    have hx := hf x List.mem_cons_self
    have : ¬ (link x ∧ f x.1 x.2 = false) := fun h => by rw [hx h.1] at h; cases h.2
    simp only [labR, this, if_false]
    exact ih fun y hy => hf y (List.mem_cons_of_mem _ hy)

/-- First occurrences. -/
def firsts : List Slot → List Slot
  | [] => []
  | x :: σ => x :: (firsts σ).filter fun y => decide (y ≠ x)

theorem mem_firsts {σ : List Slot} {x : Slot} : x ∈ firsts σ ↔ x ∈ σ := by
  induction σ with
  | nil => simp [firsts]
  | cons y σ ih =>
    simp only [firsts, List.mem_cons, List.mem_filter, ih, decide_eq_true_eq]
    by_cases h : x = y <;> simp [h]

theorem firsts_nodup (σ : List Slot) : (firsts σ).Nodup := by
  induction σ with
  | nil => simp [firsts]
  | cons y σ ih =>
    simp only [firsts, List.nodup_cons, List.mem_filter, decide_eq_true_eq]
    exact ⟨fun h => h.2 rfl, ih.filter _⟩

theorem firsts_append (σ τ : List Slot) :
    firsts (σ ++ τ) = firsts σ ++ (firsts τ).filter fun y => decide (y ∉ σ) := by
  induction σ with
  | nil => simp [firsts]
  | cons x σ ih =>
    simp only [List.cons_append, firsts, ih, List.filter_append, List.filter_filter]
    congr 2
    refine List.filter_congr fun y _ => ?_
    by_cases h1 : y = x <;> by_cases h2 : y ∈ σ <;> simp [h1, h2]

theorem firsts_filter (p : Slot → Bool) (σ : List Slot) :
    firsts (σ.filter p) = (firsts σ).filter p := by
  induction σ with
  | nil => rfl
  | cons x σ ih =>
    by_cases h : p x = true
    · rw [List.filter_cons_of_pos h, firsts, firsts, List.filter_cons_of_pos h, ih,
        List.filter_filter, List.filter_filter]
      congr 1
      exact List.filter_congr fun y _ => Bool.and_comm _ _
    · rw [List.filter_cons_of_neg h, firsts, List.filter_cons_of_neg h, ih, List.filter_filter]
      refine List.filter_congr fun y _ => ?_
      by_cases hy : y = x
      · subst hy; simp [Bool.eq_false_iff.2 h]
      · simp [hy]

theorem firsts_of_nodup {σ : List Slot} (h : σ.Nodup) : firsts σ = σ := by
  induction σ with
  | nil => rfl
  | cons x σ ih =>
    rw [List.nodup_cons] at h
    rw [firsts, ih h.2, List.filter_eq_self.2]
    intro y hy
    simp only [decide_eq_true_eq]
    exact fun e => h.1 (e ▸ hy)

/-- A partner that has just finished: one message is expected per slot. -/
theorem labR_true {σ : List Slot} {c : Nat → Nat → Nat} {f : Nat → Nat → Bool} :
    labR link true σ c f = ((firsts σ).filter fun x => decide (link x ∧ f x.1 x.2 = false)).map
      fun x => (c x.1 x.2, x.1, x.2) := by
  induction σ generalizing c f with
  | nil => rfl
  | cons x σ ih =>
    by_cases h : link x ∧ f x.1 x.2 = false
    · simp only [labR, firsts]
      rw [if_pos h, List.filter_cons_of_pos (by simpa using h), List.map_cons, ih, List.filter_filter]
      congr 1
      have : ((firsts σ).filter fun y => decide (link y ∧ upd2 f x.1 x.2 true y.1 y.2 = false)) =
          (firsts σ).filter fun y => decide (link y ∧ f y.1 y.2 = false) && decide (y ≠ x) := by
        refine List.filter_congr fun y _ => ?_
        rw [upd2_at]
        by_cases hy : y = x
        · subst hy; simp
        · simp [hy]
      rw [this]
      refine List.map_congr_left fun y hy => ?_
      have hne : y ≠ x := by
        have := (List.mem_filter.1 hy).2
        simp only [Bool.and_eq_true, decide_eq_true_eq] at this
        exact this.2
      rw [upd2_at, if_neg hne]
    · simp only [labR, firsts]
      rw [if_neg h, List.filter_cons_of_neg (by simpa using h), ih, List.filter_filter]
      congr 1
      refine List.filter_congr fun y _ => ?_
      by_cases hy : y = x
      · subst hy; simpa using h
      · simp [hy]

theorem lab_nodup {σ : List Slot} {c : Nat → Nat → Nat} (h : σ.Nodup) :
    lab link σ c = (σ.filter fun x => decide (link x)).map fun x => (c x.1 x.2, x.1, x.2) := by
  induction σ generalizing c with
  | nil => rfl
  | cons x σ ih =>
    rw [List.nodup_cons] at h
    by_cases hx : link x
    · simp only [lab, hx, if_true]
      rw [List.filter_cons_of_pos (by simpa using hx), List.map_cons, ih h.2]
      congr 1
      refine List.map_congr_left fun y hy => ?_
      have : y ≠ x := fun e => h.1 (e ▸ (List.mem_filter.1 hy).1)
      rw [upd2_at, if_neg this]
    · simp only [lab, hx, if_false]
      rw [List.filter_cons_of_neg (by simpa using hx), ih h.2]

theorem labR_congr {φ : Bool} {σ : List Slot} {c c' : Nat → Nat → Nat} {f f' : Nat → Nat → Bool}
    (hc : ∀ x, link x → c x.1 x.2 = c' x.1 x.2) (hf : ∀ x, link x → f x.1 x.2 = f' x.1 x.2) :
    labR link φ σ c f = labR link φ σ c' f' := by
  induction σ generalizing c c' f f' with
  | nil => rfl
  | cons x σ ih =>
    by_cases h : link x
    · simp only [labR, h, true_and, hf x h, hc x h]
      split
      · congr 1
        refine ih (fun y hy => ?_) fun y hy => ?_
        · rw [upd2_at, upd2_at]
          split
          · rfl
          · exact hc y hy
        · rw [upd2_at, upd2_at]
          split
          · rfl
          · exact hf y hy
      · exact ih hc hf
    · simp only [labR, h, false_and, if_false]
      exact ih hc hf

end labels

namespace Cfg
variable (E : Cfg V K T N)

/-- Messages `In p` from the other processes `p` as process `r` in state `s` expects them in the slots
`σ`; messages of `p` carry the flag `φ p`. -/
structure Feed (r : Nat) (φ : Nat → Bool) (σ : List Slot) (s : PState V N)
    (In : Nat → List (Nat × Msg V N)) : Prop where
  lab : ∀ p, (In p).map label = labR (fun x => E.pv r x = some p) (φ p) σ s.tagR s.sf
  data : ∀ p, ∀ x ∈ In p, x.2.op ≠ 6 → x.2.fin = φ p ∧ ∃ v, x.2.data = .vec v
  flag : ∀ p, ∀ x ∈ In p, x.2.op = 6 → ∃ b, x.2 = ⟨.flag b, b, 0, 6⟩

/-- Effect of a piece of program that sends in the slots `σS` and receives in the slots `σR`. -/
structure Eff (r : Nat) (φ : Nat → Bool) (σS σR : List Slot) (s : PState V N)
    (es : List (Ev (Msg V N))) (s' : PState V N) : Prop where
  sndLab : ∀ d, (snds d es).map label = Pymgrit.lab (fun x => E.nx r x = some d) σS s.tagS
  sndMsg : ∀ d t m, Ev.snd d t m ∈ es → m.fin = s.fin ∧ (∃ v, m.data = .vec v) ∧ (m.lvl, m.op) ∈ σS ∧
    E.nx r (m.lvl, m.op) = some d
  rcvSrc : ∀ q t m, Ev.rcv q t m ∈ es → ∃ x ∈ σR, E.pv r x = some q
  tagS : ∀ x : Slot, s'.tagS x.1 x.2 = s.tagS x.1 x.2 + if (E.nx r x).isSome then σS.count x else 0
  tagR : ∀ (x : Slot) p, E.pv r x = some p → φ p = false → s.sf x.1 x.2 = false →
    s'.tagR x.1 x.2 = s.tagR x.1 x.2 + σR.count x ∧ s'.sf x.1 x.2 = false
  keepR : ∀ x : Slot, x ∉ σR → s'.sf x.1 x.2 = s.sf x.1 x.2 ∧ s'.tagR x.1 x.2 = s.tagR x.1 x.2
  sfMono : ∀ x : Slot, s.sf x.1 x.2 = true → s'.sf x.1 x.2 = true
  sfJust : ∀ x ∈ σR, ∀ p, E.pv r x = some p → φ p = true → s'.sf x.1 x.2 = true
  same : Same s s'
  ghost : 0 < r → (∀ x ∈ σR, lvlOf x.1 x.2 = 0 → E.pv r x = none ∨ s.sf x.1 x.2 = true) →
    s'.u 0 0 = s.u 0 0

/-- A piece of program that sends in the slots `σS` and receives in the slots `σR`. -/
def St (r : Nat) (φ : Nat → Bool) (σS σR : List Slot) (f : PState V N → Prog (Msg V N) (PState V N)) :
    Prop :=
  ∀ τ s In, E.Feed r φ (σR ++ τ) s In → ∃ es s' In', Tr (f s) es s' ∧ (∀ q, In q = rcvs q es ++ In' q) ∧
    E.Feed r φ τ s' In' ∧ E.Eff r φ σS σR s es s'

variable {E} {r : Nat} {φ : Nat → Bool}

theorem Eff.comp {σS σR σS' σR' : List Slot} {s s' s'' : PState V N} {es es' : List (Ev (Msg V N))}
    (h : E.Eff r φ σS σR s es s') (h' : E.Eff r φ σS' σR' s' es' s'') :
    E.Eff r φ (σS ++ σS') (σR ++ σR') s (es ++ es') s'' where
  sndLab d := by
    rw [snds_append, List.map_append, h.sndLab, h'.sndLab]
    refine (lab_append _ _ _ _ fun x hx => ?_).symm
    rw [h.tagS x, hx]
    simp
  sndMsg d t m hm := by
    rcases List.mem_append.1 hm with hm | hm
    · obtain ⟨a, b, c, e⟩ := h.sndMsg d t m hm
      exact ⟨a, b, List.mem_append_left _ c, e⟩
    · obtain ⟨a, b, c, e⟩ := h'.sndMsg d t m hm
      exact ⟨a.trans h.same.fin, b, List.mem_append_right _ c, e⟩
  rcvSrc q t m hm := by
    rcases List.mem_append.1 hm with hm | hm
    · obtain ⟨x, hx, e⟩ := h.rcvSrc q t m hm
      exact ⟨x, List.mem_append_left _ hx, e⟩
    · obtain ⟨x, hx, e⟩ := h'.rcvSrc q t m hm
      exact ⟨x, List.mem_append_right _ hx, e⟩
  tagS x := by
    rw [h'.tagS, h.tagS, List.count_append]
    split <;> omega
  tagR x p hp hφ hs := by
    obtain ⟨a, b⟩ := h.tagR x p hp hφ hs
    obtain ⟨a', b'⟩ := h'.tagR x p hp hφ b
    refine ⟨?_, b'⟩
    rw [a', a, List.count_append]
    omega
  keepR x hx := by
    rw [List.mem_append, not_or] at hx
    obtain ⟨a, b⟩ := h.keepR x hx.1
    obtain ⟨a', b'⟩ := h'.keepR x hx.2
    exact ⟨a'.trans a, b'.trans b⟩
  sfMono x hx := h'.sfMono x (h.sfMono x hx)
  sfJust x hx p hp hφ := by
    rcases List.mem_append.1 hx with hx | hx
    · exact h'.sfMono x (h.sfJust x hx p hp hφ)
    · exact h'.sfJust x hx p hp hφ
  same := h.same.trans h'.same
  ghost hr hg := by
    rw [h'.ghost hr fun x hx hl => ?_, h.ghost hr fun x hx hl => ?_]
    · exact hg x (List.mem_append_left _ hx) hl
    · exact (hg x (List.mem_append_right _ hx) hl).imp id (h.sfMono x)

theorem St.comp {σS σR σS' σR' : List Slot} {f g : PState V N → Prog (Msg V N) (PState V N)}
    (hf : E.St r φ σS σR f) (hg : E.St r φ σS' σR' g) :
    E.St r φ (σS ++ σS') (σR ++ σR') fun s => (f s).bind g := by
  intro τ s In hF
  rw [List.append_assoc] at hF
  obtain ⟨es, s1, In1, a1, a2, a3, a4⟩ := hf _ s In hF
  obtain ⟨es', s2, In2, b1, b2, b3, b4⟩ := hg _ s1 In1 a3
  refine ⟨es ++ es', s2, In2, a1.bind b1, fun q => ?_, b3, a4.comp b4⟩
  rw [a2, b2, rcvs_append, List.append_assoc]

/-- A piece without communication. -/
theorem St.pure {g : PState V N → PState V N} (hg : ∀ s, Same s (g s) ∧ (g s).tagS = s.tagS ∧
    (g s).tagR = s.tagR ∧ (g s).sf = s.sf ∧ (0 < r → (g s).u 0 0 = s.u 0 0)) :
    E.St r φ [] [] fun s => .ret (g s) := by
  intro τ s In hF
  obtain ⟨h1, h2, h3, h4, h5⟩ := hg s
  refine ⟨[], g s, In, .ret _, fun q => rfl, ⟨fun p => ?_, hF.data, hF.flag⟩, ?_⟩
  · rw [h3, h4]; exact hF.lab p
  · refine ⟨fun d => rfl, fun d t m h => ?_, fun d t m h => ?_, fun x => ?_, fun x p hp hφ hs => ?_,
      fun x _ => ?_, fun x hx => ?_, fun x hx => ?_, h1, fun hr _ => h5 hr⟩
    · cases h
    · cases h
    · rw [h2]; simp
    · rw [h3, h4]; simp [hs]
    · rw [h3, h4]; exact ⟨rfl, rfl⟩
    · rw [h4]; exact hx
    · cases hx

theorem St.id : E.St r φ [] [] fun s => .ret s :=
  St.pure (g := fun s => s) fun s => ⟨.refl s, rfl, rfl, rfl, fun _ => rfl⟩

theorem St.congr {σS σR : List Slot} {f f' : PState V N → Prog (Msg V N) (PState V N)}
    (hf : E.St r φ σS σR f) (h : ∀ s, f' s = f s) : E.St r φ σS σR f' := by
  have : f' = f := funext h
  rwa [this]

/-- First a local computation. -/
theorem St.before {σS σR : List Slot} {f : PState V N → Prog (Msg V N) (PState V N)}
    {g : PState V N → PState V N} (hf : E.St r φ σS σR f)
    (hg : ∀ s, Same s (g s) ∧ (g s).tagS = s.tagS ∧
      (g s).tagR = s.tagR ∧ (g s).sf = s.sf ∧ (0 < r → (g s).u 0 0 = s.u 0 0)) :
    E.St r φ σS σR fun s => f (g s) :=
  (St.pure hg).comp hf

/-- Afterwards a local computation. -/
theorem St.after {σS σR : List Slot} {f : PState V N → Prog (Msg V N) (PState V N)}
    {g : PState V N → PState V N} (hf : E.St r φ σS σR f)
    (hg : ∀ s, Same s (g s) ∧ (g s).tagS = s.tagS ∧
      (g s).tagR = s.tagR ∧ (g s).sf = s.sf ∧ (0 < r → (g s).u 0 0 = s.u 0 0)) :
    E.St r φ σS σR fun s => (f s).bind fun s => .ret (g s) := by
  have := hf.comp (St.pure hg)
  rwa [List.append_nil, List.append_nil] at this

/-- A slot in which this process sends nothing. -/
theorem St.skipS {σS σS' σR : List Slot} {f : PState V N → Prog (Msg V N) (PState V N)} {x : Slot}
    (hf : E.St r φ (σS ++ σS') σR f) (hx : E.nx r x = none) : E.St r φ (σS ++ x :: σS') σR f := by
  intro τ s In hF
  obtain ⟨es, s1, In1, a1, a2, a3, a4⟩ := hf _ s In hF
  refine ⟨es, s1, In1, a1, a2, a3, fun d => ?_, fun d t m h => ?_, a4.rcvSrc, fun y => ?_, a4.tagR,
    a4.keepR, a4.sfMono, a4.sfJust, a4.same, a4.ghost⟩
  · rw [a4.sndLab]
    have : ∀ (σ : List Slot) (c : Nat → Nat → Nat), Pymgrit.lab (fun x => E.nx r x = some d) (σ ++ σS') c =
        Pymgrit.lab (fun x => E.nx r x = some d) (σ ++ x :: σS') c := by
      intro σ
      induction σ with
      | nil =>
        intro c
        simp only [List.nil_append, Pymgrit.lab]
        rw [if_neg (by rw [hx]; simp)]
      | cons y σ ih =>
        intro c
        simp only [List.cons_append, Pymgrit.lab, ih]
    exact this _ _
  · obtain ⟨b1, b2, b3, b4⟩ := a4.sndMsg d t m h
    refine ⟨b1, b2, ?_, b4⟩
    rw [List.mem_append] at b3 ⊢
    exact b3.imp _root_.id (List.mem_cons_of_mem _)
  · rw [a4.tagS]
    by_cases hy : x = y
    · subst hy; simp [hx]
    · simp [List.count_append, List.count_cons_of_ne hy]

/-- A slot in which this process receives nothing. -/
theorem St.skipR {σS σR : List Slot} {f : PState V N → Prog (Msg V N) (PState V N)} {x : Slot}
    (hf : E.St r φ σS σR f) (hx : E.pv r x = none) : E.St r φ σS (x :: σR) f := by
  intro τ s In hF
  have hF' : E.Feed r φ (σR ++ τ) s In := by
    refine ⟨fun p => ?_, hF.data, hF.flag⟩
    have := hF.lab p
    rw [List.cons_append] at this
    simp only [labR] at this
    rwa [if_neg (by rw [hx]; simp)] at this
  obtain ⟨es, s1, In1, a1, a2, a3, a4⟩ := hf _ s In hF'
  refine ⟨es, s1, In1, a1, a2, a3, a4.sndLab, a4.sndMsg, fun q t m h => ?_, a4.tagS,
    fun y p hp hφ hs => ?_, fun y hy => a4.keepR y fun h => hy (List.mem_cons_of_mem _ h),
    a4.sfMono, fun y hy p hp hφ => ?_, a4.same, fun hr hg => ?_⟩
  · obtain ⟨y, hy, e⟩ := a4.rcvSrc q t m h
    exact ⟨y, List.mem_cons_of_mem _ hy, e⟩
  · have : x ≠ y := fun e => by rw [← e, hx] at hp; cases hp
    rw [List.count_cons_of_ne this]
    exact a4.tagR y p hp hφ hs
  · rcases List.mem_cons.1 hy with rfl | hy
    · rw [hx] at hp; cases hp
    · exact a4.sfJust y hy p hp hφ
  · exact a4.ghost hr fun y hy => hg y (List.mem_cons_of_mem _ hy)

theorem nx_ne6 {l op : Nat} (hop : op ≠ 6) : E.nx r (l, op) = E.nxt l op r := if_neg hop
theorem pv_ne6 {l op : Nat} (hop : op ≠ 6) : E.pv r (l, op) = E.prv l op r := if_neg hop

variable (E) in
/-- `St` with a further relation between the state before, the messages available, the events and the
state after. -/
def StX (r : Nat) (φ : Nat → Bool) (σS σR : List Slot) (f : PState V N → Prog (Msg V N) (PState V N))
    (X : PState V N → (Nat → List (Nat × Msg V N)) → List (Ev (Msg V N)) → PState V N → Prop) : Prop :=
  ∀ τ s In, E.Feed r φ (σR ++ τ) s In → ∃ es s' In', Tr (f s) es s' ∧ (∀ q, In q = rcvs q es ++ In' q) ∧
    E.Feed r φ τ s' In' ∧ E.Eff r φ σS σR s es s' ∧ X s In es s'

theorem StX.st {σS σR : List Slot} {f : PState V N → Prog (Msg V N) (PState V N)}
    {X : PState V N → (Nat → List (Nat × Msg V N)) → List (Ev (Msg V N)) → PState V N → Prop}
    (h : E.StX r φ σS σR f X) : E.St r φ σS σR f := by
  intro τ s In hF
  obtain ⟨es, s', In', a, b, c, d, -⟩ := h τ s In hF
  exact ⟨es, s', In', a, b, c, d⟩

theorem St.sendX (hg : E.global = false) (hb : E.Base) (hr : r < E.P) {l op : Nat} (hop : op ≠ 6)
    (hl : lvlOf l op < E.ts.length) (g : PState V N → V) :
    E.StX r φ [(l, op)] [] (fun s => if E.sendFlag l r op then
      E.sendP (E.info r (lvlOf l op)).sendTo l op (.vec (g s)) s else .ret s)
      fun s _ es s' => s'.u = s.u ∧ ∀ d t m, Ev.snd d t m ∈ es → m.data = .vec (g s) := by
  by_cases hf : E.sendFlag l r op = true
  · obtain ⟨d, hd⟩ := hb.sendFlag_some hl hr hf
    have hd' : (E.info r (lvlOf l op)).sendTo = some d := by
      have := hd
      unfold nxt at this
      rwa [if_pos hf] at this
    have hnx : E.nx r (l, op) = some d := by rw [nx_ne6 hop, hd]
    intro τ s In hF
    simp only [hf, if_true, hd', sendP, hg, Bool.false_eq_true, if_false]
    refine ⟨[.snd d (s.tagS l op) ⟨.vec (g s), s.fin, l, op⟩], _, In, fun β k => .send (.nil _),
      fun q => by simp, ⟨hF.lab, hF.data, hF.flag⟩, ⟨fun d' => ?_, fun d' t m h => ?_, fun q t m h => ?_,
      fun y => ?_, fun y p hp hφ hs => ?_, fun y _ => ⟨rfl, rfl⟩, fun y hy => hy, fun y hy => ?_,
      ⟨rfl, rfl, rfl, rfl, rfl, rfl, rfl, rfl⟩, fun _ _ => rfl⟩, rfl, fun d' t m h => ?_⟩
    · rw [snds_snd]
      by_cases e : d = d'
      · subst e; simp [Pymgrit.lab, hnx, label]
      · simp [Pymgrit.lab, hnx, e]
    · rw [List.mem_singleton] at h
      cases h
      exact ⟨rfl, ⟨_, rfl⟩, List.mem_singleton.2 rfl, hnx⟩
    · simp at h
    · simp only [upd2_at]
      by_cases hy : y = (l, op)
      · subst hy; simp [hnx]
      · have : (l, op) ≠ y := fun e => hy e.symm
        rw [if_neg (show ¬ (y.1, y.2) = (l, op) from hy), List.count_cons_of_ne this]
        simp
    · simp [hs]
    · cases hy
    · rw [List.mem_singleton] at h
      cases h
      rfl
  · have hnx : E.nx r (l, op) = none := by rw [nx_ne6 hop]; exact sendFlag_false hf
    intro τ s In hF
    have h0 := St.skipS (σS := []) (σS' := []) (St.id (E := E) (r := r) (φ := φ)) hnx
    obtain ⟨es, s', In', a1, a2, a3, a4⟩ := h0 τ s In hF
    simp only [if_neg hf]
    have hes : es = [] ∧ s' = s := by
      have := a1 _ Prog.ret
      cases this
      exact ⟨rfl, rfl⟩
    obtain ⟨rfl, rfl⟩ := hes
    exact ⟨[], s', In', a1, a2, a3, a4, rfl, by simp⟩

theorem St.send (hg : E.global = false) (hb : E.Base) (hr : r < E.P) {l op : Nat} (hop : op ≠ 6)
    (hl : lvlOf l op < E.ts.length) (g : PState V N → V) :
    E.St r φ [(l, op)] [] fun s => if E.sendFlag l r op then
      E.sendP (E.info r (lvlOf l op)).sendTo l op (.vec (g s)) s else .ret s :=
  (St.sendX hg hb hr hop hl g).st

theorem Feed.skip {σ : List Slot} {x : Slot} {s : PState V N} {In : Nat → List (Nat × Msg V N)}
    (hF : E.Feed r φ (x :: σ) s In) (hx : E.pv r x = none ∨ s.sf x.1 x.2 = true) : E.Feed r φ σ s In := by
  refine ⟨fun p => ?_, hF.data, hF.flag⟩
  have := hF.lab p
  simp only [labR] at this
  rwa [if_neg] at this
  rintro ⟨h1, h2⟩
  rcases hx with h | h
  · rw [h] at h1; cases h1
  · rw [h] at h2; cases h2

/-- The next message. -/
theorem Feed.head {σ : List Slot} {x : Slot} {s : PState V N} {In : Nat → List (Nat × Msg V N)} {p : Nat}
    (hF : E.Feed r φ (x :: σ) s In) (hx : E.pv r x = some p) (hs : s.sf x.1 x.2 = false) :
    ∃ m rest, In p = (s.tagR x.1 x.2, m) :: rest ∧ m.lvl = x.1 ∧ m.op = x.2 ∧
      (m.op ≠ 6 → m.fin = φ p ∧ ∃ v, m.data = .vec v) ∧
      (m.op = 6 → ∃ b, m = ⟨.flag b, b, 0, 6⟩) ∧
      (m.fin = φ p ∨ (∀ y ∈ σ, E.pv r y ≠ some p) →
      ∀ s' : PState V N, s'.tagR = upd2 s.tagR x.1 x.2 (s.tagR x.1 x.2 + 1) →
        s'.sf = upd2 s.sf x.1 x.2 m.fin → E.Feed r φ σ s' (Function.update In p rest)) := by
  have h1 := hF.lab p
  simp only [labR] at h1
  rw [if_pos ⟨hx, hs⟩] at h1
  rcases hI : In p with _ | ⟨⟨t, m⟩, rest⟩
  · rw [hI] at h1; cases h1
  rw [hI, List.map_cons, List.cons.injEq] at h1
  obtain ⟨h2, h3⟩ := h1
  simp only [label, Prod.mk.injEq] at h2
  obtain ⟨rfl, h5, h6⟩ := h2
  refine ⟨m, rest, rfl, h5, h6, fun h => hF.data p _ (by rw [hI]; exact List.mem_cons_self) h,
    fun h => hF.flag p _ (by rw [hI]; exact List.mem_cons_self) h, fun hm s' ht hf => ?_⟩
  refine ⟨fun q => ?_, fun q y hy => ?_, fun q y hy => ?_⟩
  · by_cases hq : q = p
    · subst hq
      rw [Function.update_self, h3, ht, hf]
      rcases hm with hm | hm
      · rw [hm]
      · have : ∀ c f, labR (fun x => E.pv r x = some q) (φ q) σ c f = [] := by
          intro c f
          clear h3 hF
          induction σ with
          | nil => rfl
          | cons y σ ih =>
            simp only [labR]
            rw [if_neg (fun h => hm y List.mem_cons_self h.1)]
            exact ih fun z hz => hm z (List.mem_cons_of_mem _ hz)
        rw [this, this]
    · rw [Function.update_of_ne hq]
      have h7 := hF.lab q
      simp only [labR] at h7
      rw [if_neg (by rw [hx]; rintro ⟨h, -⟩; cases h; exact hq rfl)] at h7
      rw [h7]
      refine labR_congr (fun y hy => ?_) fun y hy => ?_
      · rw [ht, upd2_at, if_neg]
        intro e
        have e' : y = x := e
        rw [e', hx] at hy; cases hy; exact hq rfl
      · rw [hf, upd2_at, if_neg]
        intro e
        have e' : y = x := e
        rw [e', hx] at hy; cases hy; exact hq rfl
  · by_cases hq : q = p
    · subst hq
      rw [Function.update_self] at hy
      exact hF.data q y (by rw [hI]; exact List.mem_cons_of_mem _ hy)
    · rw [Function.update_of_ne hq] at hy
      exact hF.data q y hy
  · by_cases hq : q = p
    · subst hq
      rw [Function.update_self] at hy
      exact hF.flag q y (by rw [hI]; exact List.mem_cons_of_mem _ hy)
    · rw [Function.update_of_ne hq] at hy
      exact hF.flag q y hy

/-- Receiving in one slot, for any treatment `g` of the received vector. -/
theorem St.recvGX (hg : E.global = false) (hb : E.Base) (hr : r < E.P) {l op : Nat} (hop : op ≠ 6)
    (hl : lvlOf l op < E.ts.length) (g : V → PState V N → PState V N)
    (hgs : ∀ v s, Same s (g v s) ∧ (g v s).tagS = s.tagS ∧ (g v s).tagR = s.tagR ∧ (g v s).sf = s.sf ∧
      (lvlOf l op ≠ 0 → (g v s).u 0 0 = s.u 0 0))
    (f : Option Nat → PState V N → Prog (Msg V N) (PState V N))
    (hf : ∀ p (m : Msg V N) v s, m.lvl = l → m.op = op → m.data = .vec v →
      Tr (f (some p) s) [.rcv p (s.tagR l op) m] (g v { s with
        tagR := upd2 s.tagR l op (s.tagR l op + 1)
        sf := upd2 s.sf l op m.fin })) :
    E.StX r φ [] [(l, op)] (fun s => if E.recvFlag l r op && !s.sf l op then
      f (E.info r (lvlOf l op)).getFrom s else .ret s)
      fun s In es s' => (∀ d t m, Ev.snd d t m ∉ es) ∧
        (∀ p, E.pv r (l, op) = some p → s.sf l op = false → ∃ (t : Nat) (m : Msg V N) (v : V) (s0 : PState V N), (t, m) ∈ In p ∧ m.op = op ∧
          m.data = .vec v ∧ s0.u = s.u ∧ s' = g v s0) ∧
        (E.pv r (l, op) = none ∨ s.sf l op = true → s' = s) := by
  intro τ s In hF
  rw [List.singleton_append] at hF
  by_cases hc : E.recvFlag l r op = true ∧ s.sf l op = false
  · obtain ⟨hc1, hc2⟩ := hc
    obtain ⟨p, hp⟩ := hb.recvFlag_some hl hr hc1
    have hp' : (E.info r (lvlOf l op)).getFrom = some p := by
      have := hp
      unfold prv at this
      rwa [if_pos hc1] at this
    have hpv : E.pv r (l, op) = some p := by rw [pv_ne6 hop, hp]
    obtain ⟨m, rest, a1, a2, a3, a4, -, a6⟩ := hF.head hpv hc2
    obtain ⟨b1, v, b2⟩ := a4 (by rw [a3]; exact hop)
    have a6 := a6 (.inl b1)
    obtain ⟨c1, c2, c3, c4, c5⟩ := hgs v { s with
      tagR := upd2 s.tagR l op (s.tagR l op + 1)
      sf := upd2 s.sf l op m.fin }
    simp only [hc1, hc2, Bool.not_false, Bool.and_self, if_true, hp']
    refine ⟨_, _, Function.update In p rest, hf p m v s a2 a3 b2, fun q => ?_, a6 _ c3 c4, ⟨fun d => ?_,
      fun d t m' h => ?_, fun q t m' h => ?_, fun y => ?_, fun y q hq hφ hs => ?_, fun y hy => ?_, fun y hy => ?_,
      fun y hy q hq hφ => ?_, ⟨c1.saved, c1.conv, c1.fin, c1.finIt, c1.pre, c1.preIt, c1.solveIter, c1.outs⟩,
      fun h0 hgh => ?_⟩, by simp, fun q hq _ => ?_, fun h => ?_⟩
    · rw [rcvs_rcv]
      by_cases hq : p = q
      · subst hq; simp [a1]
      · rw [if_neg hq, Function.update_of_ne (fun e => hq e.symm)]; rfl
    · rfl
    · simp at h
    · rw [List.mem_singleton] at h
      cases h
      exact ⟨(l, op), List.mem_singleton.2 rfl, hpv⟩
    · rw [c2]; simp
    · rw [c3, c4]
      simp only [upd2_at]
      by_cases hy : y = (l, op)
      · subst hy
        rw [hpv] at hq; cases hq
        simp [b1, hφ]
      · have : (l, op) ≠ y := fun e => hy e.symm
        rw [if_neg (show ¬ (y.1, y.2) = (l, op) from hy), if_neg (show ¬ (y.1, y.2) = (l, op) from hy),
          List.count_cons_of_ne this]
        simp [hs]
    · have : ¬ (y.1, y.2) = (l, op) := fun e => hy (List.mem_singleton.2 e)
      rw [c3, c4]
      exact ⟨(upd2_at s.sf l op m.fin y.1 y.2).trans (if_neg this),
        (upd2_at s.tagR l op (s.tagR l op + 1) y.1 y.2).trans (if_neg this)⟩
    · rw [c4]
      simp only [upd2_at]
      split
      · rename_i e
        have e' : y = (l, op) := e
        rw [e'] at hy
        rw [show s.sf l op = true from hy] at hc2; cases hc2
      · exact hy
    · rw [List.mem_singleton] at hy
      subst hy
      rw [hpv] at hq; cases hq
      rw [c4]
      simp [upd2_at, b1, hφ]
    · refine c5 fun h => ?_
      rcases hgh (l, op) (List.mem_singleton.2 rfl) h with h' | h'
      · rw [hpv] at h'; cases h'
      · rw [show s.sf l op = true from h'] at hc2; cases hc2
    · rw [hpv] at hq; cases hq
      exact ⟨s.tagR l op, m, v, { s with
        tagR := upd2 s.tagR l op (s.tagR l op + 1)
        sf := upd2 s.sf l op m.fin }, by rw [a1]; exact List.mem_cons_self, a3, b2, rfl, rfl⟩
    · rcases h with h | h
      · rw [hpv] at h; cases h
      · cases h
  · have hc' : (E.recvFlag l r op && !s.sf l op) = false := by
      rw [Bool.eq_false_iff]
      intro h
      rw [Bool.and_eq_true, Bool.not_eq_true'] at h
      exact hc h
    have hpv : E.pv r (l, op) = none ∨ s.sf l op = true := by
      by_cases h : E.recvFlag l r op = true
      · right
        by_contra h2
        exact hc ⟨h, Bool.eq_false_iff.2 h2⟩
      · left
        rw [pv_ne6 hop]; exact recvFlag_false h
    simp only [hc', Bool.false_eq_true, if_false]
    refine ⟨[], s, In, .ret _, fun q => rfl, hF.skip hpv, ⟨fun d => rfl,
      fun d t m' h => ?_, fun q t m' h => ?_, fun y => ?_, fun y q hq hφ hs => ?_, fun _ _ => ⟨rfl, rfl⟩,
      fun y hy => hy, fun y hy q hq hφ => ?_, .refl s, fun h0 hgh => rfl⟩, by simp, fun q hq hs => ?_, fun _ => rfl⟩
    · simp at h
    · simp at h
    · simp
    · have : (l, op) ≠ y := by
        rintro rfl
        rcases hpv with h | h
        · rw [h] at hq; cases hq
        · rw [show s.sf l op = false from hs] at h; cases h
      rw [List.count_cons_of_ne this]
      simp [hs]
    · rw [List.mem_singleton] at hy
      subst hy
      rcases hpv with h | h
      · rw [h] at hq; cases hq
      · exact h
    · rcases hpv with h | h
      · rw [h] at hq; cases hq
      · rw [hs] at h; cases h

theorem St.recv7 (hg : E.global = false) (hb : E.Base) (hr : r < E.P) :
    E.StX r φ [] [(0, 7)] (fun s => if E.recvFlag 0 r 7 && !s.sf 0 7 then
      E.recvU (E.info r (lvlOf 0 7)).getFrom 0 7 (lvlOf 0 7) s else .ret s)
      fun s In es s' => (∀ d t m, Ev.snd d t m ∉ es) ∧
        (∀ p, E.pv r (0, 7) = some p → s.sf 0 7 = false → ∃ (t : Nat) (m : Msg V N) (v : V) (s0 : PState V N), (t, m) ∈ In p ∧ m.op = 7 ∧
          m.data = .vec v ∧ s0.u = s.u ∧ s' = s0.setU 0 0 v) ∧
        (E.pv r (0, 7) = none ∨ s.sf 0 7 = true → s' = s) := by
  refine St.recvGX (l := 0) (op := 7) hg hb hr (by decide) hb.valid.pos (fun v s => s.setU 0 0 v) (fun v s => ?_)
    (fun src s => E.recvU src 0 7 0 s) fun p m v s h1 h2 h3 => ?_
  · exact ⟨⟨rfl, rfl, rfl, rfl, rfl, rfl, rfl, rfl⟩, rfl, rfl, rfl, fun h => absurd rfl h⟩
  · intro β k
    refine LTr.recv (m := m) ?_
    simp only [h1, h2, decide_true, Bool.and_self, Bool.not_true, Bool.and_false, Bool.false_eq_true,
      if_false, hg, Prog.ret_bind]
    rw [h3]
    exact .nil _

theorem St.recv (hg : E.global = false) (hb : E.Base) (hr : r < E.P) {l op : Nat} (hop : op ≠ 6)
    (hl : lvlOf l op < E.ts.length) :
    E.St r φ [] [(l, op)] fun s => if E.recvFlag l r op && !s.sf l op then
      E.recvU (E.info r (lvlOf l op)).getFrom l op (lvlOf l op) s else .ret s := by
  refine StX.st <| St.recvGX hg hb hr hop hl (fun v s => s.setU (lvlOf l op) 0 v) (fun v s => ?_)
    (fun src s => E.recvU src l op (lvlOf l op) s) fun p m v s h1 h2 h3 => ?_
  · refine ⟨⟨rfl, rfl, rfl, rfl, rfl, rfl, rfl, rfl⟩, rfl, rfl, rfl, fun h => ?_⟩
    exact upd2_ne _ _ (fun h' => h h'.1.symm)
  · intro β k
    refine LTr.recv (m := m) ?_
    simp only [h1, h2, decide_true, Bool.and_self, Bool.not_true, Bool.and_false, Bool.false_eq_true,
      if_false, hg, Prog.ret_bind]
    rw [h3]
    exact .nil _

/-- Receiving without unpacking (`clean_up`, mgrit.py:683-684). -/
theorem St.recvDrop (hg : E.global = false) (hb : E.Base) (hr : r < E.P) {l op : Nat} (hop : op ≠ 6)
    (hl : lvlOf l op < E.ts.length) :
    E.St r φ [] [(l, op)] fun s => if E.recvFlag l r op && !s.sf l op then
      (E.recvP (E.info r (lvlOf l op)).getFrom l op s).bind fun p => .ret p.2 else .ret s := by
  refine StX.st <| St.recvGX hg hb hr hop hl (fun v s => s) (fun v s => ?_)
    (fun src s => (E.recvP src l op s).bind fun p => .ret p.2) fun p m v s h1 h2 h3 => ?_
  · exact ⟨.refl s, rfl, rfl, rfl, fun _ => rfl⟩
  · intro β k
    refine LTr.recv (m := m) ?_
    simp only [h1, h2, decide_true, Bool.and_self, Bool.not_true, Bool.and_false, Bool.false_eq_true,
      if_false, hg, Prog.ret_bind]
    exact .nil _

end Cfg

end Pymgrit
