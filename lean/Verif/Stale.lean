import Verif.EndToEnd

/-!
# Neighbouring C-points on both sides of a process boundary

If the last point of a process and the first point of the next one are both C-points of the finest level, none of the
exchanges of mgrit.py:301-331, 345-350, 396-399, 503-513 takes place between the two processes on that level, so the ghost
value of the second process keeps the value `create_u_v_g` has given it (mgrit.py:840-858).  `frozen E` is the problem whose
time step across such a boundary starts from that value.  The programs of all processes are equal for `E` and `frozen E`.
-/

set_option linter.unusedSectionVars false

namespace Pymgrit

variable {M α β : Type}

/-- The two programs are equal and return only values satisfying `Q`. -/
def Prog.Agree (Q : α → Prop) : Prog M α → Prog M α → Prop
  | .ret a, p' => p' = .ret a ∧ Q a
  | .fail e, p' => p' = .fail e
  | .send d t m k, p' => ∃ k', p' = .send d t m k' ∧ Prog.Agree Q k k'
  | .recv s t k, p' => ∃ k', p' = .recv s t k' ∧ ∀ m, Prog.Agree Q (k m) (k' m)
  | .wait k, p' => ∃ k', p' = .wait k' ∧ Prog.Agree Q k k'

theorem Prog.Agree.eq {Q : α → Prop} {p p' : Prog M α} (h : p.Agree Q p') : p' = p := by
  induction p generalizing p' with
  | ret a => exact h.1
  | fail e => exact h
  | send d t m k ih => obtain ⟨k', rfl, h⟩ := h; rw [ih h]
  | recv s t k ih =>
    obtain ⟨k', rfl, h⟩ := h
    rw [show k' = k from funext fun m => ih m (h m)]
  | wait k ih => obtain ⟨k', rfl, h⟩ := h; rw [ih h]

theorem Prog.Agree.bind {Q : α → Prop} {Q' : β → Prop} {p p' : Prog M α} {f f' : α → Prog M β} (h : p.Agree Q p')
    (hf : ∀ a, Q a → (f a).Agree Q' (f' a)) : (p.bind f).Agree Q' (p'.bind f') := by
  induction p generalizing p' with
  | ret a => rw [h.1]; exact hf a h.2
  | fail e => rw [h]; rfl
  | send d t m k ih => obtain ⟨k', rfl, h⟩ := h; exact ⟨_, rfl, ih h⟩
  | recv s t k ih => obtain ⟨k', rfl, h⟩ := h; exact ⟨_, rfl, fun m => ih m (h m)⟩
  | wait k ih => obtain ⟨k', rfl, h⟩ := h; exact ⟨_, rfl, ih h⟩

theorem Prog.Agree.ret {Q : α → Prop} {a a' : α} (e : a' = a) (h : Q a) :
    Prog.Agree (M := M) Q (.ret a) (.ret a') := ⟨by rw [e], h⟩

theorem Prog.Agree.refl {p : Prog M α} : p.Agree (fun _ => True) p := by
  induction p with
  | ret a => exact ⟨rfl, trivial⟩
  | fail e => rfl
  | send d t m k ih => exact ⟨_, rfl, ih⟩
  | recv s t k ih => exact ⟨_, rfl, ih⟩
  | wait k ih => exact ⟨_, rfl, ih⟩

theorem Prog.Agree.ite {Q : α → Prop} {c : Prop} [Decidable c] {p p' q q' : Prog M α} (h1 : c → p.Agree Q p')
    (h2 : ¬ c → q.Agree Q q') : (if c then p else q).Agree Q (if c then p' else q') := by
  by_cases hc : c
  · rw [if_pos hc, if_pos hc]; exact h1 hc
  · rw [if_neg hc, if_neg hc]; exact h2 hc

theorem Prog.Agree.forIn {σ ι : Type} {Q : σ → Prop} {f f' : σ → ι → Prog M σ} (xs : List ι)
    (hf : ∀ s x, x ∈ xs → Q s → (f s x).Agree Q (f' s x)) (s : σ) (hs : Q s) :
    (Prog.forIn' xs f s).Agree Q (Prog.forIn' xs f' s) := by
  induction xs generalizing s with
  | nil => exact ⟨rfl, hs⟩
  | cons x xs ih =>
    exact (hf s x (by simp) hs).bind fun a ha => ih (fun s y hy => hf s y (by simp [hy])) a ha

theorem foldl_agree {σ ι : Type} {Q : σ → Prop} {f f' : σ → ι → σ} (xs : List ι)
    (hf : ∀ s x, x ∈ xs → Q s → f' s x = f s x ∧ Q (f s x)) (s : σ) (hs : Q s) :
    xs.foldl f' s = xs.foldl f s ∧ Q (xs.foldl f s) := by
  induction xs generalizing s with
  | nil => exact ⟨rfl, hs⟩
  | cons x xs ih =>
    obtain ⟨e, hq⟩ := hf s x (by simp) hs
    rw [List.foldl_cons, List.foldl_cons, e]
    exact ih (fun s y hy => hf s y (by simp [hy])) _ hq

namespace Cfg

variable {V K T N : Type} [LinearOrder T] [Inhabited T]

/-- The boundary in front of process `q` separates two C-points of the finest level. -/
def CutC (E : Cfg V K T N) (q : Nat) : Prop :=
  1 < E.ts.length ∧ 0 < lo E.ts E.P 0 q ∧ lo E.ts E.P 0 q < npts E.ts 0 ∧
    lo E.ts E.P 0 q - 1 ∈ allC E.ts 0 ∧ lo E.ts E.P 0 q ∈ allC E.ts 0

/-- `t`, `t'` are the times of the two points at such a boundary. -/
def CutTimes (E : Cfg V K T N) (t t' : T) : Prop :=
  ∃ q, q < E.P ∧ E.CutC q ∧ t = tAt (grid E.ts 0) (lo E.ts E.P 0 q - 1) ∧ t' = tAt (grid E.ts 0) (lo E.ts E.P 0 q)

open Classical in
/-- The problem whose steps on the finest level across such boundaries start from the initial guess. -/
noncomputable def frozen (E : Cfg V K T N) : Cfg V K T N :=
  { E with
    step := fun l x t t' =>
      if l = 0 ∧ E.CutTimes t t' then E.step 0 (E.guess ((grid E.ts 0).idxOf t)) t t' else E.step l x t t' }

variable {E : Cfg V K T N} {r : Nat}

theorem frozen_step_coarse {l : Nat} (hl : l ≠ 0) : E.frozen.step l = E.step l := by
  funext x t t'
  exact if_neg fun h => hl h.1

theorem frozen_base (h : E.Base) : E.frozen.Base := ⟨h.valid, h.Ppos, h.PN, h.ord⟩

theorem lo_lt0 (h : E.Base) (hr : r < E.P) : lo E.ts E.P 0 r < lo E.ts E.P 0 (r + 1) := by
  rw [h.valid.lo_fine h.Ppos h.PN (by omega), h.valid.lo_fine h.Ppos h.PN (by omega)]
  exact firstPt_lt h.PN hr

theorem lo_inj (h : E.Base) {q i : Nat} (hr : r < E.P) (hq : q < E.P) (h1 : lo E.ts E.P 0 r ≤ i)
    (h2 : i < lo E.ts E.P 0 (r + 1)) (he : lo E.ts E.P 0 q = i) : q = r := by
  have hl : 0 < E.ts.length := h.valid.pos
  rcases Nat.lt_trichotomy q r with hlt | heq | hgt
  · have := lo_lt0 h hq
    have := h.lo_mono hl (show q + 1 ≤ r by omega) (by omega)
    omega
  · exact heq
  · have := h.lo_mono hl (show r + 1 ≤ q by omega) (by omega)
    omega

theorem cutTimes_own (h : E.Base) {i : Nat} (hr : r < E.P) (h1 : lo E.ts E.P 0 r ≤ i)
    (h2 : i < lo E.ts E.P 0 (r + 1)) {t : T} (hc : E.CutTimes t (tAt (grid E.ts 0) i)) : E.CutC r ∧ i = lo E.ts E.P 0 r := by
  obtain ⟨q, hq, hs, ht, ht'⟩ := hc
  have hi : i < npts E.ts 0 := Nat.lt_of_lt_of_le h2 (h.lo_le 0 (r + 1))
  have he := (tAt_inj (h.valid.sorted 0) hi hs.2.2.1).1 ht'
  have := lo_inj h hr hq h1 h2 he.symm
  subst this
  exact ⟨hs, he⟩

theorem cutTimes_cut (hr : r < E.P) (hs : E.CutC r) :
    E.CutTimes (tAt (grid E.ts 0) (lo E.ts E.P 0 r - 1)) (tAt (grid E.ts 0) (lo E.ts E.P 0 r)) := ⟨r, hr, hs, rfl, rfl⟩

/-- The step across a boundary between two C-points. -/
theorem frozen_step_cut (h : E.Base) (hr : r < E.P) (hs : E.CutC r) (x : V) :
    E.frozen.step 0 x (tAt (grid E.ts 0) (lo E.ts E.P 0 r - 1)) (tAt (grid E.ts 0) (lo E.ts E.P 0 r)) =
      E.step 0 (E.guess (lo E.ts E.P 0 r - 1)) (tAt (grid E.ts 0) (lo E.ts E.P 0 r - 1))
        (tAt (grid E.ts 0) (lo E.ts E.P 0 r)) := by
  have hi : lo E.ts E.P 0 r - 1 < (grid E.ts 0).length := by
    have := hs.2.2.1
    unfold npts at this
    omega
  refine (if_pos ⟨rfl, cutTimes_cut hr hs⟩).trans ?_
  rw [idxOf_tAt (h.valid.sorted 0) hi]

/-- All other steps are those of `E`. -/
theorem frozen_step_own (h : E.Base) {i : Nat} (hr : r < E.P) (h1 : lo E.ts E.P 0 r ≤ i)
    (h2 : i < lo E.ts E.P 0 (r + 1)) (hn : ¬ (E.CutC r ∧ i = lo E.ts E.P 0 r)) (x : V) (t : T) :
    E.frozen.step 0 x t (tAt (grid E.ts 0) i) = E.step 0 x t (tAt (grid E.ts 0) i) :=
  if_neg fun hc => hn (cutTimes_own h hr h1 h2 hc.2)

/-- `frozen E` meets the hypotheses of the theorems on distributed runs, if `E` does except for neighbouring C-points of the
finest level. -/
theorem frozen_good (h : E.Base) (hg : E.global = true)
    (hcc : ∀ r l, r < E.P → l ≠ 0 → l + 1 < E.ts.length → 0 < lo E.ts E.P l r → lo E.ts E.P l r < npts E.ts l →
      ¬ (lo E.ts E.P l r - 1 ∈ allC E.ts l ∧ lo E.ts E.P l r ∈ allC E.ts l)) : E.frozen.Good where
  toBase := frozen_base h
  glob := hg
  noCC := by
    intro r l hr hl h0 h1 hC x y
    by_cases hl0 : l = 0
    · subst hl0
      have hs : E.CutC r := ⟨by have : 0 + 1 < E.ts.length := hl; omega, h0, h1, hC.1, hC.2⟩
      exact (frozen_step_cut h hr hs x).trans (frozen_step_cut h hr hs y).symm
    · exact absurd hC (hcc r l hr hl0 hl h0 h1)

/-- The ghost value of a process behind such a boundary is the initial guess. -/
def Ghost (E : Cfg V K T N) (r : Nat) (s : PState V N) : Prop :=
  E.CutC r → s.u 0 0 = E.guess (lo E.ts E.P 0 r - 1)

/-- A local index of one of the process' own points. -/
def Own (E : Cfg V K T N) (r l j : Nat) : Prop :=
  ∃ i, lo E.ts E.P l r ≤ i ∧ i < lo E.ts E.P l (r + 1) ∧ j = i - off E.ts E.P l r

theorem cut_ne (h : E.Base) (hs : E.CutC r) : r ≠ 0 := by
  rintro rfl
  have := hs.2.1
  rw [h.lo_zero h.valid.pos] at this
  omega

theorem own_ne (h : E.Base) {j : Nat} (hr : r < E.P) (ho : E.Own r 0 j) (hs : E.CutC r) : j ≠ 0 := by
  obtain ⟨i, h1, h2, rfl⟩ := ho
  have := h.off_add h.valid.pos (Nat.le_of_lt hr)
  have hr0 := cut_ne h hs
  unfold gh at this
  rw [if_neg hr0] at this
  omega

theorem Ghost.setU {s : PState V N} (hs : E.Ghost r s) {l j : Nat} (hne : l = 0 → E.CutC r → j ≠ 0) (x : V) :
    E.Ghost r (s.setU l j x) := by
  intro hc
  have := hs hc
  show upd2 s.u l j x 0 0 = _
  unfold upd2
  by_cases hl : l = 0
  · subst hl
    rw [Function.update_self, Function.update_of_ne (hne rfl hc).symm, this]
  · rw [Function.update_of_ne (fun e => hl e.symm), this]

theorem sendP_agree (dst : Option Nat) (l op : Nat) (x : Payload V N) (s : PState V N) (hs : E.Ghost r s) :
    (E.sendP dst l op x s).Agree (E.Ghost r) (E.frozen.sendP dst l op x s) := by
  cases dst with
  | none => rfl
  | some d => exact ⟨_, rfl, rfl, hs⟩

theorem recvU_agree (src : Option Nat) (l op lu : Nat) (s : PState V N) (hs : E.Ghost r s) (hlu : lu = 0 → ¬ E.CutC r) :
    (E.recvU src l op lu s).Agree (E.Ghost r) (E.frozen.recvU src l op lu s) := by
  cases src with
  | none => rfl
  | some q =>
    refine ⟨_, rfl, fun m => ?_⟩
    show ((if _ then _ else _ : Prog (Msg V N) (Payload V N × PState V N)).bind _).Agree _
      ((if _ then _ else _ : Prog (Msg V N) (Payload V N × PState V N)).bind _)
    by_cases hc : (E.instr && !(decide (m.lvl = l) && decide (m.op = op))) = true
    · rw [if_pos hc, if_pos (show (E.frozen.instr && !(decide (m.lvl = l) && decide (m.op = op))) = true from hc)]
      rfl
    · rw [if_neg hc, if_neg (show ¬ (E.frozen.instr && !(decide (m.lvl = l) && decide (m.op = op))) = true from hc)]
      cases hm : m.data with
      | vec x =>
        simp only [Prog.ret_bind]
        refine ⟨rfl, Ghost.setU ?_ (fun e hc => absurd hc (hlu e)) x⟩
        exact fun hc => hs hc
      | flag b => simp only [Prog.ret_bind]; rfl
      | nums b => simp only [Prog.ret_bind]; rfl
      | num b => simp only [Prog.ret_bind]; rfl
      | unit => simp only [Prog.ret_bind]; rfl

section ops
variable [Add V]

theorem stepAt_frozen (h : E.Base) (hr : r < E.P) {l j : Nat} (ho : l = 0 → E.Own r 0 j) (u : Nat → V)
    (hu : l = 0 → E.CutC r → u 0 = E.guess (lo E.ts E.P 0 r - 1)) : E.frozen.stepAt r l j u = E.stepAt r l j u := by
  by_cases hl : l = 0
  · subst hl
    obtain ⟨i, h1, h2, rfl⟩ := ho rfl
    have hsp := h.spec hr h.valid.pos
    have hlt : lo E.ts E.P 0 r < lo E.ts E.P 0 (r + 1) := by omega
    have hoff := h.off_add h.valid.pos (Nat.le_of_lt hr)
    have e1 := hsp.t_at hlt i (by omega) h2
    show E.frozen.step 0 (u _) _ (tAt (E.info r 0).t (i - off E.ts E.P 0 r)) =
      E.step 0 (u _) _ (tAt (E.info r 0).t (i - off E.ts E.P 0 r))
    rw [e1]
    by_cases hc : E.CutC r ∧ i = lo E.ts E.P 0 r
    · obtain ⟨hc, rfl⟩ := hc
      have hr0 := cut_ne h hc
      have h0 := hc.2.1
      have hgh : gh r = 1 := if_neg hr0
      have hp : pyPrev (E.len r 0) (lo E.ts E.P 0 r - off E.ts E.P 0 r) = 0 := by
        unfold pyPrev
        rw [if_neg (by omega)]; omega
      show E.frozen.step 0 (u (pyPrev (E.len r 0) _)) (tAt (E.info r 0).t (pyPrev (E.len r 0) _)) _ = _
      have e2 := hsp.t_at hlt (lo E.ts E.P 0 r - 1) (by omega) (by omega)
      rw [show lo E.ts E.P 0 r - 1 - off E.ts E.P 0 r = 0 by omega] at e2
      rw [hp, e2, frozen_step_cut h hr hc, hu rfl hc]
    · exact frozen_step_own h hr h1 h2 hc _ _
  · unfold stepAt
    rw [frozen_step_coarse hl]
    rfl

theorem propAt_frozen (h : E.Base) (hr : r < E.P) {l j : Nat} (ho : l = 0 → E.Own r 0 j) {s : PState V N}
    (hs : E.Ghost r s) : E.frozen.propAt r l j s = E.propAt r l j s := by
  unfold propAt
  rw [stepAt_frozen h hr ho (s.u l) (fun e => by subst e; exact hs)]

theorem idxF_own (h : E.Base) (hr : r < E.P) {j : Nat} (hj : j ∈ (E.info r 0).idxF) : E.Own r 0 j := by
  obtain ⟨i, h1, h2, -, e⟩ := ((h.spec hr h.valid.pos).idxF_mem j).1 hj
  exact ⟨i, h1, h2, e⟩

theorem idxC_own (h : E.Base) (hr : r < E.P) {j : Nat} (hj : j ∈ (E.info r 0).idxC) : E.Own r 0 j := by
  have hs := h.spec hr h.valid.pos
  rw [hs.idxC, hs.cpts, hs.pts] at hj
  obtain ⟨i, hi, rfl⟩ := List.mem_map.1 hj
  have := List.mem_range'_1.1 (List.mem_filter.1 hi).1
  exact ⟨i, this.1, by omega, rfl⟩

theorem not_firstF (h : E.Base) (hr : r < E.P) {l : Nat} (hf : (E.info r l).firstF = true) : l = 0 → ¬ E.CutC r := by
  rintro rfl hc
  exact ((h.spec hr h.valid.pos).firstF.1 hf).2.2.1 hc.2.2.2.2

theorem not_commFront (h : E.Base) (hr : r < E.P) {l : Nat} (hf : (E.info r l).commFront = true) :
    l = 0 → ¬ E.CutC r := by
  rintro rfl hc
  exact ((h.spec hr h.valid.pos).commFront.1 hf).2.2.1 hc.2.2.2.2

theorem not_firstC (h : E.Base) (hr : r < E.P) {l : Nat} (hf : (E.info r l).firstC = true) : l = 0 → ¬ E.CutC r := by
  rintro rfl hc
  exact ((h.spec hr h.valid.pos).firstC.1 hf).2.2.2 hc.2.2.2.1

/-- The program keeps the ghost value and is the same for `frozen E`. -/
def FZ (E : Cfg V K T N) (r : Nat) (p p' : Prog (Msg V N) (PState V N)) : Prop := p.Agree (E.Ghost r) p'

theorem fBody_fz (h : E.Base) (hr : r < E.P) (l : Nat) (s : PState V N) (j : Nat) (hj : j ∈ (E.info r l).idxF)
    (hs : E.Ghost r s) : FZ E r (E.fBody r l s j) (E.frozen.fBody r l s j) := by
  have ho : l = 0 → E.Own r 0 j := by rintro rfl; exact idxF_own h hr hj
  have hrec : FZ E r (if (E.info r l).commFront && decide ((E.info r l).idxF.min? = some j) && !s.sf l 1 then
      E.recvU (E.info r l).getFrom l 1 l s else .ret s)
      (if (E.info r l).commFront && decide ((E.info r l).idxF.min? = some j) && !s.sf l 1 then
      E.frozen.recvU (E.info r l).getFrom l 1 l s else .ret s) := by
    refine Prog.Agree.ite (fun hc => ?_) fun _ => .ret rfl hs
    simp only [Bool.and_eq_true] at hc
    exact recvU_agree _ _ _ _ _ hs (not_commFront h hr hc.1.1)
  refine Prog.Agree.bind hrec fun s hs => ?_
  rw [propAt_frozen h hr ho hs]
  have hs' : E.Ghost r (s.setU l j (E.propAt r l j s)) := hs.setU (fun e hc => own_ne h hr (ho e) hc) _
  exact Prog.Agree.ite (fun _ => sendP_agree _ _ _ _ _ hs') fun _ => .ret rfl hs'

theorem fRelaxP_fz (h : E.Base) (hr : r < E.P) (l : Nat) (s : PState V N) (hs : E.Ghost r s) :
    FZ E r (E.fRelaxP r l s) (E.frozen.fRelaxP r l s) := by
  refine Prog.Agree.bind (Q := E.Ghost r) ?_ fun s hs => Prog.Agree.bind (Q := E.Ghost r) ?_ fun s hs => ?_
  · exact Prog.Agree.ite (fun _ => sendP_agree _ _ _ _ _ hs) fun _ => .ret rfl hs
  · refine Prog.Agree.ite (fun hc => ?_) fun _ => .ret rfl hs
    simp only [Bool.and_eq_true] at hc
    exact recvU_agree _ _ _ _ _ hs (not_firstF h hr hc.1)
  · exact Prog.Agree.forIn _ (fun s j hj hs => fBody_fz h hr l s j hj hs) s hs

theorem forwardSolveP_fz (h : E.Base) (hr : r < E.P) {l : Nat} (hl : l ≠ 0) (s : PState V N) (hs : E.Ghost r s) :
    FZ E r (E.forwardSolveP r l s) (E.frozen.forwardSolveP r l s) := by
  refine Prog.Agree.bind (Q := E.Ghost r) ?_ fun s hs => ?_
  · exact Prog.Agree.ite (fun _ => recvU_agree _ _ _ _ _ hs (fun e => absurd e hl)) fun _ => .ret rfl hs
  · obtain ⟨e, hs'⟩ := foldl_agree (Q := E.Ghost r) (f := fun s j => s.setU l j (E.propAt r l j s))
      (f' := fun s j => s.setU l j (E.frozen.propAt r l j s)) (List.range' 1 (E.len r l - 1))
      (fun s j _ hs => ⟨by rw [propAt_frozen h hr (fun e => absurd e hl) hs], hs.setU (fun e => absurd e hl) _⟩) s hs
    have e' : (List.range' 1 (E.frozen.len r l - 1)).foldl (fun s j => s.setU l j (E.frozen.propAt r l j s)) s =
      (List.range' 1 (E.len r l - 1)).foldl (fun s j => s.setU l j (E.propAt r l j s)) s := e
    simp only [e']
    exact Prog.Agree.ite (fun _ => sendP_agree _ _ _ _ _ hs') fun _ => .ret rfl hs'

theorem restrictLoop_fz (l : Nat) (s : PState V N) (hs : E.Ghost r s) :
    E.frozen.restrictLoop r l s = E.restrictLoop r l s ∧ E.Ghost r (E.restrictLoop r l s) :=
  foldl_agree (Q := E.Ghost r) _ (fun _ _ _ hs => ⟨rfl, hs.setU (fun e => absurd e (by omega)) _⟩) s hs

theorem idxC_zip_own (h : E.Base) (hr : r < E.P) {l : Nat} {ci : Nat × Nat} (hci : ci ∈ (E.info r l).idxC.zipIdx) :
    l = 0 → E.Own r 0 ci.1 := by
  rintro rfl
  exact idxC_own h hr (List.fst_mem_of_mem_zipIdx hci)

theorem fasLoop_fz [Sub V] (h : E.Base) (hr : r < E.P) (l : Nat) (s : PState V N) (hs : E.Ghost r s) :
    E.frozen.fasLoop r l s = E.fasLoop r l s ∧ E.Ghost r (E.fasLoop r l s) := by
  refine foldl_agree (Q := E.Ghost r) _ (fun s ci hci hs => ?_) s hs
  have ho := idxC_zip_own h hr hci
  have e1 : ∀ k, E.frozen.stepAt r (l + 1) k (s.v (l + 1)) = E.stepAt r (l + 1) k (s.v (l + 1)) := fun k =>
    stepAt_frozen h hr (fun e => absurd e (by omega)) _ (fun e => absurd e (by omega))
  have e2 : E.frozen.stepAt r l ci.1 (s.u l) = E.stepAt r l ci.1 (s.u l) :=
    stepAt_frozen h hr ho _ (fun e => by subst e; exact hs)
  constructor
  · simp only [e1, e2]
    rfl
  · by_cases hc : ci.2 ≠ 0 ∨ r ≠ 0
    · simp only [if_pos hc]
      by_cases hl : l = 0
      · simp only [if_pos hl]; exact fun x => hs x
      · simp only [if_neg hl]; exact fun x => hs x
    · simp only [if_neg hc]; exact hs

theorem fasResidualP_fz [Sub V] (h : E.Base) (hr : r < E.P) (l : Nat) (s : PState V N) (hs : E.Ghost r s) :
    FZ E r (E.fasResidualP r l s) (E.frozen.fasResidualP r l s) := by
  have hs := (restrictLoop_fz l s hs).2
  refine Prog.Agree.bind (Q := E.Ghost r) ?_ fun s hs => Prog.Agree.bind (Q := E.Ghost r) ?_ fun s hs =>
    Prog.Agree.bind (Q := E.Ghost r) ?_ fun s hs => Prog.Agree.bind (Q := E.Ghost r) ?_ fun s hs => ?_
  · exact Prog.Agree.ite (fun _ => sendP_agree _ _ _ _ _ hs) fun _ => .ret rfl hs
  · refine Prog.Agree.ite (fun hc => ?_) fun _ => .ret rfl hs
    simp only [Bool.and_eq_true] at hc
    exact recvU_agree _ _ _ _ _ hs (not_firstC h hr hc.1)
  · exact Prog.Agree.ite (fun _ => sendP_agree _ _ _ _ _ hs) fun _ => .ret rfl hs
  · exact Prog.Agree.ite (fun _ => recvU_agree _ _ _ _ _ hs (fun e => absurd e (by omega))) fun _ => .ret rfl hs
  · have hs' : E.Ghost r { s with v := Function.update s.v (l + 1) (s.u (l + 1)) } := fun x => hs x
    obtain ⟨e, hq⟩ := fasLoop_fz h hr l _ hs'
    exact .ret e hq

theorem errorCorrectionP_fz [Sub V] (h : E.Base) (hr : r < E.P) (l : Nat) (s : PState V N) (hs : E.Ghost r s) :
    E.frozen.errorCorrectionP r l s = E.errorCorrectionP r l s ∧ E.Ghost r (E.errorCorrectionP r l s) := by
  refine foldl_agree (Q := E.Ghost r) _ (fun s ci hci hs => ⟨rfl, ?_⟩) s hs
  have ho := idxC_zip_own h hr hci
  dsimp only
  split
  · exact hs.setU (fun e hc => own_ne h hr (ho e) hc) _
  · exact hs

theorem timesP_fz {f f' : PState V N → Prog (Msg V N) (PState V N)} (hf : ∀ s, E.Ghost r s → FZ E r (f s) (f' s)) (k : Nat)
    (s : PState V N) (hs : E.Ghost r s) : FZ E r (timesP f k s) (timesP f' k s) := by
  induction k generalizing s with
  | zero => exact .ret rfl hs
  | succ k ih => exact Prog.Agree.bind (hf s hs) fun s hs => ih s hs

variable [Sub V] [SMul K V] [One K] [Sub K]

theorem cRelaxP_fz (h : E.Base) (hr : r < E.P) (l : Nat) (s : PState V N) (hs : E.Ghost r s) :
    FZ E r (E.cRelaxP r l s) (E.frozen.cRelaxP r l s) := by
  refine Prog.Agree.bind (Q := E.Ghost r) ?_ fun s hs => Prog.Agree.bind (Q := E.Ghost r) ?_ fun s hs => ?_
  · exact Prog.Agree.ite (fun _ => sendP_agree _ _ _ _ _ hs) fun _ => .ret rfl hs
  · refine Prog.Agree.ite (fun hc => ?_) fun _ => .ret rfl hs
    simp only [Bool.and_eq_true] at hc
    exact recvU_agree _ _ _ _ _ hs (not_firstC h hr hc.1)
  · have : E.frozen.cLoop r l s = E.cLoop r l s ∧ E.Ghost r (E.cLoop r l s) := by
      refine foldl_agree (Q := E.Ghost r) _ (fun s j hj hs => ?_) s hs
      have ho : l = 0 → E.Own r 0 j := by rintro rfl; exact idxC_own h hr hj
      rw [propAt_frozen h hr ho hs]
      refine ⟨rfl, ?_⟩
      split
      · exact hs.setU (fun e hc => own_ne h hr (ho e) hc) _
      · exact hs
    exact .ret this.1 this.2

theorem relax_fz (h : E.Base) (hr : r < E.P) (l k : Nat) (s : PState V N) (hs : E.Ghost r s) :
    FZ E r (timesP (fun s => (E.cRelaxP r l s).bind (E.fRelaxP r l)) k s)
      (timesP (fun s => (E.frozen.cRelaxP r l s).bind (E.frozen.fRelaxP r l)) k s) :=
  timesP_fz (fun s hs => Prog.Agree.bind (cRelaxP_fz h hr l s hs) fun s hs => fRelaxP_fz h hr l s hs) k s hs

theorem vcycP_fz (h : E.Base) (hr : r < E.P) (d l it : Nat) (ff : Bool) (hl : l + d ≠ 0) (s : PState V N)
    (hs : E.Ghost r s) : FZ E r (E.vcycP r d l it ff s) (E.frozen.vcycP r d l it ff s) := by
  induction d generalizing l ff s with
  | zero => exact forwardSolveP_fz h hr hl s hs
  | succ d ih =>
    refine Prog.Agree.bind (Q := E.Ghost r) ?_ fun s hs => Prog.Agree.bind (relax_fz h hr l _ s hs) fun s hs =>
      Prog.Agree.bind (fasResidualP_fz h hr l s hs) fun s hs =>
      Prog.Agree.bind (ih (l + 1) true (by omega) s hs) fun s hs => ?_
    · exact Prog.Agree.ite (fun _ => fRelaxP_fz h hr l s hs) fun _ => .ret rfl hs
    · obtain ⟨e, hs'⟩ := errorCorrectionP_fz h hr l s hs
      rw [e]
      exact fRelaxP_fz h hr l _ hs'

theorem iterationP_fz (h : E.Base) (hr : r < E.P) (d l : Nat) (cyc : Sys.Cycle) (it : Nat) (ff : Bool) (hl : l + d ≠ 0)
    (s : PState V N) (hs : E.Ghost r s) :
    FZ E r (E.iterationP r d l cyc it ff s) (E.frozen.iterationP r d l cyc it ff s) := by
  induction d generalizing l ff s with
  | zero => exact forwardSolveP_fz h hr hl s hs
  | succ d ih =>
    refine Prog.Agree.bind (Q := E.Ghost r) ?_ fun s hs => Prog.Agree.bind (relax_fz h hr l _ s hs) fun s hs =>
      Prog.Agree.bind (fasResidualP_fz h hr l s hs) fun s hs =>
      Prog.Agree.bind (ih (l + 1) true (by omega) s hs) fun s hs => Prog.Agree.bind (Q := E.Ghost r) ?_ fun s hs => ?_
    · exact Prog.Agree.ite (fun _ => fRelaxP_fz h hr l s hs) fun _ => .ret rfl hs
    · obtain ⟨e, hs'⟩ := errorCorrectionP_fz h hr l s hs
      rw [e]
      exact fRelaxP_fz h hr l _ hs'
    · exact Prog.Agree.ite (fun _ => vcycP_fz h hr (d + 1) l it false (by omega) s hs) fun _ => .ret rfl hs

theorem interpolateP_fz (h : E.frozen.Good) (hr : r < E.P) {l : Nat} (hl : l + 1 < E.ts.length) (s : PState V N)
    (hs : E.Ghost r s) : E.frozen.interpolateP r l s = E.interpolateP r l s ∧ E.Ghost r (E.interpolateP r l s) := by
  have hb : E.Base := ⟨h.valid, h.Ppos, h.PN, h.ord⟩
  refine foldl_agree (Q := E.Ghost r) _ (fun s ki hki hs => ⟨rfl, ?_⟩) s hs
  split
  · refine hs.setU (fun e hc => ?_) _
    subst e
    refine own_ne hb hr (idxC_own hb hr ?_) hc
    have hlen : ki.2 < (E.info r 0).idxC.length := by
      have h1 : (E.info r 0).idxC.length = _ := congrArg List.length (idxC_eq h hr hl)
      rw [h1, List.length_map, List.length_range']
      have h2 : ki.2 < (E.info r (0 + 1)).idx.length + 0 := List.snd_lt_of_mem_zipIdx hki
      rw [(hb.spec hr hl).idx, List.length_range'] at h2
      exact h2
    show (E.info r 0).idxC.getD ki.2 0 ∈ _
    rw [List.getD_eq_getElem?_getD, List.getElem?_eq_getElem hlen]
    exact List.getElem_mem _
  · exact hs

theorem nestedLoopP_fz (h : E.frozen.Good) (hr : r < E.P) (l : Nat) (hl : l < E.ts.length) (s : PState V N)
    (hs : E.Ghost r s) : FZ E r (E.nestedLoopP r l s) (E.frozen.nestedLoopP r l s) := by
  have hb : E.Base := ⟨h.valid, h.Ppos, h.PN, h.ord⟩
  induction l generalizing s with
  | zero => exact .ret rfl hs
  | succ l ih =>
    obtain ⟨e, hs'⟩ := interpolateP_fz h hr hl s hs
    show FZ E r (Prog.bind _ _) (Prog.bind _ _)
    rw [e]
    refine Prog.Agree.bind (Q := E.Ghost r) ?_ fun s hs => ih (by omega) s hs
    exact Prog.Agree.ite (fun hp => iterationP_fz hb hr _ l _ 0 true (by omega) _ hs') fun _ => .ret rfl hs'

theorem nestedIterationP_fz (h : E.frozen.Good) (hr : r < E.P) (hL : 1 < E.ts.length) (s : PState V N)
    (hs : E.Ghost r s) : FZ E r (E.nestedIterationP r s) (E.frozen.nestedIterationP r s) := by
  have hb : E.Base := ⟨h.valid, h.Ppos, h.PN, h.ord⟩
  have hl : E.L - 1 ≠ 0 := by unfold L; omega
  exact Prog.Agree.bind (forwardSolveP_fz hb hr hl s hs) fun s hs =>
    nestedLoopP_fz h hr _ (by unfold L; omega) s hs

theorem residualP_fz (h : E.Base) (hr : r < E.P) (s : PState V N) (hs : E.Ghost r s) :
    (E.residualP r s).Agree (fun x => E.Ghost r x.2) (E.frozen.residualP r s) := by
  refine Prog.Agree.bind (Q := E.Ghost r) ?_ fun s hs => Prog.Agree.bind (Q := E.Ghost r) ?_ fun s hs => ?_
  · exact Prog.Agree.ite (fun _ => sendP_agree _ _ _ _ _ hs) fun _ => .ret rfl hs
  · refine Prog.Agree.ite (fun hc => ?_) fun _ => .ret rfl hs
    simp only [Bool.and_eq_true] at hc
    exact recvU_agree _ _ _ _ _ hs (not_firstC h hr hc.1)
  · refine .ret ?_ hs
    refine Prod.ext (List.map_congr_left fun j hj => ?_) rfl
    rw [stepAt_frozen h hr (fun _ => idxC_own h hr (List.mem_filter.1 hj).1) _ (fun _ => hs)]
    rfl

theorem convergenceP_fz (h : E.Base) (hg : E.global = true) (hr : r < E.P) (it : Nat) (s : PState V N)
    (hs : E.Ghost r s) : FZ E r (E.convergenceP r it s) (E.frozen.convergenceP r it s) := by
  refine Prog.Agree.bind (Q := fun x : List N × PState V N => E.Ghost r x.2) ?_ fun x hx => ?_
  · exact Prog.Agree.ite (fun _ => residualP_fz h hr s hs) fun _ => .ret rfl (fun hc => hs hc)
  · dsimp only
    rw [if_pos hg, if_pos (show E.frozen.global = true from hg)]
    refine Prog.Agree.bind (Q := fun _ => True) Prog.Agree.refl fun p _ => ?_
    cases p with
    | num y => exact .ret rfl (fun hc => hx hc)
    | vec _ => rfl
    | flag _ => rfl
    | nums _ => rfl
    | unit => rfl

theorem cleanUpP_fz (hg : E.global = true) (s : PState V N) (hs : E.Ghost r s) :
    FZ E r (E.cleanUpP r s) (E.frozen.cleanUpP r s) := by
  unfold cleanUpP
  rw [if_pos hg, if_pos (show E.frozen.global = true from hg)]
  exact ⟨_, rfl, rfl, hs⟩

theorem solveLoopP_fz (h : E.Base) (hg : E.global = true) (hr : r < E.P) (hL : 1 < E.ts.length) (k it : Nat)
    (s : PState V N) (hs : E.Ghost r s) : FZ E r (E.solveLoopP r k it s) (E.frozen.solveLoopP r k it s) := by
  induction k generalizing it s with
  | zero => exact .ret rfl hs
  | succ k ih =>
    have hs0 : E.Ghost r { s with solveIter := it + 1 } := fun hc => hs hc
    refine Prog.Agree.bind (iterationP_fz h hr (E.L - 1) 0 E.cyc it true (by unfold L; omega) _ hs0) fun s hs =>
      Prog.Agree.bind (convergenceP_fz h hg hr (it + 1) s hs) fun s hs => ?_
    have hs' : E.Ghost r (if E.outLvl = 2 then outputP s else s) := by
      split
      · exact fun hc => hs hc
      · exact hs
    refine Prog.Agree.ite (fun _ => ?_) fun _ => ih (it + 1) _ hs'
    exact Prog.Agree.ite (fun _ => cleanUpP_fz hg _ hs') fun hn => absurd hg hn

theorem solveP_fz (h : E.Base) (hg : E.global = true) (hr : r < E.P) (hL : 1 < E.ts.length) (s : PState V N)
    (hs : E.Ghost r s) : FZ E r (E.solveP r s) (E.frozen.solveP r s) := by
  refine Prog.Agree.bind (solveLoopP_fz h hg hr hL E.maxIter 0 s hs) fun s hs =>
    Prog.Agree.bind (Q := fun _ => True) Prog.Agree.refl fun _ _ => ?_
  refine .ret rfl ?_
  split
  · exact fun hc => hs hc
  · exact hs

theorem setupP_fz (h : E.frozen.Good) (hr : r < E.P) (hL : 1 < E.ts.length) (s : PState V N) (hs : E.Ghost r s) :
    FZ E r (E.setupP r s) (E.frozen.setupP r s) := by
  refine Prog.Agree.bind (Q := fun _ => True) Prog.Agree.refl fun _ _ =>
    Prog.Agree.bind (Q := E.Ghost r) ?_ fun s hs => Prog.Agree.bind (Q := fun _ => True) Prog.Agree.refl fun _ _ => ?_
  · exact Prog.Agree.ite (fun _ => nestedIterationP_fz h hr hL s hs) fun _ => .ret rfl hs
  · refine .ret rfl ?_
    split <;> split <;> exact fun hc => hs hc

theorem initState_ghost [Zero N] (h : E.Base) (hr : r < E.P) :
    E.Ghost r (E.initState (fun r l => off E.ts E.P l r) r) := by
  intro hc
  have hr0 := cut_ne h hc
  show (if r = 0 ∧ _ then _ else if _ then E.guess (0 + off E.ts E.P 0 r) else _) = _
  rw [if_neg (fun e => hr0 e.1), if_pos rfl]
  have := h.off_add h.valid.pos (Nat.le_of_lt hr)
  unfold gh at this
  rw [if_neg hr0] at this
  congr 1
  omega

/-- Constructor and `solve()` are the same program for `E` and for `frozen E`. -/
theorem mainP_frozen [Zero N] (h : E.frozen.Good) (hr : r < E.P) :
    E.frozen.mainP r (E.frozen.initState (fun r l => off E.ts E.P l r) r) =
      E.mainP r (E.initState (fun r l => off E.ts E.P l r) r) := by
  by_cases hL : 1 < E.ts.length
  · have hb : E.Base := ⟨h.valid, h.Ppos, h.PN, h.ord⟩
    exact (Prog.Agree.bind (setupP_fz h hr hL _ (initState_ghost hb hr)) fun s hs =>
      solveP_fz hb h.glob hr hL s hs).eq
  · have : E.frozen = E := by
      unfold frozen
      congr
      funext l x t t'
      exact if_neg fun hc => hL hc.2.choose_spec.2.1.1
    rw [this]

theorem startConf_frozen [Zero N] (h : E.frozen.Good) : startConf E = startConf E.frozen :=
  Conf.ext' (fun r => (mainP_frozen h r.isLt).symm) rfl

end ops
end Cfg
end Pymgrit
