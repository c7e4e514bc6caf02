import Verif.Dist0

/-! F-relaxation, C-relaxation and the coarsest-level solve of the distributed program. -/

set_option linter.unusedSectionVars false

namespace Pymgrit

variable {V K T N : Type} [LinearOrder T] [Inhabited T]

/-! ### Loops over process states -/

/-- Replace the array of one level. -/
def PState.setLvl (s : PState V N) (l : Nat) (x : Nat → V) : PState V N :=
  { s with u := Function.update s.u l x }

def PState.setGLvl (s : PState V N) (l : Nat) (x : Nat → V) : PState V N :=
  { s with g := Function.update s.g l x }

@[simp] theorem PState.setLvl_u (s : PState V N) (l : Nat) (x : Nat → V) :
    (s.setLvl l x).u l = x := by simp [PState.setLvl]

theorem PState.setLvl_u_ne (s : PState V N) {l l' : Nat} (x : Nat → V) (h : l' ≠ l) :
    (s.setLvl l x).u l' = s.u l' := by simp [PState.setLvl, h]

theorem PState.setU_eq (s : PState V N) (l j : Nat) (y : V) :
    s.setU l j y = s.setLvl l (Function.update (s.u l) j y) := rfl

theorem PState.setLvl_setU (s : PState V N) (l j : Nat) (x : Nat → V) (y : V) :
    (s.setLvl l x).setU l j y = s.setLvl l (Function.update x j y) := by
  simp [PState.setU_eq, PState.setLvl]

theorem PState.setLvl_self (s : PState V N) (l : Nat) : s.setLvl l (s.u l) = s := by
  cases s
  simp [PState.setLvl]

theorem PState.setGLvl_self (s : PState V N) (l : Nat) : s.setGLvl l (s.g l) = s := by
  cases s
  simp [PState.setGLvl]

theorem PState.setGLvl_setG (s : PState V N) (l j : Nat) (x : Nat → V) (y : V) :
    (s.setGLvl l x).setG l j y = s.setGLvl l (Function.update x j y) := by
  simp [PState.setG, upd2, PState.setGLvl]

theorem foldl_setU {α : Type} (xs : List α) (key : α → Nat) (l : Nat) (f : PState V N → α → V)
    (F : (Nat → V) → α → V) (s : PState V N)
    (hf : ∀ x a, a ∈ xs → f (s.setLvl l x) a = F x a) :
    xs.foldl (fun s a => s.setU l (key a) (f s a)) s
      = s.setLvl l (xs.foldl (fun u a => Function.update u (key a) (F u a)) (s.u l)) := by
  have gen : ∀ ys : List α, (∀ a ∈ ys, a ∈ xs) → ∀ x,
      ys.foldl (fun s a => s.setU l (key a) (f s a)) (s.setLvl l x)
        = s.setLvl l (ys.foldl (fun u a => Function.update u (key a) (F u a)) x) := by
    intro ys
    induction ys with
    | nil => intros; rfl
    | cons a ys ih =>
      intro hm x
      rw [List.foldl_cons, List.foldl_cons, hf x a (hm a (by simp)), PState.setLvl_setU]
      exact ih (fun b hb => hm b (by simp [hb])) _
  have := gen xs (fun _ h => h) (s.u l)
  rwa [PState.setLvl_self] at this

theorem foldl_setG {α : Type} (xs : List α) (key : α → Nat) (l : Nat) (f : PState V N → α → V)
    (F : α → V) (s : PState V N)
    (hf : ∀ x a, a ∈ xs → f (s.setGLvl l x) a = F a) :
    xs.foldl (fun s a => s.setG l (key a) (f s a)) s
      = s.setGLvl l (xs.foldl (fun u a => Function.update u (key a) (F a)) (s.g l)) := by
  have gen : ∀ ys : List α, (∀ a ∈ ys, a ∈ xs) → ∀ x,
      ys.foldl (fun s a => s.setG l (key a) (f s a)) (s.setGLvl l x)
        = s.setGLvl l (ys.foldl (fun u a => Function.update u (key a) (F a)) x) := by
    intro ys
    induction ys with
    | nil => intros; rfl
    | cons a ys ih =>
      intro hm x
      rw [List.foldl_cons, List.foldl_cons, hf x a (hm a (by simp)), PState.setGLvl_setG]
      exact ih (fun b hb => hm b (by simp [hb])) _
  have := gen xs (fun _ h => h) (s.g l)
  rwa [PState.setGLvl_self] at this

theorem foldl_ite {α β : Type} (xs : List α) (p : α → Prop) [DecidablePred p] (f : β → α → β)
    (b : β) :
    xs.foldl (fun b x => if p x then f b x else b) b
      = (xs.filter (fun x => decide (p x))).foldl f b := by
  induction xs generalizing b with
  | nil => rfl
  | cons a xs ih =>
    by_cases h : p a
    · simp [h, ih]
    · simp [h, ih]

theorem sweep_congr {idx : List Nat} {f f' : (Nat → V) → Nat → V} (u : Nat → V)
    (h : ∀ u, ∀ j ∈ idx, f u j = f' u j) : sweep idx f u = sweep idx f' u := by
  induction idx generalizing u with
  | nil => rfl
  | cons a idx ih =>
    rw [sweep_cons, sweep_cons, h u a (by simp)]
    exact ih _ fun u j hj => h u j (by simp [hj])

namespace Cfg
variable {E : Cfg V K T N}

/-! ### Time integration at own points -/

theorem Good.cc (h : E.Good) {r l i : Nat} (hr : r < E.P) (hl : l + 1 < E.ts.length) (h0 : i ≠ 0) (hi : i < npts E.ts l)
    (hlo : i = lo E.ts E.P l r) (hC' : i - 1 ∈ allC E.ts l) (hC : i ∈ allC E.ts l) (x y : V) :
    E.sys.Φ l i x = E.sys.Φ l i y := by
  subst hlo
  exact h.noCC r l hr hl (by omega) hi ⟨hC', hC⟩ x y

theorem stepAt_eq (h : E.Good) {r l i : Nat} (hr : r < E.P) (hl : l < E.ts.length)
    (h1 : lo E.ts E.P l r ≤ i) (h2 : i < lo E.ts E.P l (r + 1)) (h0 : i ≠ 0) (u : Nat → V) :
    E.stepAt r l (i - off E.ts E.P l r) u = E.sys.Φ l i (u (i - 1 - off E.ts E.P l r)) := by
  have hs := h.spec hr hl
  have ho := h.off_add hl (Nat.le_of_lt hr)
  have hj : off E.ts E.P l r + 1 ≤ i := by
    unfold gh at ho
    split at ho
    · rename_i hr0
      subst hr0
      rw [h.lo_zero hl] at ho
      omega
    · omega
  have hp : pyPrev (E.len r l) (i - off E.ts E.P l r) = i - 1 - off E.ts E.P l r := by
    unfold pyPrev
    rw [if_neg (by omega)]; omega
  unfold stepAt
  rw [hp, hs.t_at (by omega) (i - 1) (by omega) (by omega), hs.t_at (by omega) i (by omega) h2]
  rfl

section ops
variable [Add V]

theorem propAt_eq (h : E.Good) {r l i : Nat} (hr : r < E.P) (hl : l < E.ts.length)
    (h1 : lo E.ts E.P l r ≤ i) (h2 : i < lo E.ts E.P l (r + 1)) (h0 : i ≠ 0)
    {G : GState V} {s : PState V N} (hg : s.g l (i - off E.ts E.P l r) = G.g l i) :
    E.propAt r l (i - off E.ts E.P l r) s
      = E.sys.prop G.g l i (s.u l (i - 1 - off E.ts E.P l r)) := by
  unfold propAt Sys.prop
  rw [stepAt_eq h hr hl h1 h2 h0, hg]

/-! ### F-relaxation -/

/-- State of the loop over the F-points. -/
def fSt (E : Cfg V K T N) (r l : Nat) (s : PState V N) (x : Nat → V) (rc sd : Bool) : PState V N :=
  { s with
    u := Function.update s.u l x
    tagS := if (E.info r l).commBack && sd then upd2 s.tagS l 1 (s.tagS l 1 + 1) else s.tagS
    tagR := if (E.info r l).commFront && rc then upd2 s.tagR l 1 (s.tagR l 1 + 1) else s.tagR }

theorem mem_min (xs : List Nat) {m : Nat} (hm : xs.min? = some m) : m ∈ xs ∧ ∀ x ∈ xs, m ≤ x :=
  (List.min?_eq_some_iff (xs := xs)).1 hm

theorem mem_max (xs : List Nat) {m : Nat} (hm : xs.max? = some m) : m ∈ xs ∧ ∀ x ∈ xs, x ≤ m :=
  (List.max?_eq_some_iff (xs := xs)).1 hm

theorem lvlOf_ne {l op : Nat} (h : op ≠ 4) : lvlOf l op = l := if_neg h

/-- Has the smallest / largest element been processed? -/
def hit (o : Option Nat) (dn : List Nat) : Bool :=
  match o with
  | some m => decide (m ∈ dn)
  | none => true

/-- Result of relaxation on the own points. -/
def FInv (E : Cfg V K T N) (G G' : GState V) (r l : Nat) (dn : List Nat) (x : Nat → V) : Prop :=
  (∀ i, lo E.ts E.P l r ≤ i → i < lo E.ts E.P l (r + 1) → i ∈ allC E.ts l →
    x (i - off E.ts E.P l r) = G.u l i) ∧
  (∀ i, lo E.ts E.P l r ≤ i → i < lo E.ts E.P l (r + 1) → i - off E.ts E.P l r ∈ dn →
    i ∉ allC E.ts l → x (i - off E.ts E.P l r) = G'.u l i) ∧
  ((E.info r l).firstF = true → x 0 = G.u l (lo E.ts E.P l r - 1))

theorem fBody_run (h : E.Good) {l r : Nat} (hl : l + 1 < E.ts.length) (hr : r < E.P)
    {G : GState V} {s : Nat → PState V N} (hR : E.Rep G s) (dn : List Nat) (j : Nat)
    (rest : List Nat) (hsplit : (E.info r l).idxF = dn ++ j :: rest) (x : Nat → V)
    (hx : FInv E G (E.sys.fRelax l G) r l dn x) :
    ∃ x', FInv E G (E.sys.fRelax l G) r l (dn ++ [j]) x' ∧
      ∀ (β : Type) (k : PState V N → Prog (Msg V N) β),
      LRun E.P r
        ((E.fBody r l (fSt E r l (s r) x (hit (E.info r l).idxF.min? dn)
            (hit (E.info r l).idxF.max? dn)) j).bind k,
          phasePendI E s l 1 (fun p => (E.sys.fRelax l G).u l (lo E.ts E.P l (p + 1) - 1)) r
            (hit (E.info r l).idxF.min? dn) (hit (E.info r l).idxF.max? dn))
        (k (fSt E r l (s r) x' (hit (E.info r l).idxF.min? (dn ++ [j]))
            (hit (E.info r l).idxF.max? (dn ++ [j]))),
          phasePendI E s l 1 (fun p => (E.sys.fRelax l G).u l (lo E.ts E.P l (p + 1) - 1)) r
            (hit (E.info r l).idxF.min? (dn ++ [j])) (hit (E.info r l).idxF.max? (dn ++ [j]))) := by
  have hl0 : l < E.ts.length := by omega
  have hs := h.spec hr hl0
  have hwf := E.sys_wf h.valid
  have ho := h.off_add hl0 (Nat.le_of_lt hr)
  have hLR := hR.loc r hr
  have hj : j ∈ (E.info r l).idxF := by rw [hsplit]; simp
  obtain ⟨i, hi1, hi2, hiC, hij⟩ := (hs.idxF_mem j).1 hj
  have hn : i < npts E.ts l := Nat.lt_of_lt_of_le hi2 (h.lo_le l (r + 1))
  have hi0 : i ≠ 0 := by
    rintro rfl
    exact hiC (hwf.zero_mem_C hl)
  have hcomp := hs.idxF_compat
  have hnd : j ∉ dn := by
    intro hm
    rw [hsplit] at hcomp
    have := (List.pairwise_append.1 hcomp).2.2 j hm j (by simp)
    exact this.1 rfl
  -- the minimum of the local F-points is `lo` exactly if the first point is an F-point
  obtain ⟨mn, hmn⟩ : ∃ m, (E.info r l).idxF.min? = some m := by
    rcases hm : (E.info r l).idxF.min? with _ | m
    · rw [List.min?_eq_none_iff] at hm
      rw [hm] at hj; cases hj
    · exact ⟨m, rfl⟩
  obtain ⟨mx, hmx⟩ : ∃ m, (E.info r l).idxF.max? = some m := by
    rcases hm : (E.info r l).idxF.max? with _ | m
    · rw [List.max?_eq_none_iff] at hm
      rw [hm] at hj; cases hj
    · exact ⟨m, rfl⟩
  obtain ⟨hmn1, hmn2⟩ := mem_min _ hmn
  obtain ⟨hmx1, hmx2⟩ := mem_max _ hmx
  set G' := E.sys.fRelax l G with hG'
  set X : Nat → V := fun p => G'.u l (lo E.ts E.P l (p + 1) - 1) with hX
  have hC' : ∀ i, i ∈ allC E.ts l → G'.u l i = G.u l i := fun i hi => hwf.fRelax_C hl G hi
  have hF' : ∀ i, i < npts E.ts l → i ∉ allC E.ts l →
      G'.u l i = E.sys.prop G.g l i (G'.u l (i - 1)) := fun i h1 h2 => hwf.fRelax_F hl G h1 h2
  -- receive
  have hrecv : ∃ x1, FInv E G G' r l dn x1 ∧
      (i = lo E.ts E.P l r → x1 0 = G'.u l (i - 1)) ∧
      ∀ (β : Type) (k : PState V N → Prog (Msg V N) β), LRun E.P r
        ((if (E.info r l).commFront && decide ((E.info r l).idxF.min? = some j) &&
            !(fSt E r l (s r) x (hit (E.info r l).idxF.min? dn)
              (hit (E.info r l).idxF.max? dn)).sf l 1 then
          E.recvU (E.info r l).getFrom l 1 l (fSt E r l (s r) x (hit (E.info r l).idxF.min? dn)
              (hit (E.info r l).idxF.max? dn))
          else .ret (fSt E r l (s r) x (hit (E.info r l).idxF.min? dn)
              (hit (E.info r l).idxF.max? dn))).bind k,
          phasePendI E s l 1 X r (hit (E.info r l).idxF.min? dn) (hit (E.info r l).idxF.max? dn))
        (k (fSt E r l (s r) x1 (hit (E.info r l).idxF.min? (dn ++ [j]))
              (hit (E.info r l).idxF.max? dn)),
          phasePendI E s l 1 X r (hit (E.info r l).idxF.min? (dn ++ [j]))
            (hit (E.info r l).idxF.max? dn)) := by
    have hsf : (fSt E r l (s r) x (hit (E.info r l).idxF.min? dn)
              (hit (E.info r l).idxF.max? dn)).sf l 1 = false := hLR.sf l 1
    by_cases hcond : (E.info r l).commFront = true ∧ mn = j
    · obtain ⟨hcf, rfl⟩ := hcond
      obtain ⟨c1, c2, c3, c4⟩ := hs.commFront.1 hcf
      have hmin : mn = lo E.ts E.P l r - off E.ts E.P l r := by
        have : lo E.ts E.P l r - off E.ts E.P l r ∈ (E.info r l).idxF :=
          (hs.idxF_mem _).2 ⟨_, Nat.le_refl _, c1, c3, rfl⟩
        have := hmn2 _ this
        omega
      have hilo : i = lo E.ts E.P l r := by omega
      obtain ⟨p, hp⟩ := h.recvFlag_some (l := l) (op := 1) (r := r) (by rw [lvlOf_ne (by decide)]; exact hl0)
        hr hcf
      have hadj := h.prv_adj (by rw [lvlOf_ne (by decide)]; exact hl0) hr hp
      have hr0 : r ≠ 0 := by have := hadj.1; omega
      have hXp : X p = G'.u l (lo E.ts E.P l r - 1) := by
        have := hadj.2.2.2.2
        rw [lvlOf_ne (by decide)] at this
        simp only [hX, this]
      refine ⟨Function.update x 0 (X p), ⟨?_, ?_, ?_⟩, ?_, ?_⟩
      · intro i' a1 a2 a3
        rw [Function.update_of_ne (h.own_ne hl0 (Nat.le_of_lt hr) hr0 a1)]
        exact hx.1 i' a1 a2 a3
      · intro i' a1 a2 a3 a4
        rw [Function.update_of_ne (h.own_ne hl0 (Nat.le_of_lt hr) hr0 a1)]
        exact hx.2.1 i' a1 a2 a3 a4
      · intro hff
        exact absurd (hs.firstF.1 hff).2.2.2 c4
      · intro _
        rw [Function.update_self, hXp, hilo]
      · intro β k
        have e1 : hit (E.info r l).idxF.min? dn = false := by
          rw [hmn]; simp [hit, hnd]
        have e2 : hit (E.info r l).idxF.min? (dn ++ [mn]) = true := by
          rw [hmn]; simp [hit]
        rw [hsf, if_pos (by simp [hcf, hmn]), e1, e2]
        have := phase_recv (β := β) (lu := l) h (l := l) (op := 1) (by rw [lvlOf_ne (by decide)]; exact hl0) hr
          hR.tags X (st := fSt E r l (s r) x false (hit (E.info r l).idxF.max? dn))
          (by simp [fSt]) hp (hit (E.info r l).idxF.max? dn) k
        rw [lvlOf_ne (by decide)] at this
        convert this using 3
        simp [fSt, rcvdS, PState.setU, upd2, hcf]
    · refine ⟨x, hx, ?_, ?_⟩
      · intro hilo
        by_cases hm1 : lo E.ts E.P l r - 1 ∈ allC E.ts l
        · have hff : (E.info r l).firstF = true :=
            hs.firstF.2 ⟨by omega, by omega, hilo ▸ hiC, hm1⟩
          rw [hx.2.2 hff, hilo, hC' _ hm1]
        · exfalso
          apply hcond
          refine ⟨hs.commFront.2 ⟨by omega, by omega, hilo ▸ hiC, hm1⟩, ?_⟩
          obtain ⟨i', b1, b2, b3, b4⟩ := (hs.idxF_mem mn).1 hmn1
          have := hmn2 j hj
          omega
      · intro β k
        rw [if_neg (by
          rw [hmn]
          intro hc
          simp only [Bool.and_eq_true, decide_eq_true_eq, Option.some.injEq] at hc
          exact hcond hc.1)]
        by_cases hcf : (E.info r l).commFront = true
        · have hne : mn ≠ j := fun e => hcond ⟨hcf, e⟩
          have : hit (E.info r l).idxF.min? (dn ++ [j]) = hit (E.info r l).idxF.min? dn := by
            rw [hmn]; simp [hit, hne]
          rw [this]
          exact Relation.ReflTransGen.refl
        · have e : ∀ rc rc' sd, fSt E r l (s r) x rc sd = fSt E r l (s r) x rc' sd := by
            intro rc rc' sd
            simp [fSt, hcf]
          rw [Prog.ret_bind,
            e (hit (E.info r l).idxF.min? dn) (hit (E.info r l).idxF.min? (dn ++ [j])),
            phase_rc h (by rw [lvlOf_ne (by decide)]; exact hl0) hr s X (op := 1) hcf
              (hit (E.info r l).idxF.min? dn) (hit (E.info r l).idxF.min? (dn ++ [j]))]
  obtain ⟨x1, hx1, hxg, hrun⟩ := hrecv
  -- the new value
  have hval : ∀ rc sd, E.propAt r l j (fSt E r l (s r) x1 rc sd) = G'.u l i := by
    intro rc sd
    have e := propAt_eq (G := G) h hr hl0 hi1 hi2 hi0 (s := fSt E r l (s r) x1 rc sd)
      (hLR.g l i hl0 hi1 hi2)
    rw [hij, e, hF' i hn hiC]
    congr 1
    show Function.update (s r).u l x1 l _ = _
    rw [Function.update_self]
    by_cases hilo : i = lo E.ts E.P l r
    · have hz : i - 1 - off E.ts E.P l r = 0 := by
        unfold gh at ho
        split at ho
        · rename_i hr0
          subst hr0
          rw [h.lo_zero hl0] at hilo
          omega
        · omega
      rw [hz]; exact hxg hilo
    · by_cases hpC : i - 1 ∈ allC E.ts l
      · rw [hx1.1 (i - 1) (by omega) (by omega) hpC, hC' _ hpC]
      · refine hx1.2.1 (i - 1) (by omega) (by omega) ?_ hpC
        have hm : i - 1 - off E.ts E.P l r ∈ (E.info r l).idxF :=
          (hs.idxF_mem _).2 ⟨i - 1, by omega, by omega, hpC, rfl⟩
        rw [hsplit, List.mem_append, List.mem_cons] at hm
        rcases hm with hm | hm | hm
        · exact hm
        · omega
        · rw [hsplit] at hcomp
          have h2 := (List.pairwise_append.1 hcomp).2.1
          have := ((List.pairwise_cons.1 h2).1 _ hm).2
          omega
  refine ⟨Function.update x1 j (G'.u l i), ⟨?_, ?_, ?_⟩, ?_⟩
  · intro i' a1 a2 a3
    have hne : i' - off E.ts E.P l r ≠ j := by
      intro e
      have : i' = i := by omega
      exact hiC (this ▸ a3)
    rw [Function.update_of_ne hne]
    exact hx1.1 i' a1 a2 a3
  · intro i' a1 a2 a3 a4
    by_cases hne : i' - off E.ts E.P l r = j
    · have : i' = i := by omega
      rw [hne, Function.update_self, this]
    · rw [Function.update_of_ne hne]
      refine hx1.2.1 i' a1 a2 ?_ a4
      simpa [hne] using a3
  · intro hff
    have hne : (0 : Nat) ≠ j := by
      have hr0 : r ≠ 0 := by
        rintro rfl
        have := (hs.firstF.1 hff).2.1
        rw [h.lo_zero hl0] at this
        omega
      have := h.own_ne hl0 (Nat.le_of_lt hr) hr0 hi1
      omega
    rw [Function.update_of_ne hne]
    exact hx1.2.2 hff
  · intro β k
    unfold fBody
    simp only
    rw [Prog.bind_assoc]
    refine (hrun β _).trans ?_
    simp only [hval]
    have hset : ∀ rc sd, (fSt E r l (s r) x1 rc sd).setU l j (G'.u l i)
        = fSt E r l (s r) (Function.update x1 j (G'.u l i)) rc sd := by
      intro rc sd
      simp [fSt, PState.setU, upd2]
    rw [hset]
    by_cases hcb : (E.info r l).commBack = true
    · obtain ⟨c1, c2, c3, c4⟩ := hs.commBack.1 hcb
      have hlast : lo E.ts E.P l (r + 1) - 1 - off E.ts E.P l r ∈ (E.info r l).idxF :=
        (hs.idxF_mem _).2 ⟨_, by omega, by omega, c3, rfl⟩
      have hmxe : mx = lo E.ts E.P l (r + 1) - 1 - off E.ts E.P l r := by
        have h1 := hmx2 _ hlast
        obtain ⟨i', b1, b2, b3, b4⟩ := (hs.idxF_mem mx).1 hmx1
        omega
      by_cases hme : mx = j
      · have hie : i = lo E.ts E.P l (r + 1) - 1 := by omega
        have e1 : hit (E.info r l).idxF.max? dn = false := by
          rw [hmx]; simp [hit, hme, hnd]
        have e2 : hit (E.info r l).idxF.max? (dn ++ [j]) = true := by
          rw [hmx]; simp [hit, hme]
        rw [if_pos (by simp [hcb, hmx, hme]), e1, e2]
        obtain ⟨q, hq⟩ := h.sendFlag_some (l := l) (op := 1) (r := r)
          (by rw [lvlOf_ne (by decide)]; exact hl0) hr hcb
        have hval2 : (fSt E r l (s r) (Function.update x1 j (G'.u l i))
            (hit (E.info r l).idxF.min? (dn ++ [j])) false).u l j = X r := by
          simp [fSt, hX, hie]
        rw [hval2]
        have := phase_send (β := β) h (l := l) (op := 1) (by rw [lvlOf_ne (by decide)]; exact hl0) hr
          X (s := s) (st := fSt E r l (s r) (Function.update x1 j (G'.u l i))
            (hit (E.info r l).idxF.min? (dn ++ [j])) false)
          (by simp [fSt]) hq (hit (E.info r l).idxF.min? (dn ++ [j])) k
        rw [lvlOf_ne (by decide)] at this
        convert this using 3
        simp [fSt, sentS, hcb]
      · rw [if_neg (by simp [hmx, hme])]
        have : hit (E.info r l).idxF.max? (dn ++ [j]) = hit (E.info r l).idxF.max? dn := by
          rw [hmx]; simp [hit, hme]
        rw [this]
        exact Relation.ReflTransGen.refl
    · rw [if_neg (by simp [hcb])]
      have e : ∀ rc sd sd', fSt E r l (s r) (Function.update x1 j (G'.u l i)) rc sd
          = fSt E r l (s r) (Function.update x1 j (G'.u l i)) rc sd' := by
        intro rc sd sd'
        simp [fSt, hcb]
      rw [Prog.ret_bind,
        e _ (hit (E.info r l).idxF.max? dn) (hit (E.info r l).idxF.max? (dn ++ [j])),
        phase_sd s X (op := 1) hcb _ (hit (E.info r l).idxF.max? dn)
          (hit (E.info r l).idxF.max? (dn ++ [j]))]

theorem floop_run (h : E.Good) {l r : Nat} (hl : l + 1 < E.ts.length) (hr : r < E.P)
    {G : GState V} {s : Nat → PState V N} (hR : E.Rep G s) (rest dn : List Nat)
    (hsplit : (E.info r l).idxF = dn ++ rest) (x : Nat → V)
    (hx : FInv E G (E.sys.fRelax l G) r l dn x) :
    ∃ x', FInv E G (E.sys.fRelax l G) r l (E.info r l).idxF x' ∧
      ∀ (β : Type) (k : PState V N → Prog (Msg V N) β),
      LRun E.P r
        ((Prog.forIn' rest (E.fBody r l) (fSt E r l (s r) x (hit (E.info r l).idxF.min? dn)
            (hit (E.info r l).idxF.max? dn))).bind k,
          phasePendI E s l 1 (fun p => (E.sys.fRelax l G).u l (lo E.ts E.P l (p + 1) - 1)) r
            (hit (E.info r l).idxF.min? dn) (hit (E.info r l).idxF.max? dn))
        (k (fSt E r l (s r) x' true true),
          phasePendI E s l 1 (fun p => (E.sys.fRelax l G).u l (lo E.ts E.P l (p + 1) - 1)) r
            true true) := by
  induction rest generalizing dn x with
  | nil =>
    rw [List.append_nil] at hsplit
    refine ⟨x, by rw [hsplit]; exact hx, fun β k => ?_⟩
    have e1 : hit (E.info r l).idxF.min? dn = true := by
      rcases hm : (E.info r l).idxF.min? with _ | m
      · rfl
      · have := (mem_min _ hm).1
        rw [hsplit] at this
        simp [hit, this]
    have e2 : hit (E.info r l).idxF.max? dn = true := by
      rcases hm : (E.info r l).idxF.max? with _ | m
      · rfl
      · have := (mem_max _ hm).1
        rw [hsplit] at this
        simp [hit, this]
    rw [e1, e2]
    exact Relation.ReflTransGen.refl
  | cons j rest ih =>
    -- the witness does not depend on the continuation type: run the body with `β := PState`
    have key : ∃ x', FInv E G (E.sys.fRelax l G) r l (dn ++ [j]) x' ∧
      ∀ (β : Type) (k : PState V N → Prog (Msg V N) β),
      LRun E.P r
        ((E.fBody r l (fSt E r l (s r) x (hit (E.info r l).idxF.min? dn)
            (hit (E.info r l).idxF.max? dn)) j).bind k,
          phasePendI E s l 1 (fun p => (E.sys.fRelax l G).u l (lo E.ts E.P l (p + 1) - 1)) r
            (hit (E.info r l).idxF.min? dn) (hit (E.info r l).idxF.max? dn))
        (k (fSt E r l (s r) x' (hit (E.info r l).idxF.min? (dn ++ [j]))
            (hit (E.info r l).idxF.max? (dn ++ [j]))),
          phasePendI E s l 1 (fun p => (E.sys.fRelax l G).u l (lo E.ts E.P l (p + 1) - 1)) r
            (hit (E.info r l).idxF.min? (dn ++ [j])) (hit (E.info r l).idxF.max? (dn ++ [j]))) :=
      fBody_run h hl hr hR dn j rest hsplit x hx
    obtain ⟨x1, hx1, hrun1⟩ := key
    obtain ⟨x2, hx2, hrun2⟩ := ih (dn ++ [j]) (by rw [hsplit]; simp) x1 hx1
    refine ⟨x2, hx2, fun β k => ?_⟩
    rw [Prog.forIn'_cons, Prog.bind_assoc]
    exact (hrun1 β _).trans (hrun2 β k)

/-- Statement of correctness of one phase of the cycle: from a state representing `G` all processes
run `f` to completion, ending in a state representing `G'`, touching no bookkeeping fields. -/
def Phase (E : Cfg V K T N) (f : Nat → PState V N → Prog (Msg V N) (PState V N))
    (F : GState V → GState V) : Prop :=
  ∀ (G : GState V) (s : Nat → PState V N), E.Rep G s →
    ∃ s', E.Rep (F G) s' ∧ (∀ r, r < E.P → Same (s r) (s' r)) ∧ Runs E.P (fun r => f r (s r)) s'

omit [Add V] in
theorem Phase.comp {f g : Nat → PState V N → Prog (Msg V N) (PState V N)}
    {F F' : GState V → GState V} (h1 : Phase E f F) (h2 : Phase E g F') :
    Phase E (fun r s => (f r s).bind (g r)) (fun G => F' (F G)) := by
  intro G s hR
  obtain ⟨s1, hR1, hs1, hr1⟩ := h1 G s hR
  obtain ⟨s2, hR2, hs2, hr2⟩ := h2 (F G) s1 hR1
  exact ⟨s2, hR2, fun r hr => (hs1 r hr).trans (hs2 r hr), hr1.bind hr2⟩

omit [Add V] in
theorem Phase.id : Phase E (fun _ s => .ret s) (fun G => G) :=
  fun _ s hR => ⟨s, hR, fun _ _ => Same.refl _, Runs.ret s⟩

omit [Add V] in
theorem Phase.ite {f g : Nat → PState V N → Prog (Msg V N) (PState V N)}
    {F F' : GState V → GState V} {c : Prop} [Decidable c] (h1 : c → Phase E f F)
    (h2 : ¬ c → Phase E g F') :
    Phase E (fun r s => if c then f r s else g r s) (fun G => if c then F G else F' G) := by
  by_cases hc : c
  · simp only [hc, if_true]; exact h1 hc
  · simp only [hc, if_false]; exact h2 hc

/-- The last local index is the last own point. -/
theorem len_sub (h : E.Good) {r l : Nat} (hr : r < E.P) (hl : l < E.ts.length)
    (hne : lo E.ts E.P l r < lo E.ts E.P l (r + 1)) :
    E.len r l - 1 = lo E.ts E.P l (r + 1) - 1 - off E.ts E.P l r := by
  have hs := h.spec hr hl
  unfold len
  rw [hs.t_len, if_pos hne]
  omega

/-- Exchange of the last points of a level before relaxation, residual, … -/
theorem ex_last (h : E.Good) {l op : Nat} (hl : l < E.ts.length) (hop : op ≠ 4)
    {G : GState V} {s : Nat → PState V N} (hR : E.Rep G s)
    (hne : ∀ r, r < E.P → E.sendFlag l r op = true → lo E.ts E.P l r < lo E.ts E.P l (r + 1)) :
    ∃ s', E.Rep G s' ∧ (∀ r, r < E.P → Same (s r) (s' r)) ∧
      (∀ r l' j, r < E.P → (l' ≠ l ∨ j ≠ 0 ∨ E.recvFlag l r op = false) →
        (s' r).u l' j = (s r).u l' j) ∧
      (∀ r, r < E.P → (s' r).v = (s r).v ∧ (s' r).g = (s r).g) ∧
      (∀ r, r < E.P → E.recvFlag l r op = true → (s' r).u l 0 = G.u l (lo E.ts E.P l r - 1)) ∧
      Runs E.P (fun r => exP E l op l r ((s r).u l (E.len r l - 1)) (s r)) s' := by
  have hl' : lvlOf l op < E.ts.length := by rw [lvlOf_ne hop]; exact hl
  refine ⟨fun r => afterEx E l op l (fun p => (s p).u l (E.len p l - 1)) r (s r),
    afterEx_rep h hl' hR, fun r hr => afterEx_same, ?_,
    fun r hr => ⟨afterEx_rest.1, afterEx_rest.2.1⟩, ?_,
    exP_runs h hl' hR.tags (fun r hr => (hR.loc r hr).sf l op) _⟩
  · intro r l' j hr hc
    by_cases hf : E.recvFlag l r op = true
    · rcases hc with hc | hc | hc
      · rw [afterEx_u_lvl hc]
      · exact afterEx_u_pos hc
      · rw [hf] at hc; cases hc
    · rw [afterEx_u_none (recvFlag_false hf)]
  · intro r hr hf
    obtain ⟨p, hp⟩ := h.recvFlag_some hl' hr hf
    have hpP := (h.chain hl').down p r hr hp
    have hn := ((h.chain hl').iff p r hpP hr).2 hp
    have hadj := h.prv_adj hl' hr hp
    have hsf : E.sendFlag l p op = true := by
      by_contra hc
      rw [sendFlag_false hc] at hn; cases hn
    have hnep := hne p hpP hsf
    rw [afterEx_u_ghost hp, len_sub h hpP hl hnep]
    have he := hadj.2.2.2.2
    rw [lvlOf_ne hop] at he
    rw [(hR.loc p hpP).u l _ hl (by omega) (by omega), he]

theorem fRelax_phase (h : E.Good) {l : Nat} (hl : l + 1 < E.ts.length) :
    Phase E (fun r => E.fRelaxP r l) (E.sys.fRelax l) := by
  intro G s hR
  have hl0 : l < E.ts.length := by omega
  have hwf := E.sys_wf h.valid
  obtain ⟨s1, hR1, hS1, hu1, hvg1, hgh, hrun1⟩ := ex_last h (op := 0) hl0 (by decide) hR
    (fun r hr hf => ((h.spec hr hl0).lastC.1 hf).1)
  set X : Nat → V := fun p => (E.sys.fRelax l G).u l (lo E.ts E.P l (p + 1) - 1) with hX
  have hl1 : lvlOf l 1 < E.ts.length := by rw [lvlOf_ne (by decide)]; exact hl0
  have key := runs_of_local (P := E.P) (α := PState V N) ⟨s 0⟩
    (f := fun r => Prog.forIn' (E.info r l).idxF (E.fBody r l) (s1 r))
    (Post := fun r s' => E.LRep (E.sys.fRelax l G) r s' ∧ Same (s1 r) s' ∧ E.Bump l 1 r (s1 r) s')
    (phasePend E s1 l 1 X) pend_zero (pend_last (h.chain hl1)) (by
      intro r hr
      have hs := h.spec hr hl0
      have hx0 : FInv E G (E.sys.fRelax l G) r l [] ((s1 r).u l) := by
        refine ⟨fun i a b _ => (hR1.loc r hr).u l i hl0 a b, fun i a b c _ => by simp at c, ?_⟩
        intro hff
        exact hgh r hr hff
      obtain ⟨x', hx', hrun⟩ := floop_run h hl hr hR1 (E.info r l).idxF [] rfl _ hx0
      refine ⟨fSt E r l (s1 r) x' true true, ⟨?_, ⟨rfl, rfl, rfl, rfl, rfl, rfl, rfl, rfl⟩, ?_⟩, ?_⟩
      · constructor
        · intro l' i hl' a b
          by_cases he : l' = l
          · subst he
            show Function.update (s1 r).u l' x' l' _ = _
            rw [Function.update_self]
            by_cases hC : i ∈ allC E.ts l'
            · rw [hx'.1 i a b hC]
              exact (hwf.fRelax_C hl G hC).symm
            · exact hx'.2.1 i a b ((hs.idxF_mem _).2 ⟨i, a, b, hC, rfl⟩) hC
          · show Function.update (s1 r).u l x' l' _ = _
            rw [Function.update_of_ne he, (hR1.loc r hr).u l' i hl' a b, Sys.fRelax_u_ne G he]
        · exact (hR1.loc r hr).v
        · exact (hR1.loc r hr).g
        · exact (hR1.loc r hr).sf
      · constructor
        · simp [fSt, sendFlag]
        · simp [fSt, recvFlag]
      · intro β k
        have := hrun β k
        -- start: nothing processed yet
        have hst : ∀ rc sd : Bool, (rc = false ∨ (E.info r l).idxF = []) →
            (sd = false ∨ (E.info r l).idxF = []) →
            fSt E r l (s1 r) ((s1 r).u l) rc sd = s1 r ∧
            phasePendI E s1 l 1 X r rc sd = phasePend E s1 l 1 X r := by
          intro rc sd h1 h2
          have hcf : (E.info r l).idxF = [] → ¬ (E.info r l).commFront = true := by
            intro he hc
            have hc := hs.commFront.1 hc
            have : lo E.ts E.P l r - off E.ts E.P l r ∈ (E.info r l).idxF :=
              (hs.idxF_mem _).2 ⟨_, Nat.le_refl _, hc.1, hc.2.2.1, rfl⟩
            rw [he] at this; cases this
          have hcb : (E.info r l).idxF = [] → ¬ (E.info r l).commBack = true := by
            intro he hc
            have hc := hs.commBack.1 hc
            have : lo E.ts E.P l (r + 1) - 1 - off E.ts E.P l r ∈ (E.info r l).idxF :=
              (hs.idxF_mem _).2 ⟨_, by omega, by omega, hc.2.2.1, rfl⟩
            rw [he] at this; cases this
          have e1 : phasePendI E s1 l 1 X r rc sd = phasePendI E s1 l 1 X r false sd := by
            rcases h1 with h1 | h1
            · rw [h1]
            · exact phase_rc h hl1 hr s1 X (op := 1) (hcf h1) rc false sd
          have e2 : phasePendI E s1 l 1 X r false sd = phasePendI E s1 l 1 X r false false := by
            rcases h2 with h2 | h2
            · rw [h2]
            · exact phase_sd s1 X (op := 1) (hcb h2) false sd false
          refine ⟨?_, by rw [e1, e2]; exact pendI_start⟩
          have e3 : ((E.info r l).commFront && rc) = false := by
            rcases h1 with h1 | h1
            · simp [h1]
            · simp [hcf h1]
          have e4 : ((E.info r l).commBack && sd) = false := by
            rcases h2 with h2 | h2
            · simp [h2]
            · simp [hcb h2]
          unfold fSt
          rw [e3, e4]
          simp
        have hmn : hit (E.info r l).idxF.min? [] = false ∨ (E.info r l).idxF = [] := by
          rcases hm : (E.info r l).idxF.min? with _ | m
          · exact Or.inr (List.min?_eq_none_iff.1 hm)
          · left; simp [hit]
        have hmx : hit (E.info r l).idxF.max? [] = false ∨ (E.info r l).idxF = [] := by
          rcases hm : (E.info r l).idxF.max? with _ | m
          · exact Or.inr (List.max?_eq_none_iff.1 hm)
          · left; simp [hit]
        obtain ⟨e1, e2⟩ := hst _ _ hmn hmx
        rw [e1] at this
        have e3 : phasePendI E s1 l 1 X r true true = phasePend E s1 l 1 X (r + 1) := pendI_done
        rw [← e3, ← e2]
        exact this)
  obtain ⟨s2, hpost, hrun2⟩ := key
  refine ⟨s2, ⟨fun r hr => (hpost r hr).1, ?_⟩, fun r hr => (hS1 r hr).trans (hpost r hr).2.1, ?_⟩
  · exact hR1.tags.bump h hl1 fun r hr => (hpost r hr).2.2
  · have := hrun1.bind (g := fun r s => Prog.forIn' (E.info r l).idxF (E.fBody r l) s) hrun2
    refine this.congr (fun r hr => ?_) (fun _ _ => rfl)
    unfold fRelaxP exP
    rw [Prog.bind_assoc]
    rfl

/-! ### C-relaxation -/

theorem cRelax_phase [SMul K V] [One K] [Sub K] (h : E.Good) {l : Nat} (hl : l + 1 < E.ts.length) :
    Phase E (fun r => E.cRelaxP r l) (E.sys.cRelax l) := by
  intro G s hR
  have hl0 : l < E.ts.length := by omega
  have hwf := E.sys_wf h.valid
  obtain ⟨s1, hR1, hS1, hu1, hvg1, hgh, hrun1⟩ := ex_last h (op := 2) hl0 (by decide) hR
    (fun r hr hf => ((h.spec hr hl0).lastF.1 hf).1)
  have hloop : ∀ r, r < E.P → ∃ x : Nat → V, E.cLoop r l (s1 r) = (s1 r).setLvl l x ∧
      ∀ i, lo E.ts E.P l r ≤ i → i < lo E.ts E.P l (r + 1) →
        x (i - off E.ts E.P l r) = (E.sys.cRelax l G).u l i := by
    intro r hr
    have hs := h.spec hr hl0
    have ho := h.off_add hl0 (Nat.le_of_lt hr)
    set xs := (E.info r l).idxC.filter (fun j => decide (j ≠ 0 ∨ r ≠ 0)) with hxs
    have hmem : ∀ j, j ∈ xs ↔ ∃ i, lo E.ts E.P l r ≤ i ∧ i < lo E.ts E.P l (r + 1) ∧
        i ∈ allC E.ts l ∧ i ≠ 0 ∧ j = i - off E.ts E.P l r := by
      intro j
      rw [hxs, List.mem_filter, hs.idxC, hs.cpts, hs.pts]
      simp only [List.mem_map, List.mem_filter, List.mem_range'_1, decide_eq_true_eq]
      constructor
      · rintro ⟨⟨i, ⟨a, b⟩, rfl⟩, hd⟩
        refine ⟨i, by omega, by omega, b, ?_, rfl⟩
        rintro rfl
        rcases hd with hd | hd
        · simp at hd
        · have := h.lo_pos hl0 (Nat.le_of_lt hr) hd; omega
      · rintro ⟨i, a, b, c, d, rfl⟩
        refine ⟨⟨i, ⟨by omega, c⟩, rfl⟩, ?_⟩
        by_cases hr0 : r = 0
        · left
          subst hr0
          simp only [gh, if_true, h.lo_zero hl0] at ho
          omega
        · exact Or.inr hr0
    have hsorted : xs.Pairwise (· < ·) := by
      rw [hxs, hs.idxC, hs.cpts, hs.pts]
      apply List.Pairwise.filter
      rw [List.pairwise_map]
      refine (List.Pairwise.filter _ List.pairwise_lt_range').imp_of_mem ?_
      intro a b ha hb hab
      have := (List.mem_filter.1 ha).1
      rw [List.mem_range'_1] at this
      omega
    have hpos : ∀ j ∈ xs, 1 ≤ j := by
      intro j hj
      obtain ⟨i, a, b, c, d, rfl⟩ := (hmem j).1 hj
      unfold gh at ho
      split at ho
      · rename_i hr0
        subst hr0
        rw [h.lo_zero hl0] at ho
        omega
      · omega
    have e : E.cLoop r l (s1 r) = (s1 r).setLvl l
        (sweep xs (fun u j => E.w • E.propAt r l j ((s1 r).setLvl l u) + (1 - E.w) • u j)
          ((s1 r).u l)) := by
      unfold cLoop
      rw [foldl_ite]
      exact foldl_setU xs id l (fun s j => E.w • E.propAt r l j s + (1 - E.w) • s.u l j)
        (fun u j => E.w • E.propAt r l j ((s1 r).setLvl l u) + (1 - E.w) • u j) (s1 r)
        (fun x j _ => by simp)
    refine ⟨_, e, ?_⟩
    set hfun : Nat → V → V → V := fun j x y =>
      E.w • E.sys.prop G.g l (j + off E.ts E.P l r) x + (1 - E.w) • y with hhfun
    have e2 : sweep xs (fun u j => E.w • E.propAt r l j ((s1 r).setLvl l u) + (1 - E.w) • u j)
          ((s1 r).u l) = sweep xs (fun u j => hfun j (u (j - 1)) (u j)) ((s1 r).u l) := by
      refine sweep_congr _ ?_
      intro u j hj
      obtain ⟨i, a, b, c, d, rfl⟩ := (hmem j).1 hj
      have hp := hpos _ hj
      have := propAt_eq (G := G) h hr hl0 a b d (s := (s1 r).setLvl l u)
        ((hR1.loc r hr).g l i hl0 a b)
      rw [this, PState.setLvl_u, hhfun]
      have e3 : i - off E.ts E.P l r + off E.ts E.P l r = i := by omega
      have e4 : i - 1 - off E.ts E.P l r = i - off E.ts E.P l r - 1 := by omega
      simp only [e3, e4]
    rw [e2]
    intro i
    induction i using Nat.strong_induction_on with
    | _ i ih =>
      intro a b
      by_cases hC : i ∈ allC E.ts l
      · by_cases h0 : i = 0
        · subst h0
          rw [sweep_of_not_mem (by
            intro hm
            have := hpos _ hm
            omega), (hR1.loc r hr).u l 0 hl0 a b, Sys.cRelax_zero]
        · have hm : i - off E.ts E.P l r ∈ xs := (hmem _).2 ⟨i, a, b, hC, h0, rfl⟩
          have hp := hpos _ hm
          rw [Sys.sweep_relax hsorted hfun ((s1 r).u l) hpos _ hm, hwf.cRelax_C hl G hC h0,
            (hR1.loc r hr).u l i hl0 a b]
          simp only [hhfun]
          have e3 : i - off E.ts E.P l r + off E.ts E.P l r = i := by omega
          have e4 : i - off E.ts E.P l r - 1 = i - 1 - off E.ts E.P l r := by omega
          rw [e3, e4]
          show E.w • E.sys.prop G.g l i _ + _ = E.w • E.sys.prop G.g l i _ + _
          by_cases hcc : i = lo E.ts E.P l r ∧ i - 1 ∈ allC E.ts l
          · refine congrArg (fun z => E.w • z + _) ?_
            unfold Sys.prop
            rw [h.cc hr hl h0 (by have := h.lo_le l (r + 1); omega) hcc.1 hcc.2 hC]
          congr 3
          by_cases hlo : i = lo E.ts E.P l r
          · have hr0 : r ≠ 0 := by
              rintro rfl
              rw [h.lo_zero hl0] at hlo
              exact h0 hlo
            have hz : i - 1 - off E.ts E.P l r = 0 := by
              simp only [gh, hr0, if_false] at ho
              omega
            have hnC : i - 1 ∉ allC E.ts l := fun hc => hcc ⟨hlo, hc⟩
            rw [hz, sweep_of_not_mem (fun hm => by have := hpos _ hm; omega),
              hgh r hr ((hs.firstC).2 ⟨by omega, by omega, hlo ▸ hC, hlo ▸ hnC⟩), ← hlo,
              Sys.cRelax_not_C G hnC]
          · exact ih (i - 1) (by omega) (by omega) (by omega)
      · rw [sweep_of_not_mem (by
          intro hm
          obtain ⟨i', a', b', c', d', e'⟩ := (hmem _).1 hm
          have : i = i' := by omega
          exact hC (this ▸ c')), (hR1.loc r hr).u l i hl0 a b, Sys.cRelax_not_C G hC]
  refine ⟨fun r => E.cLoop r l (s1 r), ⟨?_, ?_⟩, ?_, ?_⟩
  · intro r hr
    obtain ⟨x, hx, hv⟩ := hloop r hr
    show E.LRep _ r (E.cLoop r l (s1 r))
    rw [hx]
    constructor
    · intro l' i hl' a b
      by_cases he : l' = l
      · subst he
        rw [PState.setLvl_u]; exact hv i a b
      · rw [PState.setLvl_u_ne _ _ he, (hR1.loc r hr).u l' i hl' a b, Sys.cRelax_u_ne G he]
    · exact (hR1.loc r hr).v
    · exact (hR1.loc r hr).g
    · exact (hR1.loc r hr).sf
  · intro l' op p q hl' hp hn
    have hq := ((h.chain hl').up p q hp hn).2
    obtain ⟨x, hx, _⟩ := hloop p hp
    obtain ⟨y, hy, _⟩ := hloop q hq
    show (E.cLoop p l (s1 p)).tagS l' op = (E.cLoop q l (s1 q)).tagR l' op
    rw [hx, hy]
    exact hR1.tags l' op p q hl' hp hn
  · intro r hr
    obtain ⟨x, hx, _⟩ := hloop r hr
    refine (hS1 r hr).trans ?_
    show Same (s1 r) (E.cLoop r l (s1 r))
    rw [hx]
    exact ⟨rfl, rfl, rfl, rfl, rfl, rfl, rfl, rfl⟩
  · have := hrun1.bind (g := fun r s => Prog.ret (E.cLoop r l s)) (Runs.ret _)
    refine this.congr (fun r hr => ?_) (fun _ _ => rfl)
    unfold cRelaxP exP
    rw [Prog.bind_assoc]
    rfl

/-! ### Coarsest level -/

/-- After the coarsest-level solve the ghost points are up to date. -/
def GhostOK (E : Cfg V K T N) (l : Nat) (G : GState V) (s : Nat → PState V N) : Prop :=
  ∀ r, r < E.P → r ≠ 0 → lo E.ts E.P l r < lo E.ts E.P l (r + 1) →
    (s r).u l 0 = G.u l (lo E.ts E.P l r - 1)

theorem forwardSolve_ghost (h : E.Good) {l : Nat} (hl0 : l < E.ts.length) (G : GState V)
    (s : Nat → PState V N) (hR : E.Rep G s) :
    ∃ s', E.Rep (E.sys.forwardSolve l G) s' ∧ (∀ r, r < E.P → Same (s r) (s' r)) ∧
      GhostOK E l (E.sys.forwardSolve l G) s' ∧
      Runs E.P (fun r => E.forwardSolveP r l (s r)) s' := by
  have hl5 : lvlOf l 5 < E.ts.length := by rw [lvlOf_ne (by decide)]; exact hl0
  set G' := E.sys.forwardSolve l G with hG'
  set X : Nat → V := fun p => G'.u l (lo E.ts E.P l (p + 1) - 1) with hX
  have hpos' : ∀ i, 1 ≤ i → i < npts E.ts l → G'.u l i = E.sys.prop G.g l i (G'.u l (i - 1)) :=
    fun i h1 h2 => Sys.forwardSolve_pos G h1 h2
  have key := runs_of_local (P := E.P) (α := PState V N) ⟨s 0⟩
    (f := fun r => E.forwardSolveP r l (s r))
    (Post := fun r s' => E.LRep G' r s' ∧ Same (s r) s' ∧ E.Bump l 5 r (s r) s' ∧
      (r ≠ 0 → lo E.ts E.P l r < lo E.ts E.P l (r + 1) → s'.u l 0 = G'.u l (lo E.ts E.P l r - 1)))
    (phasePend E s l 5 X) pend_zero (pend_last (h.chain hl5)) (by
      intro r hr
      have hs := h.spec hr hl0
      have hLR := hR.loc r hr
      have ho := h.off_add hl0 (Nat.le_of_lt hr)
      -- receive
      have hrecv : ∃ x1 : Nat → V, (∀ i, lo E.ts E.P l r ≤ i → i < lo E.ts E.P l (r + 1) →
            x1 (i - off E.ts E.P l r) = G.u l i) ∧
          (r ≠ 0 → lo E.ts E.P l r < lo E.ts E.P l (r + 1) →
            x1 0 = G'.u l (lo E.ts E.P l r - 1)) ∧
          ∀ (β : Type) (k : PState V N → Prog (Msg V N) β), LRun E.P r
            ((if (E.info r l).getFrom.isSome && !(s r).sf l 5 then
                E.recvU (E.info r l).getFrom l 5 l (s r) else .ret (s r)).bind k,
              phasePendI E s l 5 X r false false)
            (k ((if E.recvFlag l r 5 then rcvdS (s r) l 5 else s r).setLvl l x1),
              phasePendI E s l 5 X r true false) := by
        by_cases hf : E.recvFlag l r 5 = true
        · obtain ⟨p, hp⟩ := h.recvFlag_some hl5 hr hf
          have hadj := h.prv_adj hl5 hr hp
          have hr0 : r ≠ 0 := by have := hadj.1; omega
          have he := hadj.2.2.2.2
          rw [lvlOf_ne (by decide)] at he
          refine ⟨Function.update ((s r).u l) 0 (X p), ?_, ?_, ?_⟩
          · intro i a b
            rw [Function.update_of_ne (h.own_ne hl0 (Nat.le_of_lt hr) hr0 a)]
            exact hLR.u l i hl0 a b
          · intro _ _
            rw [Function.update_self]
            simp only [hX, he]
          · intro β k
            have hf' : (E.info r l).getFrom.isSome = true := hf
            rw [if_pos (by rw [hLR.sf l 5, hf']; rfl), if_pos hf]
            have := phase_recv (β := β) (lu := l) h hl5 hr hR.tags X (st := s r) rfl hp false k
            rw [lvlOf_ne (by decide)] at this
            exact this
        · refine ⟨(s r).u l, fun i a b => hLR.u l i hl0 a b, ?_, ?_⟩
          · intro hr0 hne
            exfalso
            obtain ⟨q, hq⟩ := h.adj_left hr hl0 hne (h.lo_pos hl0 (Nat.le_of_lt hr) hr0)
            apply hf
            show (E.info r l).getFrom.isSome = true
            rw [(hs.getFrom q).2 hq]; rfl
          · intro β k
            have hf' : ¬ (E.info r l).getFrom.isSome = true := hf
            rw [if_neg (by simp [hf']), if_neg hf, Prog.ret_bind, PState.setLvl_self,
              phase_rc h hl5 hr s X hf false true false]
      obtain ⟨x1, hx1, hg1, hrun⟩ := hrecv
      set s1 := (if E.recvFlag l r 5 then rcvdS (s r) l 5 else s r) with hs1
      have hs1g : s1.g = (s r).g := by rw [hs1]; split <;> rfl
      have hs1sf : s1.sf = (s r).sf := by rw [hs1]; split <;> rfl
      have hs1v : s1.v = (s r).v := by rw [hs1]; split <;> rfl
      have hs1u : s1.u = (s r).u := by rw [hs1]; split <;> rfl
      have hs1S : s1.tagS = (s r).tagS := by rw [hs1]; split <;> rfl
      set xs := List.range' 1 (E.len r l - 1) with hxs
      set h1 : Nat → V → V := fun j x => E.sys.prop G.g l (j + off E.ts E.P l r) x with hh1
      set x2 := sweep xs (fun u j => h1 j (u (j - 1))) x1 with hx2
      have hmem : ∀ j, j ∈ xs → ∃ i, lo E.ts E.P l r ≤ i ∧ i < lo E.ts E.P l (r + 1) ∧ i ≠ 0 ∧
          j = i - off E.ts E.P l r ∧ j + off E.ts E.P l r = i := by
        intro j hj
        rw [hxs, List.mem_range'_1] at hj
        unfold len at hj
        rw [hs.t_len] at hj
        split at hj
        · refine ⟨j + off E.ts E.P l r, ?_, by omega, by omega, by omega, rfl⟩
          unfold gh at ho
          split at ho <;> omega
        · omega
      have hfold : xs.foldl (fun s j => s.setU l j (E.propAt r l j s)) (s1.setLvl l x1)
          = s1.setLvl l x2 := by
        have := foldl_setU xs id l (fun s j => E.propAt r l j s) (fun u j => h1 j (u (j - 1)))
          (s1.setLvl l x1) (by
            intro x j hj
            obtain ⟨i, a, b, c, d, e⟩ := hmem j hj
            have hg : ((s1.setLvl l x1).setLvl l x).g l (i - off E.ts E.P l r) = G.g l i := by
              show s1.g l _ = _
              rw [hs1g]; exact hLR.g l i hl0 a b
            have := propAt_eq (G := G) h hr hl0 a b c hg
            rw [d]
            show E.propAt r l (i - off E.ts E.P l r) ((s1.setLvl l x1).setLvl l x) = _
            rw [this, PState.setLvl_u]
            simp only [hh1]
            have e3 : i - off E.ts E.P l r + off E.ts E.P l r = i := by omega
            have e4 : i - 1 - off E.ts E.P l r = i - off E.ts E.P l r - 1 := by omega
            rw [e3, e4])
        have e2 : (s1.setLvl l x1).setLvl l x2 = s1.setLvl l x2 := by
          simp [PState.setLvl]
        rw [← e2]
        have e3 : (s1.setLvl l x1).u l = x1 := PState.setLvl_u _ _ _
        rw [e3] at this
        exact this
      have hxpos : ∀ j ∈ xs, 1 ≤ j := by
        intro j hj
        rw [hxs, List.mem_range'_1] at hj
        exact hj.1
      have hval : ∀ i, lo E.ts E.P l r ≤ i → i < lo E.ts E.P l (r + 1) →
          x2 (i - off E.ts E.P l r) = G'.u l i := by
        intro i
        induction i using Nat.strong_induction_on with
        | _ i ih =>
          intro a b
          by_cases h0 : i = 0
          · subst h0
            rw [hx2, sweep_of_not_mem (fun hm => by have := hxpos _ hm; omega), hx1 0 a b]
            exact (Sys.forwardSolve_zero l G).symm
          · have hj : i - off E.ts E.P l r ∈ xs := by
              rw [hxs, List.mem_range'_1]
              unfold len
              rw [hs.t_len, if_pos (by omega)]
              unfold gh at ho
              split at ho
              · rename_i hr0
                subst hr0
                rw [h.lo_zero hl0] at ho
                omega
              · omega
            have hj1 := hxpos _ hj
            rw [hx2, sweep_post (Compat.of_sorted List.pairwise_lt_range') h1 x1 hxpos _ hj, ← hx2]
            simp only [hh1]
            have e3 : i - off E.ts E.P l r + off E.ts E.P l r = i := by omega
            have e4 : i - off E.ts E.P l r - 1 = i - 1 - off E.ts E.P l r := by omega
            rw [e3, e4, hpos' i (by omega) (by have := h.lo_le l (r + 1); omega)]
            congr 1
            by_cases hlo : i = lo E.ts E.P l r
            · have hr0 : r ≠ 0 := by
                rintro rfl
                rw [h.lo_zero hl0] at hlo
                exact h0 hlo
              have hz : i - 1 - off E.ts E.P l r = 0 := by
                simp only [gh, hr0, if_false] at ho
                omega
              rw [hz, hx2, sweep_of_not_mem (fun hm => by have := hxpos _ hm; omega),
                hg1 hr0 (by omega), hlo]
            · exact ih (i - 1) (by omega) (by omega) (by omega)
      refine ⟨if E.sendFlag l r 5 then sentS (s1.setLvl l x2) l 5 else s1.setLvl l x2,
        ⟨?_, ?_, ?_, ?_⟩, ?_⟩
      · have hu : (if E.sendFlag l r 5 then sentS (s1.setLvl l x2) l 5 else s1.setLvl l x2).u
            = Function.update (s r).u l x2 := by
          rw [← hs1u]; split <;> rfl
        constructor
        · intro l' i hl' a b
          rw [hu]
          by_cases he : l' = l
          · subst he
            rw [Function.update_self]; exact hval i a b
          · rw [Function.update_of_ne he, hLR.u l' i hl' a b]
            rw [hG', Sys.forwardSolve_u_ne G he]
        · have : (if E.sendFlag l r 5 then sentS (s1.setLvl l x2) l 5 else s1.setLvl l x2).v
              = (s r).v := by rw [← hs1v]; split <;> rfl
          rw [this]; exact hLR.v
        · have : (if E.sendFlag l r 5 then sentS (s1.setLvl l x2) l 5 else s1.setLvl l x2).g
              = (s r).g := by rw [← hs1g]; split <;> rfl
          rw [this]; exact hLR.g
        · have : (if E.sendFlag l r 5 then sentS (s1.setLvl l x2) l 5 else s1.setLvl l x2).sf
              = (s r).sf := by rw [← hs1sf]; split <;> rfl
          rw [this]; exact hLR.sf
      · rw [hs1]
        split <;> split <;> exact ⟨rfl, rfl, rfl, rfl, rfl, rfl, rfl, rfl⟩
      · constructor
        · rw [hs1]
          split <;> split <;> rfl
        · rw [hs1]
          split <;> split <;> rfl
      · intro hr0 hne
        have hu : (if E.sendFlag l r 5 then sentS (s1.setLvl l x2) l 5 else s1.setLvl l x2).u
            = Function.update s1.u l x2 := by split <;> rfl
        rw [hu, Function.update_self, hx2,
          sweep_of_not_mem (fun hm => by have := hxpos _ hm; omega), hg1 hr0 hne]
      · intro β k
        unfold forwardSolveP phasePend
        simp only
        rw [Prog.bind_assoc, ← pendI_start, ← pendI_done]
        refine (hrun β _).trans ?_
        rw [hfold]
        by_cases hf : E.sendFlag l r 5 = true
        · obtain ⟨q, hq⟩ := h.sendFlag_some hl5 hr hf
          have hadj := h.nxt_adj hl5 hr hq
          have hne := hadj.2.2.1
          rw [lvlOf_ne (by decide)] at hne
          have hf' : (E.info r l).sendTo.isSome = true := hf
          rw [if_pos hf', if_pos hf]
          have hlast : (E.info r l).idx.getLastD 0 = lo E.ts E.P l (r + 1) - 1 - off E.ts E.P l r := by
            rw [hs.idx, range'_getLastD (by omega)]
            omega
          have e : (s1.setLvl l x2).u l ((E.info r l).idx.getLastD 0) = X r := by
            rw [PState.setLvl_u, hlast, hval _ (by omega) (by omega)]
          rw [e]
          have := phase_send (β := β) h hl5 hr X (s := s) (st := s1.setLvl l x2)
            (by show s1.tagS l 5 = _; rw [hs1S]) hq true k
          rw [lvlOf_ne (by decide)] at this
          exact this
        · have hf' : ¬ (E.info r l).sendTo.isSome = true := hf
          rw [if_neg hf', if_neg hf, Prog.ret_bind]
          rw [phase_sd s X hf true false true])
  obtain ⟨s2, hpost, hrun2⟩ := key
  exact ⟨s2, ⟨fun r hr => (hpost r hr).1, hR.tags.bump h hl5 fun r hr => (hpost r hr).2.2.1⟩,
    fun r hr => (hpost r hr).2.1, fun r hr => (hpost r hr).2.2.2, hrun2⟩

theorem forwardSolve_phase (h : E.Good) {l : Nat} (hl0 : l < E.ts.length) :
    Phase E (fun r => E.forwardSolveP r l) (E.sys.forwardSolve l) := by
  intro G s hR
  obtain ⟨s', h1, h2, _, h3⟩ := forwardSolve_ghost h hl0 G s hR
  exact ⟨s', h1, h2, h3⟩

end ops
end Cfg
end Pymgrit
