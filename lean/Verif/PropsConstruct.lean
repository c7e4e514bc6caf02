import Verif.Construct
import Verif.PropsDist

/-!
# Properties C24 and C25: the constructor
-/

set_option linter.unusedSectionVars false

namespace Pymgrit

variable {T : Type} [LinearOrder T] [Inhabited T]

/-! ## Specification: the checks, in the documented order -/

/-- One check: the condition that has to hold and the exception raised otherwise. -/
structure Check where
  holds : Prop
  err : CtorError

/-- The requirements on the arguments of `Mgrit`, in the order in which they are checked. -/
def documented (a : Args T) : List Check :=
  let L := a.ts.length
  [⟨1 ≤ L ∧ a.transfers.getD (L - 1) = L - 1, .transfers⟩] ++
  (List.range (L - 1)).map (fun i => ⟨npts a.ts (i + 1) ≤ npts a.ts i, .morePoints (i + 1)⟩) ++
  [⟨a.cycle = "V" ∨ a.cycle = "F", .cycle⟩, ⟨a.outLvl ∈ [0, 1, 2], .outLvl⟩] ++
  (List.range (L - 1)).map (fun i =>
    ⟨(grid a.ts (i + 1)).Nodup ∧ ∀ x ∈ grid a.ts (i + 1), x ∈ grid a.ts i, .notNested (i + 1)⟩) ++
  [⟨a.tNorm ∈ [1, 2, 3], .norm⟩, ⟨a.convCrit ∈ [0, 1, 2, 3], .crit⟩,
   ⟨∀ ks, a.cfIter = .list ks → L - 1 ≤ ks.length, .cfShort⟩, ⟨a.cfIter ≠ .other, .cfType⟩,
   ⟨a.P ≤ npts a.ts 0, .processes⟩]

/-- The additional requirements enforced only by errors raised inside NumPy or by a list access: `max_iter ≥ -1`;
level by level, at least two C-points, and on process 0 a point of the level between the first and the last of the
points of the finest grid that the process holds (`firstPt n P 1` is their number). -/
def undocumented (a : Args T) : List Check :=
  ⟨-1 ≤ a.maxIter, .negativeDim⟩ ::
  (List.range a.ts.length).flatMap fun l =>
    [⟨l + 1 < a.ts.length → 2 ≤ (allC a.ts l).length, .indexError l⟩,
     ⟨l ≠ 0 → a.rank = 0 → ∃ x ∈ grid a.ts l, tAt (grid a.ts 0) 0 ≤ x ∧
        x ≤ tAt (grid a.ts 0) (firstPt (npts a.ts 0) a.P 1 - 1), .noPoint l⟩]

/-- `e` is the exception of the first check that does not hold. -/
def FirstFailing (cs : List Check) (e : CtorError) : Prop :=
  ∃ pre c post, cs = pre ++ c :: post ∧ c.err = e ∧ ¬ c.holds ∧ ∀ d ∈ pre, d.holds

/-- All checks hold. -/
def AllHold (cs : List Check) : Prop := ∀ c ∈ cs, c.holds

/-! ## Proof -/

/-- A program performs the checks `cs` in order: it raises the exception of the first failing one. -/
structure Performs {α : Type} (cs : List Check) (x : Except CtorError α) : Prop where
  err : ∀ e, x = .error e ↔ FirstFailing cs e
  ok : (∃ y, x = .ok y) ↔ AllHold cs

theorem firstFailing_append {cs ds : List Check} {e : CtorError} :
    FirstFailing (cs ++ ds) e ↔ FirstFailing cs e ∨ (AllHold cs ∧ FirstFailing ds e) := by
  constructor
  · rintro ⟨pre, c, post, heq, he, hc, hpre⟩
    rcases List.append_eq_append_iff.1 heq with ⟨as, h1, h2⟩ | ⟨bs, h1, h2⟩
    · right
      subst h1
      exact ⟨fun d hd => hpre d (List.mem_append_left _ hd), as, c, post, h2, he, hc,
        fun d hd => hpre d (List.mem_append_right _ hd)⟩
    · cases bs with
      | nil =>
        right
        simp only [List.append_nil, List.nil_append] at h1 h2
        subst h1
        exact ⟨hpre, [], c, post, h2.symm, he, hc, by simp⟩
      | cons b bs =>
        left
        simp only [List.cons_append, List.cons.injEq] at h2
        obtain ⟨rfl, rfl⟩ := h2
        exact ⟨pre, c, bs, h1, he, hc, hpre⟩
  · rintro (⟨pre, c, post, rfl, he, hc, hpre⟩ | ⟨hall, pre, c, post, rfl, he, hc, hpre⟩)
    · exact ⟨pre, c, post ++ ds, by simp, he, hc, hpre⟩
    · refine ⟨cs ++ pre, c, post, by simp, he, hc, ?_⟩
      intro d hd
      rcases List.mem_append.1 hd with h | h
      · exact hall d h
      · exact hpre d h

theorem allHold_append {cs ds : List Check} : AllHold (cs ++ ds) ↔ AllHold cs ∧ AllHold ds := by
  simp only [AllHold, List.mem_append]
  constructor
  · intro h; exact ⟨fun c hc => h c (Or.inl hc), fun c hc => h c (Or.inr hc)⟩
  · rintro ⟨h1, h2⟩ c (h | h)
    · exact h1 c h
    · exact h2 c h

theorem Performs.pure {α : Type} (y : α) : Performs [] (Except.ok y : Except CtorError α) := by
  constructor
  · intro e
    constructor
    · intro h; cases h
    · rintro ⟨pre, c, post, h, _⟩; simp at h
  · exact ⟨fun _ => fun _ h => by simp at h, fun _ => ⟨y, rfl⟩⟩

theorem Performs.bind {α β : Type} {cs ds : List Check} {x : Except CtorError α}
    {f : α → Except CtorError β} (hx : Performs cs x) (hf : ∀ y, x = .ok y → Performs ds (f y)) :
    Performs (cs ++ ds) (x >>= f) := by
  cases x with
  | error e0 =>
    have hff := (hx.err e0).1 rfl
    have hnot : ¬ AllHold cs := by
      intro h
      obtain ⟨y, hy⟩ := hx.ok.2 h
      cases hy
    constructor
    · intro e
      rw [firstFailing_append, ← hx.err]
      constructor
      · intro h
        have : e0 = e := by simpa [Bind.bind, Except.bind] using h
        exact Or.inl (by rw [this])
      · rintro (h | h)
        · have : e0 = e := by simpa using h
          simp [Bind.bind, Except.bind, this]
        · exact absurd h.1 hnot
    · rw [allHold_append]
      constructor
      · rintro ⟨y, hy⟩; simp [Bind.bind, Except.bind] at hy
      · intro h; exact absurd h.1 hnot
  | ok y =>
    have hall : AllHold cs := hx.ok.1 ⟨y, rfl⟩
    have hno : ∀ e, ¬ FirstFailing cs e := fun e h => by
      have := (hx.err e).2 h; cases this
    have hf' := hf y rfl
    constructor
    · intro e
      rw [firstFailing_append, ← hf'.err e]
      simp only [hno e, hall, false_or, true_and, Bind.bind, Except.bind]
    · rw [allHold_append, ← hf'.ok]
      simp only [hall, true_and, Bind.bind, Except.bind]

theorem performs_raiseIf {c : Prop} [Decidable c] {h : Prop} {e : CtorError} (hc : c ↔ ¬ h) :
    Performs [⟨h, e⟩] (raiseIf c e) := by
  unfold raiseIf
  constructor
  · intro e'
    split
    · next hcc =>
      constructor
      · intro he
        have : e = e' := by simpa using he
        exact ⟨[], ⟨h, e⟩, [], rfl, this, hc.1 hcc, by simp⟩
      · rintro ⟨pre, d, post, heq, he, _, _⟩
        cases pre with
        | nil => simp only [List.nil_append, List.cons.injEq] at heq; rw [← he, ← heq.1]
        | cons x xs => simp at heq
    · next hcc =>
      constructor
      · intro he; cases he
      · rintro ⟨pre, d, post, heq, he, hd, _⟩
        cases pre with
        | nil =>
          simp only [List.nil_append, List.cons.injEq] at heq
          rw [← heq.1] at hd
          exact absurd (hc.2 hd) hcc
        | cons x xs => simp at heq
  · split
    · next hcc =>
      constructor
      · rintro ⟨y, hy⟩; cases hy
      · intro hh; exact absurd (hh ⟨h, e⟩ (by simp)) (hc.1 hcc)
    · next hcc =>
      refine ⟨fun _ d hd => ?_, fun _ => ⟨(), rfl⟩⟩
      rw [List.mem_singleton.1 hd]
      by_contra hn
      exact hcc (hc.2 hn)

theorem performs_raiseFor {c : Nat → Prop} [DecidablePred c] {h : Nat → Prop} {e : Nat → CtorError}
    (a n : Nat) (hc : ∀ i, i < n → (c (a + i) ↔ ¬ h (a + i))) :
    Performs ((List.range n).map fun i => ⟨h (a + i), e (a + i)⟩) (raiseFor c e a n) := by
  induction n generalizing a with
  | zero => exact Performs.pure ()
  | succ n ih =>
    have hstep : raiseFor c e a (n + 1) = raiseIf (c a) (e a) >>= fun _ => raiseFor c e (a + 1) n := by
      simp only [raiseFor, raiseIf]
      split <;> rfl
    rw [hstep, List.range_succ_eq_map, List.map_cons, List.map_map]
    have h0 := hc 0 (by omega)
    refine Performs.bind (cs := [_]) (performs_raiseIf h0) fun _ _ => ?_
    have := ih (a + 1) fun i hi => by
      have := hc (i + 1) (by omega)
      rwa [show a + (i + 1) = a + 1 + i by omega] at this
    convert this using 2
    funext i
    simp only [Function.comp_apply]
    rw [show a + Nat.succ i = a + 1 + i by omega]

theorem performs_forLevels {body : Nat → Except CtorError Unit} {cs : Nat → List Check}
    (a n : Nat) (hc : ∀ i, i < n → Performs (cs (a + i)) (body (a + i))) :
    Performs ((List.range n).flatMap fun i => cs (a + i)) (forLevels body a n) := by
  induction n generalizing a with
  | zero => exact Performs.pure ()
  | succ n ih =>
    rw [List.range_succ_eq_map, List.flatMap_cons, List.flatMap_map]
    have h0 := hc 0 (by omega)
    refine Performs.bind h0 fun _ _ => ?_
    have := ih (a + 1) fun i hi => by
      have := hc (i + 1) (by omega)
      rwa [show a + (i + 1) = a + 1 + i by omega] at this
    convert this using 3 with i
    rw [show a + Nat.succ i = a + 1 + i by omega]

/-- The points of process 0. -/
theorem localPts_first {ts : List (List T)} {P : Nat} (hP : 0 < P) (hPn : P ≤ npts ts 0) (l : Nat) :
    localPts ts P 0 l = if l = 0 then List.range (firstPt (npts ts 0) P 1) else
      (List.range (npts ts l)).filter fun i => decide (tAt (grid ts 0) 0 ≤ tAt (grid ts l) i) &&
        decide (tAt (grid ts l) i ≤ tAt (grid ts 0) (firstPt (npts ts 0) P 1 - 1)) := by
  have hsp : splitPoints (grid ts 0).length P 0 = (firstPt (npts ts 0) P 1, 0) := by
    rw [splitPoints_eq (by exact hPn) hP, firstPt_zero]
    rfl
  have hle : firstPt (npts ts 0) P 1 ≤ npts ts 0 := by
    have := firstPt_mono hPn (show 1 ≤ P by omega) (Nat.le_refl P)
    rwa [firstPt_last hP] at this
  have hlt : 0 < firstPt (npts ts 0) P 1 := by
    have := firstPt_lt hPn hP
    rwa [firstPt_zero] at this
  have hp0 : ((List.range (grid ts 0).length).drop 0).take (firstPt (npts ts 0) P 1) =
      List.range (firstPt (npts ts 0) P 1) := by
    rw [List.drop_zero, List.take_range]
    congr 1
    exact Nat.min_eq_left hle
  obtain ⟨k, hk⟩ : ∃ k, firstPt (npts ts 0) P 1 = k + 1 := ⟨firstPt (npts ts 0) P 1 - 1, by omega⟩
  unfold localPts
  simp only [hsp, hp0]
  rw [hk]
  have e1 : (List.range (k + 1)).headD 0 = 0 := by rw [List.range_succ_eq_map]; rfl
  have e2 : (List.range (k + 1)).getLastD 0 = k := by rw [List.range_succ]; simp
  rw [e1, e2]
  rfl

theorem localPts_first_eq_nil {ts : List (List T)} {P : Nat} (hP : 0 < P) (hPn : P ≤ npts ts 0) (l : Nat) :
    localPts ts P 0 l = [] ↔ l ≠ 0 ∧ ¬ ∃ x ∈ grid ts l, tAt (grid ts 0) 0 ≤ x ∧
      x ≤ tAt (grid ts 0) (firstPt (npts ts 0) P 1 - 1) := by
  rw [localPts_first hP hPn]
  have hlt : 0 < firstPt (npts ts 0) P 1 := by
    have := firstPt_lt hPn hP
    rwa [firstPt_zero] at this
  split
  · next h =>
    simp only [List.range_eq_nil]
    constructor
    · intro h'; omega
    · intro h'; exact absurd h h'.1
  · next h =>
    simp only [List.filter_eq_nil_iff, List.mem_range, Bool.and_eq_true, decide_eq_true_eq]
    constructor
    · rintro hn
      refine ⟨h, ?_⟩
      rintro ⟨x, hx, h1, h2⟩
      obtain ⟨i, hi, rfl⟩ := mem_iff_tAt.1 hx
      exact hn i hi ⟨h1, h2⟩
    · rintro ⟨_, hn⟩ i hi ⟨h1, h2⟩
      exact hn ⟨_, tAt_mem hi, h1, h2⟩

theorem performs_levelChecks (a : Args T) (hP : 0 < a.P) (hPn : a.P ≤ npts a.ts 0) (l : Nat) :
    Performs [⟨l + 1 < a.ts.length → 2 ≤ (allC a.ts l).length, .indexError l⟩,
     ⟨l ≠ 0 → a.rank = 0 → ∃ x ∈ grid a.ts l, tAt (grid a.ts 0) 0 ≤ x ∧
        x ≤ tAt (grid a.ts 0) (firstPt (npts a.ts 0) a.P 1 - 1), .noPoint l⟩] (levelChecks a l) := by
  refine Performs.bind (cs := [_]) (ds := [_]) (performs_raiseIf ?_) fun _ _ => performs_raiseIf ?_
  · constructor
    · intro h h'; have := h' h.1; omega
    · intro h
      by_contra hcon
      exact h fun h1 => by by_contra h2; exact hcon ⟨h1, by omega⟩
  · by_cases hr : a.rank = 0
    · rw [hr, localPts_first_eq_nil hP hPn]
      generalize (∃ x ∈ grid a.ts l, tAt (grid a.ts 0) 0 ≤ x ∧
        x ≤ tAt (grid a.ts 0) (firstPt (npts a.ts 0) a.P 1 - 1)) = q
      tauto
    · simp [hr]

theorem interSize_eq {a b : List T} : interSize a b = b.length ↔ b.Nodup ∧ ∀ x ∈ b, x ∈ a := by
  unfold interSize
  constructor
  · intro h
    have h1 : (b.dedup.filter fun x => decide (x ∈ a)).length ≤ b.dedup.length :=
      List.length_filter_le _ _
    have h2 : b.dedup.length ≤ b.length := (List.dedup_sublist b).length_le
    have h3 : b.dedup = b := (List.dedup_sublist b).eq_of_length (by omega)
    have h4 : b.dedup.filter (fun x => decide (x ∈ a)) = b.dedup :=
      List.filter_sublist.eq_of_length (by omega)
    refine ⟨by rw [← h3]; exact List.nodup_dedup b, ?_⟩
    intro x hx
    rw [← h3, ← h4] at hx
    simpa using (List.mem_filter.1 hx).2
  · rintro ⟨h1, h2⟩
    rw [h1.dedup, List.filter_eq_self.2 (by simpa using h2)]

theorem FirstFailing.not_allHold {cs : List Check} {e : CtorError} (h : FirstFailing cs e) :
    ¬ AllHold cs := by
  obtain ⟨pre, c, post, rfl, _, hc, _⟩ := h
  intro hall
  exact hc (hall c (by simp))

theorem FirstFailing.unique {cs : List Check} {e e' : CtorError} (h : FirstFailing cs e)
    (h' : FirstFailing cs e') : e = e' := by
  induction cs with
  | nil => obtain ⟨pre, c, post, h, _⟩ := h; simp at h
  | cons d cs ih =>
    have hd := @firstFailing_append [d] cs e
    have hd' := @firstFailing_append [d] cs e'
    have key : ∀ e, FirstFailing [d] e → e = d.err ∧ ¬ d.holds := by
      rintro e ⟨pre, c, post, heq, he, hc, _⟩
      cases pre with
      | nil =>
        simp only [List.nil_append, List.cons.injEq] at heq
        obtain ⟨rfl, _⟩ := heq
        exact ⟨he.symm, hc⟩
      | cons x xs => simp at heq
    rcases hd.1 h with h1 | ⟨h1, h2⟩ <;> rcases hd'.1 h' with h3 | ⟨h3, h4⟩
    · rw [(key _ h1).1, (key _ h3).1]
    · exact absurd (h3 d (by simp)) (key _ h1).2
    · exact absurd (h1 d (by simp)) (key _ h3).2
    · exact ih h2 h4

theorem Performs.of_ok {α : Type} {cs : List Check} (h : AllHold cs) (y : α) :
    Performs cs (Except.ok y : Except CtorError α) :=
  ⟨fun _ => ⟨fun h => (nomatch h), fun hf => absurd h hf.not_allHold⟩, ⟨fun _ => h, fun _ => ⟨y, rfl⟩⟩⟩

theorem Performs.of_err {α : Type} {cs : List Check} {e : CtorError} (h : FirstFailing cs e) :
    Performs cs (Except.error e : Except CtorError α) := by
  refine ⟨fun e' => ⟨fun he => ?_, fun hf => ?_⟩, ⟨fun ⟨y, hy⟩ => (nomatch hy),
    fun hall => absurd hall h.not_allHold⟩⟩
  · have : e = e' := by simpa using he
    rw [← this]; exact h
  · rw [h.unique hf]

theorem performs_normCf (L : Nat) (c : CfArg) :
    Performs [⟨∀ ks, c = .list ks → L - 1 ≤ ks.length, .cfShort⟩, ⟨c ≠ .other, .cfType⟩]
      (normCf L c) := by
  cases c with
  | int k => exact Performs.of_ok (by intro c hc; simp at hc; rcases hc with rfl | rfl <;> simp) _
  | list ks =>
    simp only [normCf]
    split
    · next h =>
      refine Performs.of_err ⟨[], _, _, rfl, rfl, ?_, by simp⟩
      intro hh
      have := hh ks rfl
      omega
    · next h =>
      refine Performs.of_ok ?_ _
      intro c hc
      simp only [List.mem_cons, List.not_mem_nil, or_false] at hc
      rcases hc with rfl | rfl
      · intro ks' hks
        have : ks = ks' := by simpa using hks
        subst this
        omega
      · simp
  | other =>
    refine Performs.of_err ⟨[_], _, [], rfl, rfl, by simp, ?_⟩
    intro d hd
    rw [List.mem_singleton.1 hd]
    intro ks hks
    cases hks

/-- The parameters that an accepted call ends up with. -/
def finalParams (a : Args T) (cf : List Int) : Params :=
  { cf := cf
    tNorm := a.tNorm.toNat
    convCrit := a.convCrit.toNat
    cyc := if a.cycle = "F" then .F else .V
    outLvl := a.outLvl.toNat
    convLen := a.maxIter.toNat }

theorem construct_performs (a : Args T) (hP : 0 < a.P) :
    Performs (documented a ++ undocumented a) (construct a) := by
  have h1 : Performs [⟨1 ≤ a.ts.length ∧ a.transfers.getD (a.ts.length - 1) = a.ts.length - 1,
      CtorError.transfers⟩]
      (raiseIf (a.ts.length ≠ a.transfers.getD (a.ts.length - 1) + 1) .transfers) :=
    performs_raiseIf (by omega)
  have h2 := performs_raiseFor (c := fun i => npts a.ts i < npts a.ts (i + 1))
    (h := fun i => npts a.ts (i + 1) ≤ npts a.ts i) (e := fun i => .morePoints (i + 1)) 0
    (a.ts.length - 1) (fun i _ => by omega)
  have h3 : Performs [⟨a.cycle = "V" ∨ a.cycle = "F", CtorError.cycle⟩]
      (raiseIf (a.cycle ≠ "V" ∧ a.cycle ≠ "F") .cycle) := performs_raiseIf (by tauto)
  have h4 : Performs [⟨a.outLvl ∈ [0, 1, 2], CtorError.outLvl⟩]
      (raiseIf (a.outLvl ≠ 0 ∧ a.outLvl ≠ 1 ∧ a.outLvl ≠ 2) .outLvl) :=
    performs_raiseIf (by simp)
  have h5 := performs_raiseFor
    (c := fun l => interSize (grid a.ts (l - 1)) (grid a.ts l) ≠ npts a.ts l)
    (h := fun l => (grid a.ts l).Nodup ∧ ∀ x ∈ grid a.ts l, x ∈ grid a.ts (l - 1))
    (e := .notNested) 1 (a.ts.length - 1) (fun i _ => by
      rw [ne_eq, npts, interSize_eq])
  have h6 : Performs [⟨a.tNorm ∈ [1, 2, 3], CtorError.norm⟩]
      (raiseIf (a.tNorm ≠ 1 ∧ a.tNorm ≠ 2 ∧ a.tNorm ≠ 3) .norm) := performs_raiseIf (by simp)
  have h7 : Performs [⟨a.convCrit ∈ [0, 1, 2, 3], CtorError.crit⟩]
      (raiseIf (a.convCrit ≠ 0 ∧ a.convCrit ≠ 1 ∧ a.convCrit ≠ 2 ∧ a.convCrit ≠ 3) .crit) :=
    performs_raiseIf (by simp)
  have h8 := performs_normCf a.ts.length a.cfIter
  have h9 : Performs [⟨a.P ≤ npts a.ts 0, CtorError.processes⟩]
      (raiseIf (npts a.ts 0 < a.P) .processes) := performs_raiseIf (by omega)
  have h10 : Performs [⟨-1 ≤ a.maxIter, CtorError.negativeDim⟩]
      (raiseIf (a.maxIter + 1 < 0) .negativeDim) := performs_raiseIf (by omega)
  have h11 : a.P ≤ npts a.ts 0 → _ := fun hPn => performs_forLevels (body := levelChecks a)
    (cs := fun l => [⟨l + 1 < a.ts.length → 2 ≤ (allC a.ts l).length, .indexError l⟩,
     ⟨l ≠ 0 → a.rank = 0 → ∃ x ∈ grid a.ts l, tAt (grid a.ts 0) 0 ≤ x ∧
        x ≤ tAt (grid a.ts 0) (firstPt (npts a.ts 0) a.P 1 - 1), .noPoint l⟩]) 0 a.ts.length
    fun i _ => performs_levelChecks a hP hPn (0 + i)
  have key := h1.bind fun _ _ => h2.bind fun _ _ => h3.bind fun _ _ => h4.bind fun _ _ =>
    h5.bind fun _ _ => h6.bind fun _ _ => h7.bind fun _ _ => h8.bind fun cf _ => h9.bind fun _ h9' =>
    h10.bind fun _ _ => (h11 (by
      by_contra hcon
      rw [raiseIf, if_pos (by omega)] at h9'
      cases h9')).bind fun _ _ => Performs.pure (finalParams a cf)
  convert key using 1
  · simp only [documented, undocumented, List.append_assoc, List.cons_append, List.nil_append,
      List.append_nil, Nat.zero_add, Nat.add_sub_cancel_left, Nat.add_comm 1]
    rfl
  · rfl

/-- C24, in full: the constructor raises exactly the exception of the first failing check, and
accepts exactly if all checks hold, on every process.  Three of the checks are not documented: they are errors raised
by NumPy calls and a list access inside the constructor. -/
theorem C24_constructor (a : Args T) (hP : 0 < a.P) :
    (∀ e, construct a = .error e ↔ FirstFailing (documented a ++ undocumented a) e) ∧
    ((∃ p, construct a = .ok p) ↔ AllHold (documented a ++ undocumented a)) :=
  ⟨(construct_performs a hP).err, (construct_performs a hP).ok⟩

/-- A documented check that fails is reported by the exception of the first failing one. -/
theorem C24_documented_error (a : Args T) (hP : 0 < a.P) (e : CtorError) (h : FirstFailing (documented a) e) :
    construct a = .error e :=
  ((construct_performs a hP).err e).2 (firstFailing_append.2 (Or.inl h))

/-- What is missing to the claim "raises only if a documented check fails": for at least two
C-points on every level, `max_iter ≥ -1`, an increasing finest grid and coarse grids that contain the initial time it
holds. -/
theorem C24_accepts_partial (a : Args T) (hP : 0 < a.P) (hm : -1 ≤ a.maxIter)
    (hc : ∀ l, l + 1 < a.ts.length → 2 ≤ (allC a.ts l).length) (hs : (grid a.ts 0).Pairwise (· < ·))
    (h0 : ∀ l, l < a.ts.length → tAt (grid a.ts 0) 0 ∈ grid a.ts l) :
    (∃ p, construct a = .ok p) ↔ AllHold (documented a) := by
  rw [(construct_performs a hP).ok, allHold_append]
  refine ⟨fun h => h.1, fun h => ⟨h, ?_⟩⟩
  have hPn : a.P ≤ npts a.ts 0 := h ⟨a.P ≤ npts a.ts 0, .processes⟩ (by simp [documented])
  intro c hc'
  rcases List.mem_cons.1 hc' with rfl | h'
  · exact hm
  · obtain ⟨l, hl, h'⟩ := List.mem_flatMap.1 h'
    have hl' := List.mem_range.1 hl
    simp only [List.mem_cons, List.not_mem_nil, or_false] at h'
    rcases h' with rfl | rfl
    · exact hc l
    · intro _ _
      refine ⟨_, h0 l hl', le_refl _, ?_⟩
      have hle : firstPt (npts a.ts 0) a.P 1 ≤ npts a.ts 0 := by
        have := firstPt_mono hPn (show 1 ≤ a.P by omega) (Nat.le_refl a.P)
        rwa [firstPt_last hP] at this
      rw [tAt_le_iff hs (show 0 < npts a.ts 0 by omega) (show firstPt (npts a.ts 0) a.P 1 - 1 < npts a.ts 0 by omega)]
      omega

/-- The claim is false without these hypotheses: a hierarchy whose coarse grid is the initial point
alone fulfils all documented requirements, but the constructor raises an `IndexError`. -/
theorem C24_one_point_grid : ∃ a : Args Nat, AllHold (documented a) ∧
    construct a = .error (.indexError 0) := by
  refine ⟨⟨[[0, 1, 2], [0]], none, "V", 1, 2, 0, .int 1, 100, 1, 0⟩, ?_, rfl⟩
  intro c hc
  simp [documented] at hc
  rcases hc with rfl | rfl | rfl | rfl | rfl | rfl | rfl | rfl | rfl | rfl <;> simp [grid, npts]

/-- Non-vacuity: an accepted call, and one rejected by the first failing check among several. -/
example : (∃ p, construct (⟨[[0, 1, 2, 3, 4], [0, 2, 4]], some 1, "F", 2, 3, 1, .list [2], 10, 3, 2⟩ :
    Args Nat) = .ok p) := ⟨_, rfl⟩

example : construct (⟨[[0, 1, 2, 3, 4], [0, 2, 5]], some 1, "W", 7, 3, 1, .other, 10, 9, 0⟩ : Args Nat)
    = .error .cycle := rfl

/-! ## Accepted arguments and the hypotheses of the other theorems -/

/-- Accepted arguments with increasing grids that share the initial time give a valid hierarchy, so
the theorems about `Valid` hierarchies apply. -/
theorem accepted_valid (a : Args T) (p : Params) (h : construct a = .ok p) (hP : 0 < a.P)
    (hs : ∀ l, (grid a.ts l).Pairwise (· < ·))
    (h0 : ∀ l, l < a.ts.length → (grid a.ts l).head? = (grid a.ts 0).head?) :
    Valid a.ts ∧ a.P ≤ npts a.ts 0 := by
  have hall := (construct_performs a hP).ok.1 ⟨p, h⟩
  have hd := (allHold_append.1 hall).1
  have hL : 1 ≤ a.ts.length := (hd ⟨1 ≤ a.ts.length ∧
    a.transfers.getD (a.ts.length - 1) = a.ts.length - 1, .transfers⟩ (by simp [documented])).1
  have hPn : a.P ≤ npts a.ts 0 := hd ⟨a.P ≤ npts a.ts 0, .processes⟩ (by simp [documented])
  refine ⟨⟨hL, ?_, hs, ?_, h0⟩, hPn⟩
  · intro h
    have : npts a.ts 0 = 0 := by simp [npts, h]
    omega
  · intro l hl
    have := hd ⟨(grid a.ts (l + 1)).Nodup ∧ ∀ x ∈ grid a.ts (l + 1), x ∈ grid a.ts l,
      .notNested (l + 1)⟩ (by
        simp only [documented, List.mem_append, List.mem_map, List.mem_range]
        exact Or.inl (Or.inr ⟨l, by omega, rfl⟩))
    exact this.2

/-! ## C25 -/

theorem except_bind_ok {α β : Type} {x : Except CtorError α} {f : α → Except CtorError β} {y : β} :
    (x >>= f) = .ok y ↔ ∃ z, x = .ok z ∧ f z = .ok y := by
  cases x <;> simp [Bind.bind, Except.bind]

/-- C25.  What the constructor makes of `cf_iter`: an integer counts on every level; a list counts
level by level and has an entry for every level but the coarsest; nothing else is accepted. -/
theorem C25_cf_iter (a : Args T) (hP : 0 < a.P) (p : Params) (h : construct a = .ok p) :
    (∀ k, a.cfIter = .int k → ∀ l, l < a.ts.length → p.cfCount l = k.toNat) ∧
    (∀ ks, a.cfIter = .list ks → ∀ l, l + 1 < a.ts.length →
      ∃ hl : l < ks.length, p.cfCount l = (ks[l]).toNat) ∧
    a.cfIter ≠ .other := by
  have hall := (construct_performs a hP).ok.1 ⟨p, h⟩
  have hd := (allHold_append.1 hall).1
  have hcf : normCf a.ts.length a.cfIter = .ok p.cf := by
    simp only [construct, except_bind_ok] at h
    obtain ⟨_, -, _, -, _, -, _, -, _, -, _, -, _, -, cf, hcf, _, -, _, -, _, -, hp⟩ := h
    have : finalParams a cf = p := by
      simpa [Pure.pure, Except.pure, finalParams] using hp
    rw [← this]
    exact hcf
  refine ⟨?_, ?_, ?_⟩
  · intro k hk l hl
    rw [hk] at hcf
    have : List.replicate a.ts.length k = p.cf := by simpa [normCf] using hcf
    rw [Params.cfCount, ← this]
    simp [hl]
  · intro ks hk l hl
    rw [hk] at hcf
    simp only [normCf] at hcf
    split at hcf
    · cases hcf
    · next hlen =>
      have : ks = p.cf := by simpa using hcf
      refine ⟨by omega, ?_⟩
      rw [Params.cfCount, ← this, List.getD_eq_getElem?_getD,
        List.getElem?_eq_getElem (by omega : l < ks.length)]
      rfl
  · exact hd ⟨a.cfIter ≠ .other, .cfType⟩ (by simp [documented])

/-- C25.  A list that is too short and an argument of another type are rejected. -/
theorem C25_rejects (a : Args T) (hP : 0 < a.P) :
    (∀ ks, a.cfIter = .list ks → ks.length < a.ts.length - 1 → ∀ p, construct a ≠ .ok p) ∧
    (a.cfIter = .other → ∀ p, construct a ≠ .ok p) := by
  constructor
  · intro ks hk hlen p h
    obtain ⟨hl, _⟩ := (C25_cf_iter a hP p h).2.1 ks hk ks.length (by omega)
    omega
  · intro ho p h
    exact (C25_cf_iter a hP p h).2.2 ho

section used
variable {V K : Type} [Add V] [Sub V] [SMul K V] [One K] [Sub K]

theorem vcyc_cf (S : Sys V K) (cf' : Nat → Nat) (h : ∀ l, l + 1 < S.L → cf' l = S.cf l)
    (d l it : Nat) (ff : Bool) (hd : l + d + 1 = S.L) (s : GState V) :
    ({ S with cf := cf' } : Sys V K).vcyc S.forwardSolve d l it ff s =
      S.vcyc S.forwardSolve d l it ff s := by
  induction d generalizing l ff s with
  | zero => rfl
  | succ d ih =>
    simp only [Sys.vcyc]
    rw [ih (l + 1) true (by omega), h l (by omega)]
    rfl

/-- C25.  Only the entries for the levels above the coarsest matter: two `cf_iter` that agree there
give the same iteration. -/
theorem C25_used (S : Sys V K) (cf' : Nat → Nat) (h : ∀ l, l + 1 < S.L → cf' l = S.cf l)
    (d l it : Nat) (cyc : Sys.Cycle) (ff : Bool) (hd : l + d + 1 = S.L) (s : GState V) :
    ({ S with cf := cf' } : Sys V K).iteration S.forwardSolve d l cyc it ff s =
      S.iteration S.forwardSolve d l cyc it ff s := by
  induction d generalizing l ff s with
  | zero => rfl
  | succ d ih =>
    simp only [Sys.iteration]
    rw [ih (l + 1) true (by omega), h l (by omega)]
    split
    · exact vcyc_cf S cf' h (d + 1) l it false (by omega) _
    · rfl

end used

/-! ## From the arguments of the API to the configuration of the model -/

/-- The remaining arguments: problems, transfers, tolerance and so on (no checks apply to them).
`norms` are the three norms in time, in the order 1, 2, infinity (mgrit.py:183). -/
structure Rest (V K T N : Type) where
  step : Nat → V → T → T → V
  R : Nat → V → V
  I : Nat → V → V
  w : K
  start : Nat → V
  zero : Nat → V
  guess : Nat → V
  nested : Bool
  norm : V → N
  norms : Nat → List N → N
  ltTol : N → Bool
  ord : Nat → Nat → List Nat → List Nat

/-- The configuration of an accepted call. -/
def mkCfg {V K N : Type} (a : Args T) (p : Params) (d : Rest V K T N) : Cfg V K T N where
  ts := a.ts
  step := d.step
  R := d.R
  I := d.I
  cf := p.cfCount
  w := d.w
  start := d.start
  zero := d.zero
  guess := d.guess
  cyc := p.cyc
  nested := d.nested
  maxIter := p.convLen
  convCrit := p.convCrit
  norm := d.norm
  tnorm := d.norms p.tNorm
  ltTol := d.ltTol
  outLvl := p.outLvl
  ord := d.ord
  P := a.P
  instr := false

/-- The parameters of an accepted call are the arguments. -/
theorem C24_parameters (a : Args T) (hP : 0 < a.P) (p : Params) (h : construct a = .ok p) :
    (p.cyc = .F ↔ a.cycle = "F") ∧ (p.cyc = .V ↔ a.cycle = "V") ∧ (p.tNorm : Int) = a.tNorm ∧
    (p.convCrit : Int) = a.convCrit ∧ (p.outLvl : Int) = a.outLvl := by
  have hall := (construct_performs a hP).ok.1 ⟨p, h⟩
  have hd := (allHold_append.1 hall).1
  have h1 : a.cycle = "V" ∨ a.cycle = "F" := hd ⟨_, .cycle⟩ (by simp [documented])
  have h2 : a.tNorm ∈ [1, 2, 3] := hd ⟨_, .norm⟩ (by simp [documented])
  have h3 : a.convCrit ∈ [0, 1, 2, 3] := hd ⟨_, .crit⟩ (by simp [documented])
  have h4 : a.outLvl ∈ [0, 1, 2] := hd ⟨_, .outLvl⟩ (by simp [documented])
  simp only [construct, except_bind_ok] at h
  obtain ⟨_, -, _, -, _, -, _, -, _, -, _, -, _, -, cf, hcf, _, -, _, -, _, -, hp⟩ := h
  have hp' : finalParams a cf = p := by
    simpa [Pure.pure, Except.pure, finalParams] using hp
  subst hp'
  refine ⟨?_, ?_, ?_, ?_, ?_⟩
  · rcases h1 with e | e <;> simp [finalParams, e]
  · rcases h1 with e | e <;> simp [finalParams, e]
  · simp at h2; rcases h2 with e | e | e <;> simp [finalParams, e]
  · simp at h3; rcases h3 with e | e | e | e <;> simp [finalParams, e]
  · simp at h4; rcases h4 with e | e | e <;> simp [finalParams, e]

end Pymgrit
