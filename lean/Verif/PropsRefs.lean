import Verif.RefsSim
import Verif.PropsDist

/-!
# Property C87: vectors are objects, the solver treats them as values

The solver stores references to the user's vector objects and unpacks messages into some of them.  Stated for
the program with objects (`Verif.Refs`), on any number of processes and in any interleaving.
-/

set_option linter.unusedSectionVars false

namespace Pymgrit
open Cfg RState

section net
variable {P : Nat} {M α β : Type} {Q : Nat → α → β → Prop}

/-- Configurations with simulating programs and the same messages in transit. -/
def Conf.Like (Q : Nat → α → β → Prop) (c : Conf P M α) (d : Conf P M β) : Prop :=
  (∀ r : Fin P, Sim (Q r) (c.prog r) (d.prog r)) ∧ c.chan = d.chan

theorem Sim.symm {Q : α → β → Prop} {p : Prog M α} {q : Prog M β} (h : Sim Q p q) :
    Sim (fun b a => Q a b) q p := by
  induction h with
  | ret h => exact .ret h
  | fail => exact .fail
  | send _ ih => exact .send ih
  | recv _ ih => exact .recv ih
  | wait _ ih => exact .wait ih

theorem Conf.Like.symm {c : Conf P M α} {d : Conf P M β} (h : c.Like Q d) :
    d.Like (fun r b a => Q r a b) c := ⟨fun r => (h.1 r).symm, h.2.symm⟩

theorem Conf.Like.step {c c' : Conf P M α} {d : Conf P M β} (h : c.Like Q d) (hs : Step c c') :
    ∃ d', Step d d' ∧ c'.Like Q d' := by
  obtain ⟨r, hl, ho⟩ := hs
  have hr := h.1 r
  have hc := h.2
  have close : ∀ k : Prog M β, Sim (Q r) (c'.prog r) k → LStep P r.val (d.prog r, d.chan) (k, c'.chan) →
      ∃ d', Step d d' ∧ c'.Like Q d' := by
    intro k hk hstep
    refine ⟨⟨Function.update d.prog r k, c'.chan⟩, ⟨r, ?_, ?_⟩, ?_, rfl⟩
    · simpa using hstep
    · intro r' hr'
      simp [hr']
    · intro r'
      by_cases e : r' = r
      · subst e; simpa using hk
      · simp only [Function.update_of_ne e]
        rw [ho r' e]
        exact h.1 r'
  generalize hp : c.prog r = p at hl hr
  generalize hq : d.prog r = q at hr close
  generalize hp' : c'.prog r = p' at hl close
  generalize hch : c'.chan = ch at hl close
  rw [hc] at hl
  cases hr with
  | ret _ => cases hl
  | fail => cases hl
  | send hk =>
    cases hl with
    | send hd => exact close _ hk (LStep.send hd)
  | recv hk =>
    cases hl with
    | recv hm => exact close _ (hk _) (LStep.recv hm)
  | wait hk =>
    cases hl with
    | wait hw => exact close _ hk (LStep.wait hw)

theorem Conf.Like.steps {c c' : Conf P M α} {d : Conf P M β} (h : c.Like Q d) (hs : Steps c c') :
    ∃ d', Steps d d' ∧ c'.Like Q d' := by
  induction hs with
  | refl => exact ⟨d, .refl, h⟩
  | tail _ h2 ih =>
    obtain ⟨d', h3, h4⟩ := ih
    obtain ⟨d'', h5, h6⟩ := h4.step h2
    exact ⟨d'', h3.tail h5, h6⟩

end net

variable {V K T N : Type} [LinearOrder T] [Inhabited T]
variable [Add V] [Sub V] [SMul K V] [One K] [Sub K] [Zero N]

/-- Start of a run with objects: `U` – what the user's functions do with objects, `mine` – the user's own
objects, on every process. -/
def startRefs (E : Cfg V K T N) (U : User V T) (mine : Addr → V) : Conf E.P (Msg V N) (RState V N) :=
  ⟨fun r => E.mainR U r (E.initR (fun r l => off E.ts E.P l r) mine r), Chans.empty⟩

theorem start_like (E : Cfg V K T N) (h : E.Base) {U : User V T} (hU : U.Fair E) {mine : Addr → V}
    (hm : ∀ l, mine ⟨0, l, 0⟩ = E.start l) :
    (startRefs E U mine).Like (fun r => Rf mine r) (startConf E) :=
  ⟨fun r => mainR_sim h hU r.isLt (initR_rf _ hm), rfl⟩

/-- C87.  Any criterion: whatever a run with objects does, the run with values does, with the same messages;
in particular when nothing more can happen, a process has returned in one iff in the other, the values it
sees through its references are the values of the other run, and the user's own objects (initial values,
templates) are unchanged. -/
theorem C87_objects_as_values (E : Cfg V K T N) (h : E.Base) {U : User V T} (hU : U.Fair E)
    {mine : Addr → V} (hm : ∀ l, mine ⟨0, l, 0⟩ = E.start l)
    {c : Conf E.P (Msg V N) (RState V N)} (hc : Steps (startRefs E U mine) c) :
    ∃ d, Steps (startConf E) d ∧ c.chan = d.chan ∧ ((∃ c', Step c c') ↔ ∃ d', Step d d') ∧
      ∀ r, (∀ msg, c.prog r = .fail msg ↔ d.prog r = .fail msg) ∧
        (∀ s, d.prog r = .ret s → ∃ ρ, c.prog r = .ret ρ) ∧
        ∀ ρ, c.prog r = .ret ρ → d.prog r = .ret ρ.vals ∧
          ∀ l j, ρ.heap ⟨0, l, j⟩ = mine ⟨0, l, j⟩ := by
  obtain ⟨d, h1, h2⟩ := (start_like E h hU hm).steps hc
  refine ⟨d, h1, h2.2, ⟨fun ⟨c', h3⟩ => ?_, fun ⟨d', h3⟩ => ?_⟩, fun r => ?_⟩
  · obtain ⟨d', h4, -⟩ := h2.step h3; exact ⟨d', h4⟩
  · obtain ⟨c', h4, -⟩ := h2.symm.step h3; exact ⟨c', h4⟩
  · have h3 := h2.1 r
    generalize c.prog r = p at h3 ⊢
    generalize d.prog r = q at h3 ⊢
    cases h3 with
    | ret h4 =>
      refine ⟨fun msg => by simp, fun s _ => ⟨_, rfl⟩, ?_⟩
      rintro ρ ⟨⟩
      exact ⟨by rw [h4.vals], fun l j => h4.user _ rfl⟩
    | _ => simp

/-- C87.  Global criterion: in every interleaving the run with objects ends, and every process then sees the
values of the sequential run; the user's own objects are unchanged. -/
theorem C87_results (E : Cfg V K T N) (h : E.Good) {U : User V T} (hU : U.Fair E)
    {mine : Addr → V} (hm : ∀ l, mine ⟨0, l, 0⟩ = E.start l)
    {c : Conf E.P (Msg V N) (RState V N)} (hc : Steps (startRefs E U mine) c) (hd : ∀ d, ¬ Step c d)
    (r : Fin E.P) :
    ∃ ρ, c.prog r = .ret ρ ∧ Shows E (serialRun E) r ρ.vals ∧
      ∀ l j, ρ.heap ⟨0, l, j⟩ = mine ⟨0, l, j⟩ := by
  obtain ⟨d, h1, -, h3, h4⟩ := C87_objects_as_values E h.toBase hU hm hc
  have h5 : ∀ e, ¬ Step d e := fun e he => by
    obtain ⟨c', hc'⟩ := h3.2 ⟨e, he⟩
    exact hd _ hc'
  obtain ⟨s, h6, h7⟩ := C20_same_as_serial_partial h h1 h5 r
  obtain ⟨-, h8, h9⟩ := h4 r
  obtain ⟨ρ, h10⟩ := h8 s h6
  obtain ⟨h11, h12⟩ := h9 ρ h10
  rw [h6] at h11
  obtain rfl : s = ρ.vals := by injection h11
  exact ⟨ρ, h10, h7, h12⟩

/-! ### Cases -/

/-- Functions that always return new objects. -/
def User.allFresh : User V T := ⟨fun _ _ _ _ => .fresh, fun _ _ => .fresh, fun _ _ => .fresh⟩

/-- Transfers that return the object they are given. -/
def User.sharing : User V T := ⟨fun _ _ _ _ => .fresh, fun _ _ => .same, fun _ _ => .same⟩

/-- Three processes, three levels, transfers that hand the same object to the next level. -/
example : (User.sharing : User Int Nat).Fair (exCfg 3) :=
  ⟨by simp [User.sharing], by simp [User.sharing], by simp [User.sharing], by simp [User.sharing],
    fun _ _ _ => rfl, fun _ _ _ => rfl, by simp [User.sharing]⟩

/-- One level, three points, `u ↦ 2 u`. -/
def dblCfg : Cfg Int Int Nat Int :=
  { exCfg 1 with ts := [[0, 1, 2]], step := fun _ x _ _ => 2 * x, nested := false, maxIter := 1 }

/-- A time stepper that changes the object it is given and returns it. -/
def User.overwriting : User Int Nat := ⟨fun _ _ _ _ => .inPlace, fun _ _ => .fresh, fun _ _ => .fresh⟩

/-- The program of the only process, with that time stepper: what it ends with at the three time points. -/
def overwritten : Option (Int × Int × Int) :=
  match dblCfg.mainR User.overwriting 0 (dblCfg.initR (fun r l => off dblCfg.ts dblCfg.P l r) (fun _ => 1) 0) with
  | .wait (.ret ρ) => some (ρ.vals.u 0 0, ρ.vals.u 0 1, ρ.vals.u 0 2)
  | _ => none

theorem overwritten_eq : overwritten = some (16, 16, 16) := by decide +kernel

/-- C87, counterexample.  The contract is needed: with a time stepper that changes its argument and returns
it, a run on one process ends with all time points holding one object, and the initial value is lost; the run
with values keeps the initial value `1` and ends with `2` and `4`. -/
theorem C87_in_place_counterexample :
    ∃ c ρ, Steps (startRefs dblCfg User.overwriting (fun _ => 1)) c ∧ (∀ d, ¬ Step c d) ∧
      c.prog ⟨0, by decide⟩ = .ret ρ ∧ ρ.vals.u 0 0 ≠ dblCfg.start 0 ∧
      ρ.vals.u 0 0 = ρ.vals.u 0 1 ∧ ρ.vals.u 0 1 = ρ.vals.u 0 2 := by
  have h := overwritten_eq
  unfold overwritten at h
  split at h
  · rename_i ρ hp
    simp only [Option.some.injEq, Prod.mk.injEq] at h
    obtain ⟨h1, h2, h3⟩ := h
    refine ⟨⟨fun _ => .ret ρ, Chans.empty⟩, ρ, .single ⟨⟨0, by decide⟩, ?_, ?_⟩, ?_, rfl, ?_, ?_, ?_⟩
    · show LStep 1 0 (dblCfg.mainR _ 0 _, Chans.empty) (.ret ρ, Chans.empty)
      rw [hp]
      exact LStep.wait (by intros; rfl)
    · intro r hr
      exact absurd (Fin.ext (by have := r.isLt; simp only [show dblCfg.P = 1 from rfl] at this; show r.val = 0; omega)) hr
    · rintro d ⟨r, hl, -⟩
      cases hl
    · rw [h1]; decide
    · rw [h1, h2]
    · rw [h2, h3]
  · cases h

end Pymgrit
