import Verif.Refs
import Verif.Loc2

/-!
# The program with objects against the program with values

Simulation: as long as the user's functions do not change the objects they are given, and the time stepper
returns new objects, both programs send the same messages and end with the same values.
-/

set_option linter.unusedSectionVars false

namespace Pymgrit

section sim
variable {M α β γ δ ι : Type}

/-- Two programs with the same communication and related results. -/
inductive Sim (Q : α → β → Prop) : Prog M α → Prog M β → Prop
  | ret {a b} : Q a b → Sim Q (.ret a) (.ret b)
  | fail {e} : Sim Q (.fail e) (.fail e)
  | send {d t m k k'} : Sim Q k k' → Sim Q (.send d t m k) (.send d t m k')
  | recv {s t k k'} : (∀ m, Sim Q (k m) (k' m)) → Sim Q (.recv s t k) (.recv s t k')
  | wait {k k'} : Sim Q k k' → Sim Q (.wait k) (.wait k')

theorem Sim.bind {Q : α → β → Prop} {Q' : γ → δ → Prop} {p : Prog M α} {q : Prog M β}
    {f : α → Prog M γ} {g : β → Prog M δ} (h : Sim Q p q) (hf : ∀ a b, Q a b → Sim Q' (f a) (g b)) :
    Sim Q' (p.bind f) (q.bind g) := by
  induction h with
  | ret h => exact hf _ _ h
  | fail => exact .fail
  | send _ ih => exact .send ih
  | recv _ ih => exact .recv ih
  | wait _ ih => exact .wait ih

theorem Sim.forIn {Q : α → β → Prop} {f : α → ι → Prog M α} {g : β → ι → Prog M β} (xs : List ι)
    (hf : ∀ i ∈ xs, ∀ a b, Q a b → Sim Q (f a i) (g b i)) {a : α} {b : β} (h : Q a b) :
    Sim Q (Prog.forIn' xs f a) (Prog.forIn' xs g b) := by
  induction xs generalizing a b with
  | nil => exact .ret h
  | cons x xs ih =>
    exact (hf x List.mem_cons_self a b h).bind fun a b h =>
      ih (fun i hi => hf i (List.mem_cons_of_mem _ hi)) h

theorem Sim.times {Q : α → β → Prop} {f : α → Prog M α} {g : β → Prog M β} (n : Nat)
    (hf : ∀ a b, Q a b → Sim Q (f a) (g b)) {a : α} {b : β} (h : Q a b) :
    Sim Q (Cfg.timesP f n a) (Cfg.timesP g n b) := by
  induction n generalizing a b with
  | zero => exact .ret h
  | succ n ih => exact (hf a b h).bind fun a b h => ih h

theorem Sim.refl (p : Prog M α) : Sim (fun a b => a = b) p p := by
  induction p with
  | ret => exact .ret rfl
  | fail => exact .fail
  | send _ _ _ _ ih => exact .send ih
  | recv _ _ _ ih => exact .recv ih
  | wait _ ih => exact .wait ih

theorem foldl_rel {Q : α → β → Prop} {f : α → ι → α} {g : β → ι → β} (xs : List ι)
    (hf : ∀ i ∈ xs, ∀ a b, Q a b → Q (f a i) (g b i)) {a : α} {b : β} (h : Q a b) :
    Q (xs.foldl f a) (xs.foldl g b) := by
  induction xs generalizing a b with
  | nil => exact h
  | cons x xs ih =>
    exact ih (fun i hi => hf i (List.mem_cons_of_mem _ hi)) (hf x List.mem_cons_self a b h)

/-- Simulation up to a function of the results gives equal programs. -/
theorem Sim.map_eq {F : α → γ} {G : β → γ} {p : Prog M α} {q : Prog M β}
    (h : Sim (fun a b => F a = G b) p q) :
    p.bind (fun a => .ret (F a)) = q.bind (fun b => .ret (G b)) := by
  induction h with
  | ret h => simp [h]
  | fail => rfl
  | send _ ih => simp [ih]
  | recv _ ih => simp [ih]
  | wait _ ih => simp [ih]

end sim

variable {V K T N : Type}

/-- Only new objects since `ρ`: the references and the old objects are as they were. -/
structure RState.Ext (ρ ρ' : RState V N) : Prop where
  obj : ρ'.obj = ρ.obj
  outs : ρ'.outs = ρ.outs
  next : ρ.next ≤ ρ'.next
  heap : ∀ a : Addr, a.blk < ρ.next → ρ'.heap a = ρ.heap a

/-- Invariant of process `r`: all references are to existing objects that do not belong to the user; the
object of a ghost point is referred to from nowhere else. -/
structure RState.Inv (r : Nat) (ρ : RState V N) : Prop where
  u : ∀ l j, 0 < (ρ.obj.u l j).blk ∧ (ρ.obj.u l j).blk < ρ.next
  v : ∀ l j, 0 < (ρ.obj.v l j).blk ∧ (ρ.obj.v l j).blk < ρ.next
  g : ∀ l j, 0 < (ρ.obj.g l j).blk ∧ (ρ.obj.g l j).blk < ρ.next
  saved : ∀ j, 0 < (ρ.obj.saved j).blk ∧ (ρ.obj.saved j).blk < ρ.next
  gu : r ≠ 0 → ∀ l l' j, ρ.obj.u l' j = ρ.obj.u l 0 → l' = l ∧ j = 0
  gv : r ≠ 0 → ∀ l l' j, ρ.obj.v l' j ≠ ρ.obj.u l 0
  gg : r ≠ 0 → ∀ l l' j, ρ.obj.g l' j ≠ ρ.obj.u l 0
  gs : r ≠ 0 → ∀ l j, ρ.obj.saved j ≠ ρ.obj.u l 0
  pos : 0 < ρ.next

/-- The relation of the simulation. -/
structure Rf (mine : Addr → V) (r : Nat) (ρ : RState V N) (s : PState V N) : Prop where
  inv : ρ.Inv r
  user : ∀ a : Addr, a.blk = 0 → ρ.heap a = mine a
  vals : ρ.vals = s

namespace RState
variable {ρ ρ' ρ'' : RState V N} {r : Nat}

theorem Ext.refl (ρ : RState V N) : ρ.Ext ρ := ⟨rfl, rfl, le_refl _, fun _ _ => rfl⟩

theorem Ext.trans (h : ρ.Ext ρ') (h' : ρ'.Ext ρ'') : ρ.Ext ρ'' :=
  ⟨h'.obj.trans h.obj, h'.outs.trans h.outs, h.next.trans h'.next, fun a ha =>
    (h'.heap a (Nat.lt_of_lt_of_le ha h.next)).trans (h.heap a ha)⟩

theorem Ext.rf {mine : Addr → V} {s : PState V N} (h : ρ.Ext ρ') (hR : Rf mine r ρ s) : Rf mine r ρ' s := by
  obtain ⟨⟨u, v, g, sv, gu, gv, gg, gs, hp⟩, us, vl⟩ := hR
  have e := h.obj
  refine ⟨⟨?_, ?_, ?_, ?_, ?_, ?_, ?_, ?_, Nat.lt_of_lt_of_le hp h.next⟩, ?_, ?_⟩
  · intro l j; rw [e]; exact ⟨(u l j).1, Nat.lt_of_lt_of_le (u l j).2 h.next⟩
  · intro l j; rw [e]; exact ⟨(v l j).1, Nat.lt_of_lt_of_le (v l j).2 h.next⟩
  · intro l j; rw [e]; exact ⟨(g l j).1, Nat.lt_of_lt_of_le (g l j).2 h.next⟩
  · intro j; rw [e]; exact ⟨(sv j).1, Nat.lt_of_lt_of_le (sv j).2 h.next⟩
  · rw [e]; exact gu
  · rw [e]; exact gv
  · rw [e]; exact gg
  · rw [e]; exact gs
  · intro a ha; rw [h.heap a (by omega)]; exact us a ha
  · rw [← vl]
    unfold RState.vals
    rw [e, h.outs]
    congr 1
    · funext l j; exact h.heap _ (u l j).2
    · funext l j; exact h.heap _ (v l j).2
    · funext l j; exact h.heap _ (g l j).2
    · funext j; exact h.heap _ (sv j).2

theorem alloc_ext (ρ : RState V N) (x : V) : ρ.Ext (ρ.alloc x).2 :=
  ⟨rfl, rfl, Nat.le_succ _, fun a ha => by
    show Function.update _ _ _ _ = _
    rw [Function.update_of_ne]
    rintro rfl
    exact absurd ha (Nat.lt_irrefl _)⟩

theorem alloc_val (ρ : RState V N) (x : V) : (ρ.alloc x).2.heap (ρ.alloc x).1 = x := by
  exact Function.update_self ..

/-- The result of an expression: new, or the object at `a`. -/
structure Res (ρ : RState V N) (a : Addr) (p : Addr × RState V N) (x : V) : Prop where
  ext : ρ.Ext p.2
  val : p.2.heap p.1 = x
  lt : p.1.blk < p.2.next
  new : ρ.next ≤ p.1.blk ∨ p.1 = a

/-- The result of an expression: a new object. -/
structure New (ρ : RState V N) (p : Addr × RState V N) (x : V) : Prop where
  ext : ρ.Ext p.2
  val : p.2.heap p.1 = x
  lt : p.1.blk < p.2.next
  new : ρ.next ≤ p.1.blk

theorem alloc_new (ρ : RState V N) (x : V) : ρ.New (ρ.alloc x) x :=
  ⟨alloc_ext ρ x, alloc_val ρ x, Nat.lt_succ_self _, le_refl _⟩

theorem New.mono {p : Addr × RState V N} {x : V} (h : ρ.Ext ρ') (hn : ρ'.New p x) : ρ.New p x :=
  ⟨h.trans hn.ext, hn.val, hn.lt, h.next.trans hn.new⟩

theorem New.eq {p : Addr × RState V N} {x y : V} (hn : ρ.New p x) (h : x = y) : ρ.New p y := h ▸ hn

theorem call_res (ρ : RState V N) {b : Beh} {f : V → V} {a : Addr} (ha : a.blk < ρ.next)
    (hb : b ≠ .inPlace) (hal : b = .same → f (ρ.heap a) = ρ.heap a) :
    ρ.Res a (ρ.call b f a) (f (ρ.heap a)) := by
  cases b with
  | fresh =>
    have h := alloc_new ρ (f (ρ.heap a))
    exact ⟨h.ext, h.val, h.lt, .inl h.new⟩
  | same => exact ⟨.refl ρ, (hal rfl).symm, ha, .inr rfl⟩
  | inPlace => exact absurd rfl hb

end RState

open RState

section
variable {mine : Addr → V} {r : Nat} {ρ : RState V N} {s : PState V N}

/-- Storing a reference to an object that is not the object of a ghost point. -/
theorem Rf.setU (h : Rf mine r ρ s) {l j : Nat} {a : Addr} (hj : r ≠ 0 → j ≠ 0)
    (ha : 0 < a.blk ∧ a.blk < ρ.next) (hg : r ≠ 0 → ∀ l, a ≠ ρ.obj.u l 0) :
    Rf mine r (ρ.setU l j a) (s.setU l j (ρ.heap a)) := by
  obtain ⟨⟨u, v, g, sv, gu, gv, gg, gs, hp⟩, us, vl⟩ := h
  have hu : ∀ l' j', (ρ.setU l j a).obj.u l' j' = if l' = l ∧ j' = j then a else ρ.obj.u l' j' := by
    intro l' j'
    show upd2 _ _ _ _ _ _ = _
    unfold upd2
    by_cases h1 : l' = l
    · subst h1
      by_cases h2 : j' = j
      · subst h2; simp
      · simp [h2]
    · simp [h1]
  have hu0 : r ≠ 0 → ∀ l', (ρ.setU l j a).obj.u l' 0 = ρ.obj.u l' 0 := by
    intro hr l'
    rw [hu, if_neg]
    rintro ⟨-, h⟩
    exact hj hr h.symm
  refine ⟨⟨?_, v, g, sv, ?_, ?_, ?_, ?_, hp⟩, us, ?_⟩
  · intro l' j'; rw [hu]; split
    · exact ha
    · exact u l' j'
  · intro hr l' l'' j'
    rw [hu0 hr, hu]
    split
    · exact fun h => absurd h (hg hr l')
    · exact gu hr l' l'' j'
  · intro hr l' l'' j'; rw [hu0 hr]; exact gv hr l' l'' j'
  · intro hr l' l'' j'; rw [hu0 hr]; exact gg hr l' l'' j'
  · intro hr l' j'; rw [hu0 hr]; exact gs hr l' j'
  · rw [← vl]
    unfold PState.setU RState.vals
    congr 1
    funext l' j'
    rw [hu]
    unfold upd2
    by_cases h1 : l' = l
    · subst h1
      by_cases h2 : j' = j
      · subst h2; simp [RState.setU]
      · simp [h2, RState.setU]
    · simp [h1, RState.setU]

theorem Rf.setG (h : Rf mine r ρ s) {l j : Nat} {a : Addr}
    (ha : 0 < a.blk ∧ a.blk < ρ.next) (hg : r ≠ 0 → ∀ l, a ≠ ρ.obj.u l 0) :
    Rf mine r (ρ.setG l j a) (s.setG l j (ρ.heap a)) := by
  obtain ⟨⟨u, v, g, sv, gu, gv, gg, gs, hp⟩, us, vl⟩ := h
  have hu : ∀ l' j', (ρ.setG l j a).obj.g l' j' = if l' = l ∧ j' = j then a else ρ.obj.g l' j' := by
    intro l' j'
    show upd2 _ _ _ _ _ _ = _
    unfold upd2
    by_cases h1 : l' = l
    · subst h1
      by_cases h2 : j' = j
      · subst h2; simp
      · simp [h2]
    · simp [h1]
  refine ⟨⟨u, v, ?_, sv, gu, gv, ?_, gs, hp⟩, us, ?_⟩
  · intro l' j'; rw [hu]; split
    · exact ha
    · exact g l' j'
  · intro hr l' l'' j'
    rw [hu]
    split
    · exact hg hr l'
    · exact gg hr l' l'' j'
  · rw [← vl]
    unfold PState.setG RState.vals
    congr 1
    funext l' j'
    rw [hu]
    unfold upd2
    by_cases h1 : l' = l
    · subst h1
      by_cases h2 : j' = j
      · subst h2; simp [RState.setG]
      · simp [h2, RState.setG]
    · simp [h1, RState.setG]

/-- Storing a new object. -/
theorem Rf.setU_new (h : Rf mine r ρ s) {l j : Nat} {p : Addr × RState V N} {x : V} (hj : r ≠ 0 → j ≠ 0)
    (hn : ρ.New p x) : Rf mine r (p.2.setU l j p.1) (s.setU l j x) := by
  have h' := hn.ext.rf h
  rw [← hn.val]
  have hp := h.inv.pos
  have h1 := hn.new
  refine h'.setU hj ⟨by omega, hn.lt⟩ fun _ l' e => ?_
  have := (h.inv.u l' 0).2
  rw [e, hn.ext.obj] at h1
  omega

theorem Rf.setG_new (h : Rf mine r ρ s) {l j : Nat} {p : Addr × RState V N} {x : V}
    (hn : ρ.New p x) : Rf mine r (p.2.setG l j p.1) (s.setG l j x) := by
  have h' := hn.ext.rf h
  rw [← hn.val]
  have hp := h.inv.pos
  have h1 := hn.new
  refine h'.setG ⟨by omega, hn.lt⟩ fun _ l' e => ?_
  have := (h.inv.u l' 0).2
  rw [e, hn.ext.obj] at h1
  omega

/-- Storing a new object or one that is already stored at an own point. -/
theorem Rf.setU_res (h : Rf mine r ρ s) {l j l' j' : Nat} {p : Addr × RState V N} {x : V}
    (hj : r ≠ 0 → j ≠ 0) (hj' : r ≠ 0 → j' ≠ 0) (hn : ρ.Res (ρ.obj.u l' j') p x) :
    Rf mine r (p.2.setU l j p.1) (s.setU l j x) := by
  rcases hn.new with h1 | h1
  · exact h.setU_new hj ⟨hn.ext, hn.val, hn.lt, h1⟩
  · have hR := hn.ext.rf h
    rw [← hn.val]
    refine hR.setU hj ⟨?_, hn.lt⟩ fun hr l'' e => ?_
    · rw [h1]; exact (h.inv.u l' j').1
    · rw [h1, hn.ext.obj] at e
      exact hj' hr (h.inv.gu hr _ _ _ e).2

/-- A received message changes the object of the ghost point. -/
theorem Rf.unpack (h : Rf mine r ρ s) (hr : r ≠ 0) (l : Nat) (x : V) :
    Rf mine r (ρ.unpack l x) (s.setU l 0 x) := by
  obtain ⟨⟨u, v, g, sv, gu, gv, gg, gs, hp⟩, us, vl⟩ := h
  refine ⟨⟨u, v, g, sv, gu, gv, gg, gs, hp⟩, ?_, ?_⟩
  · intro a ha
    show Function.update _ _ _ _ = _
    rw [Function.update_of_ne]
    · exact us a ha
    · rintro rfl; have := (u l 0).1; omega
  · rw [← vl]
    unfold PState.setU RState.vals RState.unpack
    congr 1
    · funext l' j'
      show Function.update _ _ _ _ = upd2 _ _ _ _ _ _
      unfold upd2
      by_cases h1 : l' = l
      · subst h1
        by_cases h2 : j' = 0
        · subst h2; simp
        · rw [Function.update_of_ne (fun e => h2 (gu hr _ _ _ e).2)]
          simp [h2]
      · rw [Function.update_of_ne (fun e => h1 (gu hr _ _ _ e).1)]
        simp [h1]
    · funext l' j'
      exact Function.update_of_ne (gv hr _ _ _) _ _
    · funext l' j'
      exact Function.update_of_ne (gg hr _ _ _) _ _
    · funext j'
      exact Function.update_of_ne (gs hr _ _) _ _

theorem cloneList_ext (ρ : RState V N) (xs : Nat → Addr) : ρ.Ext (ρ.cloneList xs).2 :=
  ⟨rfl, rfl, Nat.le_succ _, fun a ha => by
    show (if _ then _ else _) = _
    rw [if_neg (by omega)]⟩

theorem Rf.cloneV (h : Rf mine r ρ s) (l : Nat) :
    Rf mine r (Cfg.cloneVR l ρ) { s with v := Function.update s.v l (s.u l) } := by
  have hE := (cloneList_ext ρ (ρ.obj.u l)).rf h
  obtain ⟨⟨u, v, g, sv, gu, gv, gg, gs, hp⟩, us, vl⟩ := hE
  have hv : ∀ l' j', (Cfg.cloneVR l ρ).obj.v l' j' =
      if l' = l then ⟨ρ.next, 0, j'⟩ else ρ.obj.v l' j' := by
    intro l' j'
    by_cases h1 : l' = l
    · subst h1; simp [Cfg.cloneVR, cloneList]
    · simp [h1, Cfg.cloneVR, cloneList]
  refine ⟨⟨u, ?_, g, sv, gu, ?_, gg, gs, hp⟩, us, ?_⟩
  · intro l' j'
    rw [hv]
    split
    · exact ⟨h.inv.pos, Nat.lt_succ_self _⟩
    · exact v l' j'
  · intro hr l' l'' j'
    rw [hv]
    split
    · intro e
      have h2 := (h.inv.u l' 0).2
      have : ρ.next = (ρ.obj.u l' 0).blk := congrArg Addr.blk e
      omega
    · exact gv hr l' l'' j'
  · rw [← vl]
    show RState.vals _ = _
    unfold RState.vals
    congr 1
    funext l' j'
    rw [hv]
    show (ρ.cloneList (ρ.obj.u l)).2.heap _ = (Function.update _ _ _ : Nat → Nat → V) _ _
    by_cases h1 : l' = l
    · subst h1
      rw [if_pos rfl, Function.update_self]
      have h2 := (cloneList_ext ρ (ρ.obj.u l')).heap (ρ.obj.u l' j') (h.inv.u l' j').2
      refine Eq.trans ?_ h2.symm
      simp [cloneList]
    · rw [if_neg h1, Function.update_of_ne h1]
      rfl

theorem Rf.save (h : Rf mine r ρ s) : Rf mine r (Cfg.saveR ρ) { s with saved := s.u 0 } := by
  have hE := (cloneList_ext ρ (ρ.obj.u 0)).rf h
  obtain ⟨⟨u, v, g, sv, gu, gv, gg, gs, hp⟩, us, vl⟩ := hE
  refine ⟨⟨u, v, g, ?_, gu, gv, gg, ?_, hp⟩, us, ?_⟩
  · intro j
    exact ⟨h.inv.pos, Nat.lt_succ_self _⟩
  · intro hr l' j' e
    have h2 := (h.inv.u l' 0).2
    have : ρ.next = (ρ.obj.u l' 0).blk := congrArg Addr.blk e
    omega
  · rw [← vl]
    show RState.vals _ = _
    unfold RState.vals
    congr 1
    funext j'
    have h2 := (cloneList_ext ρ (ρ.obj.u 0)).heap (ρ.obj.u 0 j') (h.inv.u 0 j').2
    refine Eq.trans ?_ h2.symm
    simp [Cfg.saveR, cloneList]

theorem Rf.u (h : Rf mine r ρ s) (l j : Nat) : ρ.heap (ρ.obj.u l j) = s.u l j := by rw [← h.vals]; rfl
theorem Rf.v (h : Rf mine r ρ s) (l j : Nat) : ρ.heap (ρ.obj.v l j) = s.v l j := by rw [← h.vals]; rfl
theorem Rf.g (h : Rf mine r ρ s) (l j : Nat) : ρ.heap (ρ.obj.g l j) = s.g l j := by rw [← h.vals]; rfl
theorem Rf.saved (h : Rf mine r ρ s) (j : Nat) : ρ.heap (ρ.obj.saved j) = s.saved j := by rw [← h.vals]; rfl
theorem Rf.sf (h : Rf mine r ρ s) : ρ.obj.sf = s.sf := by rw [← h.vals]; rfl

end
end Pymgrit
