import Verif.Names

/-!
# Property C127: variables that refer to vectors
-/

namespace Pymgrit.Heap

variable {α X : Type} [DecidableEq X]

/-- Specification: what a statement does if variables are thought of as holding values. -/
def Stmt.spec [Zero α] (σ : X → List (Val α)) : Stmt X α → X → List (Val α)
  | .new x vs => Function.update σ x vs
  | .bind x y | .clone x y => Function.update σ x (σ y)
  | .cloneZero x y => Function.update σ x ((σ y).map Val.zero)
  | .add f x y z => Function.update σ x (List.zipWith (Val.map₂ f) (σ y) (σ z))
  | .mul f x y => Function.update σ x ((σ y).map (Val.map f))
  | .iadd f x y => Function.update σ x (List.zipWith (Val.map₂ f) (σ x) (σ y))
  | .imul f x => Function.update σ x ((σ x).map (Val.map f))
  | .setValues x vs => Function.update σ x vs

/-- A statement that changes an existing object. -/
def Stmt.changes : Stmt X α → Prop
  | .setValues _ _ => True
  | _ => False

/-- A statement that makes two variables refer to the same object. -/
def Stmt.shares : Stmt X α → Prop
  | .bind _ _ => True
  | _ => False

/-- Different variables refer to different objects. -/
def Names.Apart (s : Names X α) : Prop := ∀ x y, s.ref x = s.ref y → x = y

variable [Zero α]

theorem exec_spec {k : Kind} {s : Names X α} (h : s.Ok k) (p : Stmt X α) (hp : p.changes → s.Apart) :
    (s.exec k p).Ok k ∧ (s.exec k p).val = p.spec s.val := by
  have hx := h.2.2
  have key : ∀ (x : X) (op : Op α) (w : List (Val α)), op.Exists s.mem → op.Public k → op.target = none →
      (s.mem.step k op).val s.mem.no = w →
      (s.let' x (s.mem.no, s.mem.step k op)).Ok k ∧
      (s.let' x (s.mem.no, s.mem.step k op)).val = Function.update s.val x w := by
    intro x op w he hq ht hw
    obtain ⟨a, b⟩ := let_new h x he hq ht
    refine ⟨a, funext fun y => ?_⟩
    rw [b y, hw, Function.update_apply]
  cases p with
  | new x vs => exact key x _ _ trivial (by cases k <;> trivial) rfl (fresh_new _ _)
  | clone x y => exact key x _ _ (hx y) (by cases k <;> trivial) rfl (C42_clone k _ _)
  | cloneZero x y => exact key x _ _ (hx y) (by cases k <;> trivial) rfl (fresh_new _ _)
  | add f x y z => exact key x _ _ ⟨hx y, hx z⟩ (by cases k <;> trivial) rfl (fresh_new _ _)
  | mul f x y => exact key x (.mul f (s.ref y)) _ (hx y) (by cases k <;> trivial) rfl (fresh_new _ _)
  | iadd f x y => exact key x (.add f (s.ref x) (s.ref y)) _ ⟨hx x, hx y⟩ (by cases k <;> trivial) rfl (fresh_new _ _)
  | imul f x => exact key x (.mul f (s.ref x)) _ (hx x) (by cases k <;> trivial) rfl (fresh_new _ _)
  | bind x y =>
    refine ⟨⟨h.1, h.2.1, fun z => ?_⟩, funext fun z => ?_⟩
    · show Function.update s.ref x (s.ref y) z < s.mem.no
      by_cases hz : z = x
      · subst hz; rw [Function.update_self]; exact hx y
      · rw [Function.update_of_ne hz]; exact hx z
    · show s.mem.val (Function.update s.ref x (s.ref y) z) = Function.update s.val x (s.val y) z
      by_cases hz : z = x
      · subst hz; rw [Function.update_self, Function.update_self]; rfl
      · rw [Function.update_of_ne hz, Function.update_of_ne hz]; rfl
  | setValues x vs =>
    have hap := hp trivial
    obtain ⟨a, b, c, d⟩ := step_inv (op := .setValues (s.ref x) vs) h.1 h.2.1 (hx x) (by cases k <;> trivial)
    refine ⟨⟨a, b, fun z => Nat.lt_of_lt_of_le (hx z) c⟩, funext fun z => ?_⟩
    show (s.mem.step k (.setValues (s.ref x) vs)).val (s.ref z) = Function.update s.val x vs z
    by_cases hz : z = x
    · subst hz; rw [Function.update_self]; exact set_new _ _ _
    · rw [Function.update_of_ne hz]
      exact d _ (hx z) fun e => hz (hap _ _ (Option.some.inj e).symm)

/-- C127.  Programs with arithmetic, augmented assignment, plain assignment, `clone` and `clone_zero` compute the same as
if every variable held a value of its own: however many variables refer to the same object, `x += y`, `x -= y` and `x *= c`
change `x` only. -/
theorem C127_values (k : Kind) (ps : List (Stmt X α)) (hps : ∀ p ∈ ps, ¬ p.changes) :
    ∀ s : Names X α, s.Ok k → (s.run k ps).val = ps.foldl Stmt.spec s.val := by
  induction ps with
  | nil => intro s _; rfl
  | cons p ps ih =>
    intro s h
    obtain ⟨a, b⟩ := exec_spec h p fun hc => absurd hc (hps p List.mem_cons_self)
    show ((s.exec k p).run k ps).val = ps.foldl Stmt.spec (p.spec s.val)
    rw [ih (fun q hq => hps q (List.mem_cons_of_mem _ hq)) _ a, b]

theorem exec_apart {k : Kind} {s : Names X α} (h : s.Ok k) (hap : s.Apart) (p : Stmt X α) (hp : ¬ p.shares) :
    (s.exec k p).Apart := by
  have hx := h.2.2
  have key : ∀ (x : X) (m : Mem α), (s.let' x (s.mem.no, m)).Apart := by
    intro x m y z hyz
    change Function.update s.ref x s.mem.no y = Function.update s.ref x s.mem.no z at hyz
    have hy := hx y
    have hz := hx z
    simp only [Function.update_apply] at hyz
    split at hyz <;> split at hyz
    · rename_i a b; rw [a, b]
    · omega
    · omega
    · exact hap y z hyz
  cases p with
  | bind x y => exact absurd trivial hp
  | setValues x vs => exact hap
  | new x vs => exact key x _
  | clone x y => exact key x _
  | cloneZero x y => exact key x _
  | add f x y z => exact key x _
  | mul f x y => exact key x _
  | iadd f x y => exact key x _
  | imul f x => exact key x _

/-- C127.  With `set_values` as well the same holds if no variable is assigned to another one: `x = y.clone()` instead of
`x = y`. -/
theorem C127_methods (k : Kind) (ps : List (Stmt X α)) (hps : ∀ p ∈ ps, ¬ p.shares) :
    ∀ s : Names X α, s.Ok k → s.Apart → (s.run k ps).val = ps.foldl Stmt.spec s.val := by
  induction ps with
  | nil => intro s _ _; rfl
  | cons p ps ih =>
    intro s h hap
    obtain ⟨a, b⟩ := exec_spec h p fun _ => hap
    show ((s.exec k p).run k ps).val = ps.foldl Stmt.spec (p.spec s.val)
    rw [ih (fun q hq => hps q (List.mem_cons_of_mem _ hq)) _ a (exec_apart h hap p (hps p List.mem_cons_self)), b]

/-- `n` objects with one number each, one variable per object. -/
def oneEach (n : Nat) : Names (Fin n) Int := ⟨⟨fun _ => [], 0, fun o => [.num o], n⟩, fun x => x⟩

omit [Zero α] [DecidableEq X] in
theorem oneEach_ok (k : Kind) (n : Nat) : (oneEach n).Ok k ∧ (oneEach n).Apart := by
  refine ⟨⟨fun o _ a ha => ?_, fun _ o p a _ _ ha => ?_, fun x => x.2⟩, fun x y h => Fin.ext h⟩
  · simp [oneEach] at ha
  · simp [oneEach] at ha

/-- C127.  Both kinds of statements together have the usual effect of Python: `x = y; x.set_values(…)` changes `y` as
well, `x = y; x += z` does not. -/
theorem C127_alias (k : Kind) :
    ((oneEach 3).run k [.bind 0 1, .setValues 0 [.num 7]]).val 1 = [.num 7] ∧
    ((oneEach 3).run k [.bind 0 1, .iadd (· + ·) 0 2]).val 1 = [.num 1] ∧
    ((oneEach 3).run k [.bind 0 1, .iadd (· + ·) 0 2]).val 0 = [.num 3] := by
  cases k <;> decide

/-- The hypotheses of `C127_values` hold for a program that uses the same object under two names. -/
example (k : Kind) : ((oneEach 3).run k [.bind 0 1, .iadd (· + ·) 0 2, .imul (2 * ·) 1, .clone 2 0]).val =
    [Stmt.bind 0 1, .iadd (· + ·) 0 2, .imul (2 * ·) 1, .clone 2 0].foldl Stmt.spec (oneEach 3).val :=
  C127_values k _ (by simp [Stmt.changes]) _ (oneEach_ok k 3).1

/-- The hypotheses of `C127_methods`. -/
example (k : Kind) : ((oneEach 3).run k [.clone 0 1, .setValues 0 [.num 7], .iadd (· - ·) 1 0]).val =
    [Stmt.clone 0 1, .setValues 0 [.num 7], .iadd (· - ·) 1 0].foldl Stmt.spec (oneEach 3).val :=
  C127_methods k _ (by simp [Stmt.shares]) _ (oneEach_ok k 3).1 (oneEach_ok k 3).2

end Pymgrit.Heap
