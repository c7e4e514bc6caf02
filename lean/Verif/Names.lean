import Verif.PropsVectors

/-!
# Programs with variables that refer to vectors

Variables of a Python program refer to objects; `x = y` makes two variables refer to the same object.  The operators of
`Vector` that are not abstract (core/vector.py:113-151) return `self * other`, `self + other`, `self - other`, that is a new
object; Python's augmented assignment then lets the variable refer to it.
-/

namespace Pymgrit.Heap

variable {α X : Type} [DecidableEq X]

/-- `Vector.__rmul__` and `Vector.__imul__` (core/vector.py:113-131), `f` being the multiplication with `other`: the
returned object and the memory. -/
def Mem.imul [Zero α] (k : Kind) (m : Mem α) (f : α → α) (o : Nat) : Nat × Mem α := (m.no, m.step k (.mul f o))

/-- `Vector.__iadd__` and `Vector.__isub__` (core/vector.py:133-151), `f` being `+` or `-`. -/
def Mem.iadd [Zero α] (k : Kind) (m : Mem α) (f : α → α → α) (o p : Nat) : Nat × Mem α := (m.no, m.step k (.add f o p))

/-- Statements of a program with variables. -/
inductive Stmt (X α : Type)
  /-- `x = Vector…(…)` -/
  | new (x : X) (vs : List (Val α))
  /-- `x = y` -/
  | bind (x y : X)
  /-- `x = y.clone()` -/
  | clone (x y : X)
  /-- `x = y.clone_zero()` -/
  | cloneZero (x y : X)
  /-- `x = y + z`, `x = y - z` -/
  | add (f : α → α → α) (x y z : X)
  /-- `x = y * c`, `x = c * y` -/
  | mul (f : α → α) (x y : X)
  /-- `x += y`, `x -= y` -/
  | iadd (f : α → α → α) (x y : X)
  /-- `x *= c` -/
  | imul (f : α → α) (x : X)
  /-- `x.set_values(…)` with a new array -/
  | setValues (x : X) (vs : List (Val α))

/-- Memory, and the objects the variables refer to. -/
structure Names (X α : Type) where
  mem : Mem α
  ref : X → Nat

/-- What one sees of a variable. -/
def Names.val (s : Names X α) (x : X) : List (Val α) := s.mem.val (s.ref x)

/-- Let `x` refer to the object `p.1`. -/
def Names.let' (s : Names X α) (x : X) (p : Nat × Mem α) : Names X α := ⟨p.2, Function.update s.ref x p.1⟩

/-- Effect of a statement (methods as in `Mem.step`; operators of core/vector.py:113-151). -/
def Names.exec [Zero α] (k : Kind) (s : Names X α) : Stmt X α → Names X α
  | .new x vs => s.let' x (s.mem.no, s.mem.step k (.new vs))
  | .bind x y => s.let' x (s.ref y, s.mem)
  | .clone x y => s.let' x (s.mem.no, s.mem.step k (.clone (s.ref y)))
  | .cloneZero x y => s.let' x (s.mem.no, s.mem.step k (.cloneZero (s.ref y)))
  | .add f x y z => s.let' x (s.mem.no, s.mem.step k (.add f (s.ref y) (s.ref z)))
  | .mul f x y => s.let' x (s.mem.imul k f (s.ref y))
  | .iadd f x y => s.let' x (s.mem.iadd k f (s.ref x) (s.ref y))
  | .imul f x => s.let' x (s.mem.imul k f (s.ref x))
  | .setValues x vs => { s with mem := s.mem.step k (.setValues (s.ref x) vs) }

/-- A program. -/
def Names.run [Zero α] (k : Kind) (s : Names X α) (ps : List (Stmt X α)) : Names X α := ps.foldl (Names.exec k) s

/-- All variables refer to existing objects. -/
def Names.Ok (k : Kind) (s : Names X α) : Prop :=
  Heap.Ok s.mem ∧ (k = .copy → Sep s.mem) ∧ ∀ x, s.ref x < s.mem.no

variable [Zero α]

theorem step_no (k : Kind) (m : Mem α) (op : Op α) (h : op.target = none) : (m.step k op).no = m.no + 1 := by
  have hf : ∀ vs, (m.fresh vs).no = m.no + 1 := fun vs => by
    simp only [Mem.fresh, Mem.push, (alloc_spec m vs).2.2.2.1]
  cases op with
  | new vs => exact hf _
  | clone o => cases k with
    | rebind => rfl
    | copy => exact hf _
  | cloneZero o => exact hf _
  | add f o p => exact hf _
  | mul f o => exact hf _
  | setValues o vs => exact absurd h (by simp [Op.target])
  | unpack o vs => exact absurd h (by simp [Op.target])
  | assign o p => exact absurd h (by simp [Op.target])
  | write o i xs => exact absurd h (by simp [Op.target])

/-- A variable gets a new object: the others keep their objects and values. -/
theorem let_new {k : Kind} {s : Names X α} (h : s.Ok k) (x : X) {op : Op α} (he : op.Exists s.mem) (hp : op.Public k)
    (ht : op.target = none) :
    (s.let' x (s.mem.no, s.mem.step k op)).Ok k ∧
    ∀ y, (s.let' x (s.mem.no, s.mem.step k op)).val y =
      if y = x then (s.mem.step k op).val s.mem.no else s.val y := by
  obtain ⟨h1, h2, h3⟩ := h
  obtain ⟨a, b, c, d⟩ := step_inv h1 h2 he hp
  have hn := step_no k s.mem op ht
  refine ⟨⟨a, b, fun y => ?_⟩, fun y => ?_⟩
  · show Function.update s.ref x s.mem.no y < (s.mem.step k op).no
    by_cases hy : y = x
    · subst hy; rw [Function.update_self, hn]; omega
    · rw [Function.update_of_ne hy, hn]; have := h3 y; omega
  · show (s.mem.step k op).val (Function.update s.ref x s.mem.no y) = _
    by_cases hy : y = x
    · subst hy; rw [Function.update_self, if_pos rfl]
    · rw [Function.update_of_ne hy, if_neg hy]
      exact d _ (h3 y) (by rw [ht]; exact fun e => by cases e)

end Pymgrit.Heap
