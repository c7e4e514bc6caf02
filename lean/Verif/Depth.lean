import Verif.Trace
import Verif.Driver
import Verif.Proc

/-!
# Vectors that carry the length of a chain of steps

Every quantity of a run is a vector of the user's class, so a user can find out which calls of `step()` depend on each other
with a vector class that carries a number: the result of `step()` has a number one larger than its argument, all other
operations take over the largest number of their arguments.  The number of a vector is then the length of the longest chain of
calls of `step()`, each of which needs the result of the one before, that led to it: with any number of processes, the vector
cannot be available before that many calls have been made one after the other.
-/

namespace Pymgrit
namespace Depth

/-- A vector with the length of the longest chain of calls of `step()` behind it. -/
structure DV (V : Type) where
  val : V
  dep : Nat

section
variable {V K : Type}

/-- `__add__` (vector.py:38-45). -/
instance [Add V] : Add (DV V) := ⟨fun x y => ⟨x.val + y.val, max x.dep y.dep⟩⟩

/-- `__sub__` (vector.py:47-54). -/
instance [Sub V] : Sub (DV V) := ⟨fun x y => ⟨x.val - y.val, max x.dep y.dep⟩⟩

/-- `__mul__` (vector.py:56-63), multiplication by a number. -/
instance [SMul K V] : SMul K (DV V) := ⟨fun k x => ⟨k • x.val, x.dep⟩⟩

end

variable {V K T N : Type}

/-- The problem with these vectors: `step()` (application.py:98-107) adds one, the transfers (grid_transfer.py:31-55) and the
norm (vector.py:65-69) work on the value; start vector, zero vectors and initial guess have number 0
(mgrit.py:840-858: `vector_t_start`, `clone_zero`, `clone_rand`). -/
def tag (E : Cfg V K T N) : Cfg (DV V) K T N where
  ts := E.ts
  step := fun l x t t' => ⟨E.step l x.val t t', x.dep + 1⟩
  R := fun l x => ⟨E.R l x.val, x.dep⟩
  I := fun l x => ⟨E.I l x.val, x.dep⟩
  cf := E.cf
  w := E.w
  start := fun l => ⟨E.start l, 0⟩
  zero := fun l => ⟨E.zero l, 0⟩
  guess := fun i => ⟨E.guess i, 0⟩
  cyc := E.cyc
  nested := E.nested
  maxIter := E.maxIter
  convCrit := E.convCrit
  norm := fun x => E.norm x.val
  tnorm := E.tnorm
  ltTol := E.ltTol
  outLvl := E.outLvl
  ord := E.ord
  P := E.P
  instr := E.instr

end Depth
end Pymgrit
