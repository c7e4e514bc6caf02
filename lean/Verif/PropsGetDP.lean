import Verif.GetDP
import Verif.PropsMachine
import Std.Data.String.ToNat
import Mathlib.Algebra.Field.Rat
import Mathlib.Tactic.FieldSimp
import Mathlib.Tactic.NormNum

/-!
# Properties C83, C84: solution files and steps of the induction machine
-/

namespace Pymgrit.GetDP
open Mesh (Line)

variable {F : Type} [DecidableEq F]

/-! ## C83 -/

/-- A solution in a file: number of the time step, time, values with the imaginary parts as written. -/
structure Sol (F : Type) where
  step : Nat
  time : F
  vals : List (F × String)

/-- The lines of a solution. -/
def Sol.lines (N : Num F) (a : Sol F) : List Line :=
  ["$Solution", "/*", "DofData", "#0", "*/"] :: ["0", N.str a.time, "0", toString a.step] ::
    (a.vals.map (fun v => [N.str v.1, v.2]) ++ [["$EndSolution"]])

/-- Format lines and solutions. -/
def resFile (N : Num F) (sols : List (Sol F)) : List Line :=
  ["$ResFormat", "/*", "GetDP", "2.10.0,", "ascii", "*/"] :: ["1.1", "0"] :: ["$EndResFormat"] ::
    sols.flatMap (Sol.lines N)

/-- Specification: of the solutions with the same number of the time step, the last. -/
def finals : List (Sol F) → List (Sol F)
  | [] => []
  | [a] => [a]
  | a :: b :: r => if a.step = b.step then finals (b :: r) else a :: finals (b :: r)

/-- What the reader gives for a solution: time and values. -/
def Sol.row (a : Sol F) : F × List F := (a.time, a.vals.map Prod.fst)

/-- The conversions undo each other. -/
structure Num.OK (N : Num F) : Prop where
  fl : ∀ x, N.fl (N.str x) = .ok x
  zero : ∃ z, N.fl "0" = .ok z
  int : ∀ k : Nat, N.int (toString k) = .ok (k : Int)

/-- The solution has `n` values, and the imaginary parts are numbers. -/
structure Sol.OK (N : Num F) (n : Nat) (a : Sol F) : Prop where
  len : a.vals.length = n
  im : ∀ v ∈ a.vals, ∃ z, N.fl v.2 = .ok z

theorem mapM_ok {α β : Type} (f : α → Except String β) (g : α → β) :
    ∀ xs : List α, (∀ x ∈ xs, f x = .ok (g x)) → xs.mapM f = .ok (xs.map g)
  | [], _ => rfl
  | x :: xs, h => by
    rw [List.mapM_cons, h x (List.mem_cons_self ..),
      mapM_ok f g xs fun y hy => h y (List.mem_cons_of_mem _ hy)]
    rfl

omit [DecidableEq F] in
theorem column_ok {N : Num F} (hN : ∀ x, N.fl (N.str x) = .ok x) {vals : List (F × String)}
    (hne : vals ≠ []) (him : ∀ v ∈ vals, ∃ z, N.fl v.2 = .ok z) :
    column N (vals.map fun v => [N.str v.1, v.2]) = .ok (vals.map Prod.fst) := by
  classical
  let im : F × String → F := fun v => if h : ∃ z, N.fl v.2 = .ok z then h.choose else v.1
  have e : (vals.map fun v => [N.str v.1, v.2]).mapM (fun r => r.mapM N.fl)
      = .ok (vals.map fun v => [v.1, im v]) := by
    rw [List.mapM_map]
    refine mapM_ok _ _ vals fun v hv => ?_
    have h := him v hv
    have h2 : N.fl v.2 = .ok (im v) := by
      simp only [im, dif_pos h]; exact h.choose_spec
    show List.mapM N.fl [N.str v.1, v.2] = _
    rw [List.mapM_cons, List.mapM_cons, List.mapM_nil, hN, h2]
    rfl
  unfold column
  rw [e]
  obtain ⟨v, vs, rfl⟩ := List.exists_cons_of_ne_nil hne
  show (if ((v :: vs).map fun v => [v.1, im v]).any (fun q => decide (q.length ≠ [v.1, im v].length)) = true
    then Except.error "ValueError" else _) = _
  rw [if_neg (by
    rw [Bool.not_eq_true, List.any_eq_false]
    intro q hq
    obtain ⟨w, -, rfl⟩ := List.mem_map.1 hq
    simp)]
  rw [List.mapM_map]
  exact mapM_ok _ _ (v :: vs) fun w _ => rfl

omit [DecidableEq F] in
theorem assign_ok {n : Nat} {vals : List F} (h : vals.length = n) : assign n vals = .ok vals := by
  subst h
  match vals with
  | [] => rfl
  | [x] => rfl
  | x :: y :: r => simp [assign]

omit [DecidableEq F] in
theorem oneSolution_ok {N : Num F} (hN : N.OK) {n : Nat} (hn : 0 < n) {a : Sol F} (ha : a.OK N n)
    (s : Rd F) (hs : s.old < 1 + (a.step : Int) ∨ s.old = 1 + (a.step : Int) ∧ s.rows ≠ []) :
    oneSolution N n s ["0", N.str a.time, "0", toString a.step] (a.vals.map fun v => [N.str v.1, v.2])
      = .ok { rows := (if s.old < 1 + (a.step : Int) then s.rows else s.rows.dropLast) ++ [a.row]
              old := 1 + (a.step : Int) } := by
  obtain ⟨z, hz⟩ := hN.zero
  have hne : a.vals ≠ [] := by
    rintro e
    have := ha.len
    rw [e] at this
    simp at this
    omega
  have h0 : N.int "0" = .ok 0 := hN.int 0
  unfold oneSolution
  simp only [h0, hz, hN.fl, hN.int, bind, Except.bind]
  rw [if_neg (by omega), column_ok hN.fl hne ha.im]
  simp only
  rw [assign_ok (by rw [List.length_map]; exact ha.len)]
  rcases hs with hs | ⟨hs, hr⟩
  · rw [if_pos hs, if_neg (by simp), if_neg (by simp), if_pos hs, List.dropLast_concat]
    rfl
  · have hlt : ¬ (s.old < 1 + (a.step : Int)) := by omega
    rw [if_neg hlt, if_neg hr, if_neg (by simp), if_neg hlt]
    rfl

theorem readLoop_skip (N : Num F) (n : Nat) {l : Line} (h1 : has "$Solution" l = false)
    (h2 : has "$ResFormat" l = false) (rest : List Line) (s : Rd F) :
    readLoop N n (l :: rest) s = readLoop N n rest s := by
  rw [readLoop.eq_def]
  simp only [h1, h2, Bool.false_eq_true, if_false]

theorem readLoop_solution {N : Num F} (hN : N.OK) {n : Nat} (hn : 0 < n) {a : Sol F} (ha : a.OK N n)
    (s : Rd F) (hs : s.old < 1 + (a.step : Int) ∨ s.old = 1 + (a.step : Int) ∧ s.rows ≠ [])
    (rest : List Line) :
    readLoop N n (a.lines N ++ rest) s = readLoop N n rest
      { rows := (if s.old < 1 + (a.step : Int) then s.rows else s.rows.dropLast) ++ [a.row]
        old := 1 + (a.step : Int) } := by
  have h1 : has "$Solution" ["$Solution", "/*", "DofData", "#0", "*/"] = true := by decide +kernel
  have h2 : has "$Solution" ["$EndSolution"] = false := by decide +kernel
  have h3 : has "$ResFormat" ["$EndSolution"] = false := by decide +kernel
  have hl : (a.vals.map fun v => [N.str v.1, v.2]).length = n := by rw [List.length_map]; exact ha.len
  unfold Sol.lines
  rw [List.cons_append, List.cons_append, readLoop, if_pos h1]
  rw [List.append_assoc, List.take_append_of_le_length (by omega), List.take_of_length_le (by omega),
    oneSolution_ok hN hn ha s hs]
  show readLoop N n (List.drop n _) _ = _
  rw [List.drop_append_of_le_length (by omega), List.drop_of_length_le (by omega), List.nil_append,
    List.cons_append, List.nil_append, readLoop_skip N n h2 h3]

theorem readLoop_solutions {N : Num F} (hN : N.OK) {n : Nat} (hn : 0 < n) (rest : List Line) :
    ∀ (sols : List (Sol F)) (a : Sol F) (pre : List (F × List F)), (∀ b ∈ sols, b.OK N n) →
      (a :: sols).Pairwise (fun b c => b.step ≤ c.step) →
      readLoop N n (sols.flatMap (Sol.lines N) ++ rest) ⟨pre ++ [a.row], 1 + (a.step : Int)⟩
        = readLoop N n rest ⟨pre ++ (finals (a :: sols)).map Sol.row,
          1 + (((a :: sols).getLast (List.cons_ne_nil _ _)).step : Int)⟩
  | [], a, pre, _, _ => rfl
  | b :: sols, a, pre, hok, hp => by
    have hab : a.step ≤ b.step := (List.pairwise_cons.1 hp).1 b (List.mem_cons_self ..)
    have hp' := (List.pairwise_cons.1 hp).2
    have hok' : ∀ c ∈ sols, c.OK N n := fun c hc => hok c (List.mem_cons_of_mem _ hc)
    rw [List.flatMap_cons, List.append_assoc,
      readLoop_solution hN hn (hok b (List.mem_cons_self ..)) _ (by
        by_cases e : a.step = b.step
        · right; exact ⟨by rw [e], by simp⟩
        · left; show 1 + (a.step : Int) < _; omega)]
    rw [List.getLast_cons (List.cons_ne_nil b sols)]
    unfold finals
    by_cases e : a.step = b.step
    · rw [if_pos e, if_neg (by show ¬ (1 + (a.step : Int) < _); omega), List.dropLast_concat,
        readLoop_solutions hN hn rest sols b pre hok' hp']
    · rw [if_neg e, if_pos (by show 1 + (a.step : Int) < _; omega),
        readLoop_solutions hN hn rest sols b (pre ++ [a.row]) hok' hp', List.map_cons,
        List.append_assoc, List.singleton_append]

theorem readLoop_format (N : Num F) (n : Nat) (rest : List Line) (s : Rd F) :
    readLoop N n (["$ResFormat", "/*", "GetDP", "2.10.0,", "ascii", "*/"] :: ["1.1", "0"] ::
      ["$EndResFormat"] :: rest) s = readLoop N n rest s := by
  have h1 : has "$Solution" ["$ResFormat", "/*", "GetDP", "2.10.0,", "ascii", "*/"] = false := by
    decide +kernel
  have h2 : has "$ResFormat" ["$ResFormat", "/*", "GetDP", "2.10.0,", "ascii", "*/"] = true := by
    decide +kernel
  have h3 : has "$Solution" ["1.1", "0"] = false := by decide +kernel
  have h4 : has "$ResFormat" ["1.1", "0"] = false := by decide +kernel
  have h5 : has "$Solution" ["$EndResFormat"] = false := by decide +kernel
  have h6 : has "$ResFormat" ["$EndResFormat"] = false := by decide +kernel
  rw [readLoop, if_neg (by rw [h1]; simp), if_pos h2]
  rw [if_pos (by decide +kernel), readLoop_skip N n h3 h4, readLoop_skip N n h5 h6]

theorem readLoop_file {N : Num F} (hN : N.OK) {n : Nat} (hn : 0 < n) (rest : List Line) (a : Sol F)
    (sols : List (Sol F)) (hok : ∀ b ∈ a :: sols, b.OK N n)
    (hp : (a :: sols).Pairwise fun a b => a.step ≤ b.step) :
    readLoop N n (resFile N (a :: sols) ++ rest) ⟨[], 0⟩ = readLoop N n rest
      ⟨(finals (a :: sols)).map Sol.row, 1 + (((a :: sols).getLast (List.cons_ne_nil _ _)).step : Int)⟩ := by
  unfold resFile
  rw [List.cons_append, List.cons_append, List.cons_append, readLoop_format, List.flatMap_cons,
    List.append_assoc, readLoop_solution hN hn (hok a (List.mem_cons_self ..)) _
    (Or.inl (show (0 : Int) < 1 + (a.step : Int) by omega)),
    if_pos (show (0 : Int) < 1 + (a.step : Int) by omega)]
  exact readLoop_solutions hN hn rest sols a [] (fun b hb => hok b (List.mem_cons_of_mem _ hb)) hp

/-- C83.  A solution file with solutions in the order of their time steps is read completely: for each
time step number the time and the values of the last solution with this number, in order. -/
theorem C83_read {N : Num F} (hN : N.OK) {n : Nat} (hn : 0 < n) (sols : List (Sol F)) (hne : sols ≠ [])
    (hok : ∀ a ∈ sols, a.OK N n) (hp : sols.Pairwise fun a b => a.step ≤ b.step)
    (hnan : ∀ a ∈ finals sols, N.nan a.time = false ∧ ∀ v ∈ a.vals, N.nan v.1 = false) :
    readResolution N n (resFile N sols) = .ok ((finals sols).map fun a => (a.time, a.vals.map Prod.fst)) := by
  obtain ⟨a, sols, rfl⟩ := List.exists_cons_of_ne_nil hne
  have e := readLoop_file hN hn [] a sols hok hp
  rw [List.append_nil, show readLoop N n [] _ = Except.ok _ from by rw [readLoop]] at e
  have hf : ∀ (l : List (Sol F)) (b : Sol F), finals (b :: l) ≠ [] := by
    intro l
    induction l with
    | nil => intro b; simp [finals]
    | cons c l ih =>
      intro b
      unfold finals
      split
      · exact ih c
      · simp
  unfold readResolution
  rw [e]
  show (if _ then _ else _) = _
  rw [if_neg (by
    rintro (h | h)
    · omega
    · exact hf sols a (List.map_eq_nil_iff.1 h)), if_neg (by
    rw [Bool.not_eq_true, List.any_eq_false]
    intro r hr
    obtain ⟨b, hb, rfl⟩ := List.mem_map.1 hr
    obtain ⟨h1, h2⟩ := hnan b hb
    rw [Bool.not_eq_true, Bool.or_eq_false_iff]
    refine ⟨h1, ?_⟩
    rw [List.any_eq_false]
    intro x hx
    obtain ⟨v, hv, rfl⟩ := List.mem_map.1 hx
    rw [h2 v hv]
    simp)]
  rfl

omit [DecidableEq F] in
/-- The last entry of `finals` is the last solution. -/
theorem finals_getLast? : ∀ sols : List (Sol F), (finals sols).getLast? = sols.getLast?
  | [] => rfl
  | [_] => rfl
  | a :: b :: r => by
    unfold finals
    split
    · rw [finals_getLast? (b :: r), List.getLast?_cons_cons]
    · rw [List.getLast?_cons_cons, ← finals_getLast? (b :: r)]
      cases hf : finals (b :: r) with
      | nil =>
        have := finals_getLast? (b :: r)
        rw [hf, List.getLast?_nil, eq_comm, List.getLast?_eq_none_iff] at this
        cases this
      | cons c l => rw [List.getLast?_cons_cons]

omit [DecidableEq F] in
theorem finals_sub : ∀ (l : List (Sol F)), ∀ a ∈ finals l, a ∈ l := by
  intro l
  induction l with
  | nil => intro a ha; exact ha
  | cons c l ih =>
    intro a ha
    cases l with
    | nil => exact ha
    | cons d l =>
      unfold finals at ha
      split at ha
      · exact List.mem_cons_of_mem _ (ih a ha)
      · rcases List.mem_cons.1 ha with rfl | ha
        · exact List.mem_cons_self ..
        · exact List.mem_cons_of_mem _ (ih a ha)

/-- C83.  Hence the last row is the last solution of the file. -/
theorem C83_last {N : Num F} (hN : N.OK) {n : Nat} (hn : 0 < n) (sols : List (Sol F)) (b : Sol F)
    (hok : ∀ a ∈ sols ++ [b], a.OK N n) (hp : (sols ++ [b]).Pairwise fun a b => a.step ≤ b.step)
    (hnan : ∀ a ∈ sols ++ [b], N.nan a.time = false ∧ ∀ v ∈ a.vals, N.nan v.1 = false) :
    ∃ rows, readResolution N n (resFile N (sols ++ [b])) = .ok rows ∧
      rows.getLast? = some (b.time, b.vals.map Prod.fst) := by
  refine ⟨_, C83_read hN hn _ (by simp) hok hp (fun a ha => hnan a (finals_sub _ a ha)), ?_⟩
  rw [List.getLast?_map, finals_getLast?]
  simp

/-- C83.  Writing a vector and reading the file gives the time and the vector. -/
theorem C83_round_trip {N : Num F} (hN : N.OK) (h0 : ∃ z, N.fl "0.0" = .ok z) (t : F) (u : List F)
    (hne : u ≠ []) (ht : N.nan t = false) (hu : ∀ x ∈ u, N.nan x = false) :
    readResolution N u.length (setResolution N t u) = .ok [(t, u)] := by
  have e : setResolution N t u = resFile N [⟨0, t, u.map fun x => (x, "0.0")⟩] := by
    unfold setResolution resFile Sol.lines
    rw [if_neg hne]
    simp
    rfl
  have := C83_read hN (n := u.length) (List.length_pos_iff.2 hne) [⟨0, t, u.map fun x => (x, "0.0")⟩]
    (by simp)
    (by
      intro a ha
      rw [List.mem_singleton] at ha
      subst ha
      refine ⟨by simp, fun v hv => ?_⟩
      obtain ⟨x, -, rfl⟩ := List.mem_map.1 hv
      exact h0)
    (List.pairwise_singleton ..)
    (by
      intro a ha
      rw [show finals [(⟨0, t, u.map fun x => (x, "0.0")⟩ : Sol F)] = [⟨0, t, u.map fun x => (x, "0.0")⟩]
        from rfl, List.mem_singleton] at ha
      subst ha
      refine ⟨ht, fun v hv => ?_⟩
      obtain ⟨x, hx, rfl⟩ := List.mem_map.1 hv
      exact hu x hx)
  rw [e, this]
  simp only [finals, List.map_cons, List.map_nil, List.map_map]
  rw [show (Prod.fst ∘ fun x : F => (x, "0.0")) = id from rfl, List.map_id]

/-- C83.  A solution stored after one with a larger time step number raises an exception, whatever
follows. -/
theorem C83_decreasing {N : Num F} (hN : N.OK) {n : Nat} (hn : 0 < n) (sols : List (Sol F)) (a b : Sol F)
    (hok : ∀ c ∈ sols ++ [a], c.OK N n) (hp : (sols ++ [a]).Pairwise fun a b => a.step ≤ b.step)
    (hlt : b.step < a.step) (rest : List Line) :
    readResolution N n (resFile N (sols ++ [a]) ++ (b.lines N ++ rest)) = .error "Exception" := by
  obtain ⟨z, hz⟩ := hN.zero
  have h0 : N.int "0" = .ok 0 := hN.int 0
  have h1 : has "$Solution" ["$Solution", "/*", "DofData", "#0", "*/"] = true := by decide +kernel
  obtain ⟨c, l, hc⟩ := List.exists_cons_of_ne_nil (show sols ++ [a] ≠ [] by simp)
  have hlast : (c :: l).getLast (List.cons_ne_nil _ _) = a := by
    simp only [← hc, List.getLast_append_singleton]
  unfold readResolution
  rw [hc] at hok hp ⊢
  rw [readLoop_file hN hn _ c l hok hp, hlast]
  unfold Sol.lines
  rw [List.cons_append, List.cons_append, readLoop, if_pos h1]
  unfold oneSolution
  simp only [h0, hz, hN.fl, hN.int, bind, Except.bind]
  rw [if_pos (by omega)]

/-- The lines of a solution up to the `k`-th value. -/
def Sol.cut (N : Num F) (a : Sol F) (k : Nat) : List Line :=
  ["$Solution", "/*", "DofData", "#0", "*/"] :: ["0", N.str a.time, "0", toString a.step] ::
    (a.vals.take k).map fun v => [N.str v.1, v.2]

omit [DecidableEq F] in
theorem oneSolution_cut {N : Num F} (hN : N.OK) {n : Nat} {b : Sol F} (s : Rd F)
    (hs : s.old < 1 + (b.step : Int)) (vals : List Line) :
    oneSolution N n s ["0", N.str b.time, "0", toString b.step] vals
      = (do
          let col ← column N vals
          let row ← assign n col
          .ok { rows := s.rows ++ [(b.time, row)], old := 1 + (b.step : Int) }) := by
  obtain ⟨z, hz⟩ := hN.zero
  have h0 : N.int "0" = .ok 0 := hN.int 0
  unfold oneSolution
  simp only [h0, hz, hN.fl, hN.int, bind, Except.bind]
  rw [if_neg (by omega), if_pos hs, if_neg (by simp), if_neg (by simp), List.dropLast_concat]

/-- C83.  A file that ends within the values of a solution raises an exception, except if exactly one value
of that solution is there (`C83_broadcast`). -/
theorem C83_truncated_partial {N : Num F} (hN : N.OK) {n : Nat} (sols : List (Sol F)) (a b : Sol F)
    (hok : ∀ c ∈ sols ++ [a], c.OK N n) (hp : (sols ++ [a]).Pairwise fun a b => a.step ≤ b.step)
    (hb : b.OK N n) (hlt : a.step < b.step) (k : Nat) (hk : k < n) (hk1 : k ≠ 1) :
    ∃ e, readResolution N n (resFile N (sols ++ [a]) ++ b.cut N k) = .error e := by
  have h1 : has "$Solution" ["$Solution", "/*", "DofData", "#0", "*/"] = true := by decide +kernel
  obtain ⟨c, l, hc⟩ := List.exists_cons_of_ne_nil (show sols ++ [a] ≠ [] by simp)
  have hlast : (c :: l).getLast (List.cons_ne_nil _ _) = a := by
    simp only [← hc, List.getLast_append_singleton]
  have hlen : (b.vals.take k).length = k := by rw [List.length_take, hb.len]; omega
  unfold readResolution
  rw [hc] at hok hp ⊢
  rw [readLoop_file hN (by omega) _ c l hok hp, hlast]
  unfold Sol.cut
  rw [readLoop, if_pos h1, List.take_of_length_le (by rw [List.length_map]; omega),
    oneSolution_cut hN _ (show 1 + (a.step : Int) < _ by omega)]
  by_cases h0 : k = 0
  · subst h0
    exact ⟨"IndexError", rfl⟩
  · rw [column_ok hN.fl (by intro e; rw [e] at hlen; simp at hlen; omega)
      (fun v hv => hb.im v (List.mem_of_mem_take hv))]
    have : assign n ((b.vals.take k).map Prod.fst) = .error "ValueError" := by
      have hl : ((b.vals.take k).map Prod.fst).length = k := by rw [List.length_map]; exact hlen
      generalize (b.vals.take k).map Prod.fst = xs at hl
      match xs, hl with
      | [], hl => exact absurd hl.symm h0
      | [x], hl => exact absurd hl.symm hk1
      | x :: y :: r, hl => exact if_neg (by omega)
    simp only [bind, Except.bind, this]
    exact ⟨_, rfl⟩

/-- C83 fails for a file that ends after the first value of a solution: the value is taken for all
unknowns. -/
theorem C83_broadcast {N : Num F} (hN : N.OK) {n : Nat} (sols : List (Sol F)) (a b : Sol F)
    (hok : ∀ c ∈ sols ++ [a], c.OK N n) (hp : (sols ++ [a]).Pairwise fun a b => a.step ≤ b.step)
    (hnan : ∀ c ∈ sols ++ [a], N.nan c.time = false ∧ ∀ v ∈ c.vals, N.nan v.1 = false)
    (v : F × String) (vs : List (F × String)) (hb : b.OK N n) (hv : b.vals = v :: vs)
    (hbn : N.nan b.time = false ∧ N.nan v.1 = false) (hlt : a.step < b.step) :
    ∃ rows, readResolution N n (resFile N (sols ++ [a]) ++ b.cut N 1) = .ok rows ∧
      rows.getLast? = some (b.time, List.replicate n v.1) := by
  have h1 : has "$Solution" ["$Solution", "/*", "DofData", "#0", "*/"] = true := by decide +kernel
  have hn : 0 < n := by rw [← hb.len, hv]; simp
  obtain ⟨c, l, hc⟩ := List.exists_cons_of_ne_nil (show sols ++ [a] ≠ [] by simp)
  have hlast : (c :: l).getLast (List.cons_ne_nil _ _) = a := by
    simp only [← hc, List.getLast_append_singleton]
  have hsub : ∀ l : List (Sol F), ∀ a ∈ finals l, a ∈ l := finals_sub
  unfold readResolution
  rw [hc] at hok hp hnan ⊢
  rw [readLoop_file hN hn _ c l hok hp, hlast]
  unfold Sol.cut
  rw [hv, readLoop, if_pos h1, List.take_of_length_le (by simp; omega),
    oneSolution_cut hN _ (show 1 + (a.step : Int) < _ by omega),
    column_ok hN.fl (by simp) (fun w hw => hb.im w (by rw [hv]; exact List.mem_of_mem_take hw))]
  simp only [List.take_succ_cons, List.take_zero, List.map_cons, List.map_nil, assign, bind, Except.bind]
  rw [List.drop_of_length_le (by simp; omega), readLoop]
  simp only
  rw [if_neg (by simp; omega), if_neg (by
    rw [Bool.not_eq_true, List.any_eq_false]
    intro r hr
    rw [Bool.not_eq_true, Bool.or_eq_false_iff]
    rcases List.mem_append.1 hr with hr | hr
    · obtain ⟨d, hd, rfl⟩ := List.mem_map.1 hr
      obtain ⟨x1, x2⟩ := hnan d (hsub _ d hd)
      refine ⟨x1, ?_⟩
      rw [List.any_eq_false]
      intro x hx
      obtain ⟨w, hw, rfl⟩ := List.mem_map.1 hx
      rw [x2 w hw]
      simp
    · rw [List.mem_singleton] at hr
      subst hr
      refine ⟨hbn.1, ?_⟩
      rw [List.any_eq_false]
      intro x hx
      rw [List.eq_of_mem_replicate hx, hbn.2]
      simp)]
  exact ⟨_, rfl, by simp⟩

/-! ## C84 -/

omit [DecidableEq F] in
theorem assign_length {n : Nat} {vals row : List F} (h : assign n vals = .ok row) : row.length = n := by
  unfold assign at h
  split at h
  · cases h; simp
  · split at h
    · next e => cases h; exact e
    · cases h

omit [DecidableEq F] in
theorem oneSolution_length {N : Num F} {n : Nat} {s s' : Rd F} {hd : Line} {vals : List Line}
    (h : oneSolution N n s hd vals = .ok s') (hs : ∀ r ∈ s.rows, r.2.length = n) :
    ∀ r ∈ s'.rows, r.2.length = n := by
  unfold oneSolution at h
  split at h
  · next a0 a1 a2 a3 _ =>
    cases e0 : N.int a0 with
    | error => simp [e0, bind, Except.bind] at h
    | ok dof =>
    cases e1 : N.fl a1 with
    | error => simp [e0, e1, bind, Except.bind] at h
    | ok time =>
    cases e2 : N.fl a2 with
    | error => simp [e0, e1, e2, bind, Except.bind] at h
    | ok _ =>
    cases e3 : N.int a3 with
    | error => simp [e0, e1, e2, e3, bind, Except.bind] at h
    | ok st =>
    simp only [e0, e1, e2, e3, bind, Except.bind] at h
    generalize hrows : (if s.old < 1 + st then s.rows ++ [(time, [])] else s.rows) = rows at h
    have hd : ∀ r ∈ rows.dropLast, r.2.length = n := by
      intro r hr
      rw [← hrows] at hr
      split at hr
      · rw [List.dropLast_concat] at hr; exact hs r hr
      · exact hs r (List.dropLast_subset _ hr)
    split at h
    · cases h
    split at h
    · cases h
    split at h
    · cases h
    split at h
    · cases h
    split at h
    · cases h
    next hrow =>
    cases h
    intro r hr
    rcases List.mem_append.1 hr with hr | hr
    · exact hd r hr
    · rw [List.mem_singleton] at hr
      subst hr
      exact assign_length hrow
  · cases h

theorem readLoop_length {N : Num F} {n : Nat} (content : List Line) (s s' : Rd F)
    (h : readLoop N n content s = .ok s') (hs : ∀ r ∈ s.rows, r.2.length = n) :
    ∀ r ∈ s'.rows, r.2.length = n := by
  rw [readLoop.eq_def] at h
  split at h
  · cases h; exact hs
  · split at h
    · split at h
      · cases h
      · simp only [bind, Except.bind] at h
        split at h
        · cases h
        · next h1 => exact readLoop_length _ _ _ h (oneSolution_length h1 hs)
    · split at h
      · split at h
        · cases h
        · split at h
          · exact readLoop_length _ _ _ h hs
          · cases h
      · exact readLoop_length _ _ _ h hs
  termination_by content.length
  decreasing_by all_goals (subst_vars; simp_all; try omega)

/-- What the reader returns: at least one row, all with `n` entries and without NaN. -/
theorem readResolution_ok {N : Num F} {n : Nat} {content : List Line} {rows : List (F × List F)}
    (h : readResolution N n content = .ok rows) :
    rows ≠ [] ∧ ∀ r ∈ rows, r.2.length = n ∧ N.nan r.1 = false ∧ ∀ x ∈ r.2, N.nan x = false := by
  unfold readResolution at h
  simp only [bind, Except.bind] at h
  split at h
  · cases h
  next s hs =>
  split at h
  · cases h
  next h1 =>
  split at h
  · cases h
  next h2 =>
  cases h
  refine ⟨fun e => h1 (Or.inr e), fun r hr => ⟨?_, ?_⟩⟩
  · exact readLoop_length _ _ _ hs (fun _ h => by cases h) r hr
  · rw [Bool.not_eq_true, List.any_eq_false] at h2
    have := h2 r hr
    rw [Bool.not_eq_true, Bool.or_eq_false_iff, List.any_eq_false] at this
    exact ⟨this.1, fun x hx => by simpa using this.2 x hx⟩

theorem mapM_length {α β : Type} {f : α → Except String β} :
    ∀ {xs : List α} {ys : List β}, xs.mapM f = .ok ys → ys.length = xs.length
  | [], ys, h => by cases h; rfl
  | x :: xs, ys, h => by
    rw [List.mapM_cons] at h
    cases h1 : f x with
    | error => simp [h1, bind, Except.bind] at h
    | ok y =>
    cases h2 : xs.mapM f with
    | error => simp [h1, h2, bind, Except.bind] at h
    | ok zs =>
    simp only [h1, h2, bind, Except.bind] at h
    cases h
    rw [List.length_cons, List.length_cons, mapM_length h2]

theorem mapM_get {α β : Type} {f : α → Except String β} :
    ∀ {xs : List α} {ys : List β}, xs.mapM f = .ok ys → ∀ (k : Nat) (x : α), xs[k]? = some x →
      ∃ y, f x = .ok y ∧ ys[k]? = some y
  | [], ys, h => by intro k x hx; simp at hx
  | x :: xs, ys, h => by
    rw [List.mapM_cons] at h
    cases h1 : f x with
    | error => simp [h1, bind, Except.bind] at h
    | ok y =>
    cases h2 : xs.mapM f with
    | error => simp [h1, h2, bind, Except.bind] at h
    | ok zs =>
    simp only [h1, h2, bind, Except.bind] at h
    cases h
    intro k z hz
    cases k with
    | zero => rw [List.getElem?_cons_zero] at hz; cases hz; exact ⟨y, h1, rfl⟩
    | succ k => rw [List.getElem?_cons_succ] at hz ⊢; exact mapM_get h2 k z hz

theorem mapM_last {α β : Type} {f : α → Except String β} {xs : List α} {ys : List β}
    (h : xs.mapM f = .ok ys) (y : β) (hy : ys.getLast? = some y) :
    ∃ x, xs.getLast? = some x ∧ f x = .ok y := by
  have hl := mapM_length h
  rw [List.getLast?_eq_getElem?] at hy ⊢
  have hlt : ys.length - 1 < ys.length := by
    by_contra hn
    rw [List.getElem?_eq_none (by omega)] at hy
    cases hy
  have hlt' : xs.length - 1 < xs.length := by omega
  obtain ⟨z, h1, h2⟩ := mapM_get h (xs.length - 1) xs[xs.length - 1] (List.getElem?_eq_getElem hlt')
  rw [hl, h2] at hy
  cases hy
  exact ⟨_, List.getElem?_eq_getElem hlt', h1⟩

/-- C84.  The result of a step depends on the start vector through its values only: joule losses, currents,
voltages and torque of the start vector have no influence. -/
theorem C84_values_only (N : Num F) (G : Solver F) (dtime : F) (u v : Machine.Vec F) (t0 t1 : F)
    (h1 : v.frontSize = u.frontSize) (h2 : v.middleSize = u.middleSize) (h3 : v.backSize = u.backSize)
    (h : v.getValues = u.getValues) : step N G dtime v t0 t1 = step N G dtime u t0 t1 := by
  unfold step
  rw [h, h1, h2, h3]

omit [DecidableEq F] in
theorem getPreresolution_ok {N : Num F} {g : Option (List Line)} {pre : List Line} {num : Int} (hg : g = some pre)
    (h : getPreresolution N pre = .ok num) :
    ∃ (pre : List Line) (d : Nat) (line : Line) (word : String), g = some pre ∧
      (∃ l, pre[d]? = some l ∧ has "$DofData" l = true) ∧ (∀ e < d, ∀ l, pre[e]? = some l → has "$DofData" l = false) ∧
      pre[d + 5]? = some line ∧ line.getLast? = some word ∧ N.int word = .ok num := by
  unfold getPreresolution at h
  split at h
  · cases h
  next d hd =>
  split at h
  · cases h
  next line hline =>
  split at h
  · next word hword =>
    rw [List.findIdx?_eq_some_iff_getElem] at hd
    obtain ⟨hlt, h1, h2⟩ := hd
    refine ⟨pre, d, line, word, hg, ⟨_, List.getElem?_eq_getElem hlt, h1⟩, ?_, hline, hword, h⟩
    intro e he l hl
    obtain ⟨hlt', rfl⟩ := List.getElem?_eq_some_iff.1 hl
    simpa using h2 e he
  · cases h

/-- C84.  If a step returns, the start vector had no NaN, and the solver was given `t_stop` and a file that
contains `t_start` and the start values; the preprocessing had reported as many unknowns as the start vector has
(last word of the fifth line after the first one with `$DofData`); the values of the result are the last row read from its answer, in
three parts of the sizes of the start vector and without NaN; the eight other quantities are the last words
of the result files. -/
theorem C84_step {N : Num F} (G : Solver F) (dtime : F) (u w : Machine.Vec F) (t0 t1 : F)
    (hu : u.Fits) (hb : 0 < u.backSize) (h : step N G dtime u t0 t1 = .ok w) :
    (∀ x ∈ u.getValues, N.nan x = false) ∧ (∀ x ∈ w.getValues, N.nan x = false) ∧
    (∃ (pre : List Line) (d : Nat) (line : Line) (word : String), G.pre t1 dtime = some pre ∧
      (∃ l, pre[d]? = some l ∧ has "$DofData" l = true) ∧ (∀ e < d, ∀ l, pre[e]? = some l → has "$DofData" l = false) ∧
      pre[d + 5]? = some line ∧ line.getLast? = some word ∧ N.int word = .ok (u.getValues.length : Int)) ∧
    w.Fits ∧ w.frontSize = u.frontSize ∧ w.middleSize = u.middleSize ∧ w.backSize = u.backSize ∧
    ∃ (res : List Line) (dats : List (List Line)) (rows : List (F × List F)) (t : F),
      G.run t1 dtime (setResolution N t0 u.getValues) = some (res, dats) ∧
      readResolution N u.getValues.length res = .ok rows ∧ rows.getLast? = some (t, w.getValues) ∧
      w.scal.length = dats.length ∧
      ∀ (k : Nat) (d : List Line), dats[k]? = some d → ∃ line word x, d.getLast? = some line ∧
        line.getLast? = some word ∧ N.fl word = .ok x ∧ w.scal[k]? = some x := by
  unfold step at h
  cases hr : runGetdp N G dtime u.getValues t0 t1 with
  | error => simp [hr, bind, Except.bind] at h
  | ok p =>
  obtain ⟨y, scal⟩ := p
  simp only [hr, bind, Except.bind] at h
  cases hl : lastOf y with
  | error => simp [hl] at h
  | ok last =>
  cases hsc : scal.mapM lastOf with
  | error => simp [hl, hsc] at h
  | ok sc =>
  simp only [hl, hsc] at h
  have hw := (Except.ok.inj h).symm
  unfold runGetdp at hr
  split at hr
  · cases hr
  split at hr
  · cases hr
  next hnan =>
  split at hr
  · cases hr
  next pre hpre =>
  cases hp : getPreresolution N pre with
  | error => simp [hp, bind, Except.bind] at hr
  | ok num =>
  simp only [hp, bind, Except.bind] at hr
  split at hr
  · cases hr
  next hnum =>
  split at hr
  · cases hr
  next res dats hrun =>
  cases hres : readResolution N u.getValues.length res with
  | error => simp [hres] at hr
  | ok rows =>
  cases hdats : dats.mapM (getValuesFrom N) with
  | error => simp [hres, hdats] at hr
  | ok vals =>
  simp only [hres, hdats] at hr
  have e := Except.ok.inj hr
  rw [Prod.mk.injEq] at e
  obtain ⟨rfl, rfl⟩ := e
  obtain ⟨-, hrows⟩ := readResolution_ok hres
  have hlast : rows.getLast? = some last := by
    unfold lastOf at hl
    split at hl
    · next e => rw [e]; cases hl; rfl
    · cases hl
  obtain ⟨hlen, -, hlnan⟩ := hrows last (List.mem_of_getLast? hlast)
  -- the parts of the result
  obtain ⟨f1, f2, f3⟩ := hu
  have hn : last.2.length = u.frontSize + u.middleSize + u.backSize := by
    rw [hlen]; unfold Machine.Vec.getValues; simp only [List.length_append]; omega
  set x : Machine.Vec F :=
    { frontSize := u.frontSize, middleSize := u.middleSize, backSize := u.backSize
      front := last.2.take u.frontSize
      middle := (last.2.drop u.frontSize).take u.middleSize
      back := last.2.drop (u.frontSize + u.middleSize), scal := sc } with hx
  have hxf : x.Fits := by
    refine ⟨?_, ?_, ?_⟩
    · simp [hx]; omega
    · simp [hx]; omega
    · simp [hx]; omega
  have hxv : x.getValues = last.2 := by
    unfold Machine.Vec.getValues
    simp only [hx]
    rw [List.append_assoc, ← List.drop_drop, List.take_append_drop, List.take_append_drop]
  have hwx : w = x := by
    rw [hw, ← hxv]
    exact Machine.C43_flatten_partial x _ hxf rfl rfl rfl hb
  rw [hwx]
  rw [not_ne_iff.1 hnum]
  refine ⟨?_, ?_, getPreresolution_ok hpre hp, hxf, rfl, rfl, rfl, res, dats, rows, last.1, hrun, hres, ?_, ?_, ?_⟩
  · intro z hz
    rw [Bool.not_eq_true, List.any_eq_false] at hnan
    simpa using hnan z hz
  · rw [hxv]; exact hlnan
  · rw [hxv]; exact hlast
  · show sc.length = dats.length
    rw [mapM_length hsc, mapM_length hdats]
  · intro k d hd
    obtain ⟨v, hv, hvals⟩ := mapM_get hdats k d hd
    obtain ⟨z, hz, hscv⟩ := mapM_get hsc k v hvals
    have hzl : v.getLast? = some z := by
      unfold lastOf at hz
      split at hz
      · next e => rw [e]; cases hz; rfl
      · cases hz
    obtain ⟨line, hline, hfl⟩ := mapM_last hv z hzl
    split at hfl
    · next word hword => exact ⟨line, word, z, hline, hword, hfl, hscv⟩
    · cases hfl

theorem mapM_congr_ok {α β : Type} {f : α → Except String β} {g : α → β} :
    ∀ {xs : List α}, (∀ x ∈ xs, f x = .ok (g x)) → xs.mapM f = .ok (xs.map g)
  | [], _ => rfl
  | x :: xs, h => by
    rw [List.mapM_cons, h x (List.mem_cons_self ..), mapM_congr_ok fun y hy => h y (List.mem_cons_of_mem _ hy)]
    rfl

/-- C84.  Conversely, if the preprocessing reports as many unknowns as the start vector has, and the solver
answers the file with `t_start` and the start values by solutions without NaN in the order of their time
steps and by result files, then the step returns the values of the last solution and the last value of each
result file. -/
theorem C84_solver {N : Num F} (hN : N.OK) (G : Solver F) (dtime : F) (u w : Machine.Vec F) (t0 t1 : F)
    (hu : u.Fits) (hb : 0 < u.backSize) (hnan : ∀ x ∈ u.getValues, N.nan x = false)
    (p r : List Line) (l0 l1 l2 l3 l4 l5 : Line) (hp : ∀ l ∈ p, has "$DofData" l = false)
    (hl0 : has "$DofData" l0 = true)
    (hpre : G.pre t1 dtime = some (p ++ l0 :: l1 :: l2 :: l3 :: l4 :: (l5 ++ [toString u.getValues.length]) :: r))
    (sols : List (Sol F)) (b : Sol F) (scals : List (List (Line × F)))
    (hrun : G.run t1 dtime (setResolution N t0 u.getValues)
      = some (resFile N (sols ++ [b]), scals.map fun xs => xs.map fun x => x.1 ++ [N.str x.2]))
    (hok : ∀ a ∈ sols ++ [b], a.OK N u.getValues.length)
    (hord : (sols ++ [b]).Pairwise fun a b => a.step ≤ b.step)
    (hsn : ∀ a ∈ sols ++ [b], N.nan a.time = false ∧ ∀ v ∈ a.vals, N.nan v.1 = false)
    (hw : w.Fits) (hw1 : w.frontSize = u.frontSize) (hw2 : w.middleSize = u.middleSize)
    (hw3 : w.backSize = u.backSize) (hwv : w.getValues = b.vals.map Prod.fst)
    (hws : scals.map (fun xs => xs.getLast?.map Prod.snd) = w.scal.map some) :
    step N G dtime u t0 t1 = .ok w := by
  have hne : u.getValues ≠ [] := by
    intro e
    have := congrArg List.length e
    unfold Machine.Vec.getValues at this
    simp only [List.length_append, List.length_nil] at this
    have := hu.2.2
    omega
  obtain ⟨rows, hrows, hlast⟩ := C83_last hN (List.length_pos_iff.2 hne) sols b hok hord hsn
  have hpr : getPreresolution N (p ++ l0 :: l1 :: l2 :: l3 :: l4 :: (l5 ++ [toString u.getValues.length]) :: r)
      = .ok (u.getValues.length : Int) := by
    have hi : (p ++ l0 :: l1 :: l2 :: l3 :: l4 :: (l5 ++ [toString u.getValues.length]) :: r).findIdx?
        (has "$DofData") = some p.length := by
      rw [List.findIdx?_append, List.findIdx?_eq_none_iff.2 hp, List.findIdx?_cons, hl0]
      simp
    unfold getPreresolution
    rw [hi]
    simp only
    rw [List.getElem?_append_right (by omega), show p.length + 5 - p.length = 5 by omega]
    simp only [List.getElem?_cons_succ, List.getElem?_cons_zero, List.getLast?_concat]
    exact hN.int _
  have hv : (scals.map fun xs => xs.map fun x => x.1 ++ [N.str x.2]).mapM (getValuesFrom N)
      = .ok (scals.map fun xs => xs.map Prod.snd) := by
    rw [List.mapM_map]
    refine mapM_congr_ok fun xs _ => ?_
    show getValuesFrom N _ = _
    unfold getValuesFrom
    rw [List.mapM_map]
    refine mapM_congr_ok fun x _ => ?_
    simp only [Function.comp, List.getLast?_concat]
    exact hN.fl _
  have hrg : runGetdp N G dtime u.getValues t0 t1 = .ok (rows, scals.map fun xs => xs.map Prod.snd) := by
    unfold runGetdp
    rw [if_neg hne, if_neg (by
      rw [Bool.not_eq_true, List.any_eq_false]
      intro x hx
      rw [hnan x hx]
      simp), hpre]
    simp only [hpr, bind, Except.bind]
    rw [if_neg (by simp), hrun]
    simp only [hrows, hv]
  have hs : (scals.map fun xs => xs.map Prod.snd).mapM lastOf = .ok w.scal := by
    rw [List.mapM_map]
    clear hrg hv hrun
    generalize w.scal = sc at hws
    induction scals generalizing sc with
    | nil => cases sc with
      | nil => rfl
      | cons => simp at hws
    | cons xs scals ih => cases sc with
      | nil => simp at hws
      | cons x sc =>
        rw [List.map_cons, List.map_cons, List.cons.injEq] at hws
        rw [List.mapM_cons, ih sc hws.2]
        have : lastOf (xs.map Prod.snd) = .ok x := by
          unfold lastOf
          rw [List.getLast?_map, hws.1]
        simp only [Function.comp, this, bind, Except.bind]
        rfl
  unfold step
  simp only [hrg, bind, Except.bind]
  have hl : lastOf rows = .ok (b.time, b.vals.map Prod.fst) := by
    unfold lastOf
    rw [hlast]
  simp only [hl, hs]
  rw [← hwv]
  exact congrArg _ (Machine.C43_flatten_partial w _ hw hw1.symm hw2.symm hw3.symm (by omega))

/-- C84: the time of the solution read is not compared with `t_stop`.  If the solver ends without error and
without a new solution, the step returns the start values as the values at `t_stop`. -/
theorem C84_time_unchecked {N : Num F} (hN : N.OK) (h0 : ∃ z, N.fl "0.0" = .ok z) (G : Solver F)
    (dtime : F) (u : Machine.Vec F) (t0 t1 : F)
    (hu : u.Fits) (hb : 0 < u.backSize) (ht : N.nan t0 = false) (hnan : ∀ x ∈ u.getValues, N.nan x = false)
    (p r : List Line) (l0 l1 l2 l3 l4 l5 : Line) (hp : ∀ l ∈ p, has "$DofData" l = false)
    (hl0 : has "$DofData" l0 = true)
    (hpre : G.pre t1 dtime = some (p ++ l0 :: l1 :: l2 :: l3 :: l4 :: (l5 ++ [toString u.getValues.length]) :: r))
    (scals : List (List (Line × F)))
    (hrun : G.run t1 dtime (setResolution N t0 u.getValues)
      = some (setResolution N t0 u.getValues, scals.map fun xs => xs.map fun x => x.1 ++ [N.str x.2]))
    (hws : scals.map (fun xs => xs.getLast?.map Prod.snd) = u.scal.map some) :
    step N G dtime u t0 t1 = .ok u := by
  have hne : u.getValues ≠ [] := by
    intro e
    have := congrArg List.length e
    unfold Machine.Vec.getValues at this
    simp only [List.length_append, List.length_nil] at this
    have := hu.2.2
    omega
  have e : setResolution N t0 u.getValues
      = resFile N ([] ++ [⟨0, t0, u.getValues.map fun x => (x, "0.0")⟩]) := by
    unfold setResolution resFile Sol.lines
    rw [if_neg hne]
    simp
    rfl
  have hrun' := hrun
  rw [show some (setResolution N t0 u.getValues, scals.map fun xs => xs.map fun x => x.1 ++ [N.str x.2])
    = some (resFile N ([] ++ [⟨0, t0, u.getValues.map fun x => (x, "0.0")⟩]),
      scals.map fun xs => xs.map fun x => x.1 ++ [N.str x.2]) from by rw [e]] at hrun'
  refine C84_solver hN G dtime u u t0 t1 hu hb hnan p r l0 l1 l2 l3 l4 l5 hp hl0 hpre []
    ⟨0, t0, u.getValues.map fun x => (x, "0.0")⟩ scals hrun' ?_ (List.pairwise_singleton ..) ?_
    hu rfl rfl rfl ?_ hws
  · intro a ha
    rw [List.nil_append, List.mem_singleton] at ha
    subst ha
    refine ⟨by simp, fun v hv => ?_⟩
    obtain ⟨x, -, rfl⟩ := List.mem_map.1 hv
    exact h0
  · intro a ha
    rw [List.nil_append, List.mem_singleton] at ha
    subst ha
    refine ⟨ht, fun v hv => ?_⟩
    obtain ⟨x, hx, rfl⟩ := List.mem_map.1 hv
    exact hnan x hx
  · rw [List.map_map, show (Prod.fst ∘ fun x : F => (x, "0.0")) = id from rfl, List.map_id]

omit [DecidableEq F] in
/-- C84.  On a uniform time grid the step size given to the solver, from the first two points, fits every
interval: `steps_per_solve` steps are one interval. -/
theorem C84_time_step [Field F] [CharZero F] (t : List F) (k : Nat) (hk : 0 < k) (d : F)
    (ht : timeStep t k = .ok d) (hd : ∀ i a b c e, t[i]? = some a → t[i + 1]? = some b → t[0]? = some c →
      t[1]? = some e → b - a = e - c) (i : Nat) (a b : F) (ha : t[i]? = some a) (hb : t[i + 1]? = some b) :
    (k : F) * d = b - a := by
  unfold timeStep at ht
  split at ht
  · next c e _ =>
    cases ht
    rw [hd i a b c e ha hb rfl rfl]
    have : (k : F) ≠ 0 := Nat.cast_ne_zero.2 (by omega)
    field_simp
  · cases ht

/-! ## Hypotheses can be met -/

/-- Natural numbers in decimal notation (other words: zero), 99 stands for NaN. -/
def exNum : Num Nat where
  fl s := match s.toNat? with
    | some k => .ok k
    | none => .ok 0
  int s := match s.toNat? with
    | some k => .ok k
    | none => .error "ValueError"
  str x := Nat.repr x
  nan x := decide (x = 99)

theorem exNum_OK : exNum.OK where
  fl x := by show (match (Nat.repr x).toNat? with | some k => _ | none => _) = _; rw [Nat.toNat?_repr]
  zero := ⟨0, by show (match (Nat.repr 0).toNat? with | some k => _ | none => _) = _; rw [Nat.toNat?_repr]⟩
  int k := by show (match (Nat.repr k).toNat? with | some k => _ | none => _) = _; rw [Nat.toNat?_repr]

theorem exNum_zero : ∃ z, exNum.fl "0.0" = .ok z := by
  cases h : "0.0".toNat? with
  | none => exact ⟨0, by show (match "0.0".toNat? with | some k => _ | none => _) = _; rw [h]⟩
  | some k => exact ⟨k, by show (match "0.0".toNat? with | some k => _ | none => _) = _; rw [h]⟩

/-- Three solutions, two of the same time step. -/
def exSols : List (Sol Nat) :=
  [⟨0, 5, [(1, "0"), (2, "0"), (3, "0")]⟩, ⟨1, 6, [(4, "0"), (5, "0"), (6, "0")]⟩,
    ⟨1, 7, [(8, "0"), (9, "0"), (10, "0")]⟩]

theorem exSols_OK : ∀ a ∈ exSols, a.OK exNum 3 := by
  intro a ha
  simp only [exSols, List.mem_cons, List.not_mem_nil, or_false] at ha
  rcases ha with rfl | rfl | rfl <;> refine ⟨rfl, fun v hv => ?_⟩ <;>
    simp only [List.mem_cons, List.not_mem_nil, or_false] at hv <;>
    rcases hv with rfl | rfl | rfl <;> exact exNum_OK.zero

theorem exSols_ord : exSols.Pairwise fun a b => a.step ≤ b.step := by
  simp [exSols]

theorem exSols_nan : ∀ a ∈ exSols, exNum.nan a.time = false ∧ ∀ v ∈ a.vals, exNum.nan v.1 = false := by
  intro a ha
  simp only [exSols, List.mem_cons, List.not_mem_nil, or_false] at ha
  rcases ha with rfl | rfl | rfl <;> refine ⟨rfl, fun v hv => ?_⟩ <;>
    simp only [List.mem_cons, List.not_mem_nil, or_false] at hv <;>
    rcases hv with rfl | rfl | rfl <;> rfl

/-- C83_read. -/
example : readResolution exNum 3 (resFile exNum exSols) = .ok [(5, [1, 2, 3]), (7, [8, 9, 10])] :=
  C83_read exNum_OK (by omega) exSols (by simp [exSols]) exSols_OK exSols_ord
    (fun a ha => exSols_nan a (finals_sub _ a ha))

/-- C83_round_trip. -/
example : readResolution exNum 4 (setResolution exNum 7 [3, 1, 4, 1]) = .ok [(7, [3, 1, 4, 1])] :=
  C83_round_trip exNum_OK exNum_zero 7 [3, 1, 4, 1] (by simp) rfl (by decide)

/-- C83_decreasing, C83_truncated_partial, C83_broadcast. -/
example (rest : List Line) :
    readResolution exNum 3 (resFile exNum exSols ++ ((⟨0, 8, []⟩ : Sol Nat).lines exNum ++ rest))
      = .error "Exception" :=
  C83_decreasing exNum_OK (by omega) (exSols.take 2) ⟨1, 7, [(8, "0"), (9, "0"), (10, "0")]⟩ ⟨0, 8, []⟩
    exSols_OK exSols_ord (by decide) rest

theorem exB_OK : (⟨2, 8, [(8, "0"), (9, "0"), (10, "0")]⟩ : Sol Nat).OK exNum 3 :=
  ⟨rfl, fun v hv => by
    simp only [List.mem_cons, List.not_mem_nil, or_false] at hv
    rcases hv with rfl | rfl | rfl <;> exact exNum_OK.zero⟩

example : ∃ e, readResolution exNum 3 (resFile exNum exSols ++
    (⟨2, 8, [(8, "0"), (9, "0"), (10, "0")]⟩ : Sol Nat).cut exNum 2) = .error e :=
  C83_truncated_partial exNum_OK (exSols.take 2) ⟨1, 7, [(8, "0"), (9, "0"), (10, "0")]⟩ _
    exSols_OK exSols_ord exB_OK (by decide) 2 (by decide) (by decide)

example : ∃ rows, readResolution exNum 3 (resFile exNum exSols ++
    (⟨2, 8, [(8, "0"), (9, "0"), (10, "0")]⟩ : Sol Nat).cut exNum 1) = .ok rows ∧
      rows.getLast? = some (8, [8, 8, 8]) :=
  C83_broadcast exNum_OK (exSols.take 2) ⟨1, 7, [(8, "0"), (9, "0"), (10, "0")]⟩ _
    exSols_OK exSols_ord exSols_nan (8, "0") [(9, "0"), (10, "0")] exB_OK rfl ⟨rfl, rfl⟩ (by decide)

/-- A solver that answers by the three solutions above. -/
def exSolver : Solver Nat where
  pre _ _ := some [["x"], ["$DofData"], [], [], [], [], ["y", toString 3]]
  run _ _ _ := some (resFile exNum exSols, [[["0", exNum.str 1], ["1", exNum.str 2]], [["1", exNum.str 5]]])

/-- C84_solver and, with it, C84_step. -/
theorem exStep : step exNum exSolver 1 ⟨1, 1, 1, [2], [3], [4], [0, 0]⟩ 5 7
    = .ok ⟨1, 1, 1, [8], [9], [10], [2, 5]⟩ :=
  C84_solver exNum_OK exSolver 1 ⟨1, 1, 1, [2], [3], [4], [0, 0]⟩ ⟨1, 1, 1, [8], [9], [10], [2, 5]⟩ 5 7
    ⟨rfl, rfl, rfl⟩ (by decide) (by decide) [["x"]] [] ["$DofData"] [] [] [] [] ["y"] (by decide +kernel)
    (by decide +kernel) rfl (exSols.take 2) ⟨1, 7, [(8, "0"), (9, "0"), (10, "0")]⟩
    [[(["0"], 1), (["1"], 2)], [(["1"], 5)]] rfl exSols_OK exSols_ord exSols_nan ⟨rfl, rfl, rfl⟩ rfl rfl rfl
    rfl rfl

example := C84_step exSolver 1 ⟨1, 1, 1, [2], [3], [4], [0, 0]⟩ _ 5 7 ⟨rfl, rfl, rfl⟩ (by decide) exStep

/-- C84_time_unchecked: a solver that leaves the file as it is. -/
example : step exNum ⟨exSolver.pre, fun _ _ f => some (f, [[["1", exNum.str 2]]])⟩ 1
    ⟨1, 1, 1, [2], [3], [4], [2]⟩ 5 7 = .ok ⟨1, 1, 1, [2], [3], [4], [2]⟩ :=
  C84_time_unchecked exNum_OK exNum_zero _ 1 ⟨1, 1, 1, [2], [3], [4], [2]⟩ 5 7
    ⟨rfl, rfl, rfl⟩ (by decide) (by decide) (by decide) [["x"]] [] ["$DofData"] [] [] [] [] ["y"]
    (by decide +kernel) (by decide +kernel) rfl [[(["1"], 2)]] rfl rfl

/-- C84_time_step. -/
example : ((2 : Nat) : ℚ) * (1 / 2) = 3 - 2 :=
  C84_time_step [1, 2, 3] 2 (by decide) (1 / 2) (by unfold timeStep; norm_num) (by
    intro i a b c e ha hb hc he
    match i with
    | 0 => simp at ha hb hc he; subst ha hb hc he; norm_num
    | 1 => simp at ha hb hc he; subst ha hb hc he; norm_num
    | i + 2 => simp at hb) 1 2 3 rfl rfl

end Pymgrit.GetDP
