import Verif.Shell
import Mathlib.Tactic.Linarith

/-!
# C134: the commands given to GetDP
-/

namespace Pymgrit.Shell

/-- A text that the shell takes as it is: not empty, without blanks, quotes and characters with a meaning. -/
def Plain (w : Txt) : Prop := w ≠ [] ∧ ∀ c ∈ w, c ∉ " \t'\"#|&;<>()$`\\\n*?[~=%!{}".toList

instance (w : Txt) : Decidable (Plain w) := by unfold Plain; infer_instance

/-- `c`, put in a command, stands for the words `ws`. -/
structure Chunk (c : Txt) (ws : List Txt) : Prop where
  last : lex .out none c = some ws
  more : ∀ rest, lex .out none (c ++ ' ' :: rest) = (lex .out none rest).map (ws ++ ·)

theorem lex_char {c : Char} (h : c ∉ " \t'\"#|&;<>()$`\\\n*?[~=%!{}".toList) (w : Option Txt) (cs : Txt) :
    lex .out w (c :: cs) = lex .out (some (w.getD [] ++ [c])) cs := by
  have e : " \t'\"#|&;<>()$`\\\n*?[~=%!{}".toList = [' ', '\t', '\'', '"', '#'] ++ special := by decide
  rw [e, List.mem_append, not_or] at h
  obtain ⟨h1, h2⟩ := h
  simp only [List.mem_cons, List.not_mem_nil, or_false, not_or] at h1
  rw [lex]
  simp [h1, h2]

theorem lex_word (w : Txt) (h : ∀ c ∈ w, c ∉ " \t'\"#|&;<>()$`\\\n*?[~=%!{}".toList) (v cs : Txt) :
    lex .out (some v) (w ++ cs) = lex .out (some (v ++ w)) cs := by
  induction w generalizing v with
  | nil => simp
  | cons c w ih =>
    rw [List.cons_append, lex_char (h c (by simp)), ih fun x hx => h x (List.mem_cons_of_mem _ hx)]
    simp

theorem Plain.lex {w : Txt} (h : Plain w) (cs : Txt) : lex .out none (w ++ cs) = lex .out (some w) cs := by
  obtain ⟨h1, h2⟩ := h
  cases w with
  | nil => exact absurd rfl h1
  | cons c w =>
    rw [List.cons_append, lex_char (h2 c (by simp)), lex_word w fun x hx => h2 x (List.mem_cons_of_mem _ hx)]
    simp

theorem lex_blank (w : Option Txt) (cs : Txt) : Shell.lex .out w (' ' :: cs) = (Shell.lex .out none cs).map (w.toList ++ ·) := by
  rw [Shell.lex]
  simp

/-- Inside quotes. -/
theorem lex_single (q : Txt) (hq : '\'' ∉ q) (v cs : Txt) :
    Shell.lex .single (some v) (q ++ '\'' :: cs) = Shell.lex .out (some (v ++ q)) cs := by
  induction q generalizing v with
  | nil => rw [List.nil_append, Shell.lex, if_pos rfl, List.append_nil]
  | cons c q ih =>
    simp only [List.mem_cons, not_or] at hq
    rw [List.cons_append, Shell.lex, if_neg (Ne.symm hq.1), ih hq.2]
    simp

theorem lex_double (q : Txt) (hq : ∀ c ∈ q, c ∉ ['"', '$', '`', '\\']) (v cs : Txt) :
    Shell.lex .double (some v) (q ++ '"' :: cs) = Shell.lex .out (some (v ++ q)) cs := by
  induction q generalizing v with
  | nil => rw [List.nil_append, Shell.lex, if_pos rfl, List.append_nil]
  | cons c q ih =>
    have hc := hq c (by simp)
    rw [List.mem_cons, not_or] at hc
    rw [List.cons_append, Shell.lex, if_neg hc.1, if_neg hc.2, ih fun x hx => hq x (List.mem_cons_of_mem _ hx)]
    simp

/-- C134.  Quoted text, blanks included, is part of one word together with the text before it, and stands for itself. -/
theorem C134_quotes (v q : Txt) (hv : Plain v) :
    ('\'' ∉ q → words (v ++ '\'' :: (q ++ ['\''])) = some [v ++ q]) ∧
    ((∀ c ∈ q, c ∉ ['"', '$', '`', '\\']) → words (v ++ '"' :: (q ++ ['"'])) = some [v ++ q]) := by
  refine ⟨fun hq => ?_, fun hq => ?_⟩
  · unfold words
    rw [hv.lex, Shell.lex]
    simp only [show ¬ ('\'' = ' ' ∨ '\'' = '\t') by decide, if_false, if_true]
    rw [show q ++ ['\''] = q ++ '\'' :: [] from rfl, lex_single q hq]
    rfl
  · unfold words
    rw [hv.lex, Shell.lex]
    simp only [show ¬ ('"' = ' ' ∨ '"' = '\t') by decide, show ¬ ('"' = '\'') by decide, if_false, if_true]
    rw [show q ++ ['"'] = q ++ '"' :: [] from rfl, lex_double q hq]
    rfl

example : words "dir='a b'".toList = none ∧ words "dir'a b'".toList = some ["dira b".toList] := by decide

theorem Plain.chunk {w : Txt} (h : Plain w) : Chunk w [w] where
  last := by
    have := h.lex []
    rw [List.append_nil] at this
    rw [this]
    rfl
  more := fun rest => by rw [h.lex, lex_blank]; rfl

theorem Chunk.nil : Chunk [] [] where
  last := rfl
  more := fun rest => by rw [List.nil_append, lex_blank]; rfl

theorem Chunk.blank {c d : Txt} {v w : List Txt} (hc : Chunk c v) (hd : Chunk d w) : Chunk (c ++ ' ' :: d) (v ++ w) where
  last := by rw [hc.more, hd.last]; rfl
  more := fun rest => by
    rw [List.append_assoc, List.cons_append, hc.more, hd.more, Option.map_map]
    congr 1
    funext x
    simp

theorem Chunk.join : ∀ (l : List (Txt × List Txt)), (∀ x ∈ l, Chunk x.1 x.2) → Chunk (joinBlank (l.map (·.1))) (l.flatMap (·.2))
  | [], _ => Chunk.nil
  | [x], h => by simpa [joinBlank] using h x (by simp)
  | x :: y :: l, h => by
    have ih := Chunk.join (y :: l) fun z hz => h z (List.mem_cons_of_mem _ hz)
    have := (h x (by simp)).blank ih
    simpa [joinBlank, List.intercalate, List.intersperse] using this

/-- The words of the options. -/
def optionWords (o : Txt × Val) : List Txt :=
  match o.2 with
  | .num t => ["-setnumber".toList, o.1, t]
  | .str t => ["-setstring".toList, o.1, t]

/-- Name and value of an option are plain. -/
def PlainOption (o : Txt × Val) : Prop := Plain o.1 ∧ match o.2 with
  | .num t => Plain t
  | .str t => Plain t

theorem option_chunk {o : Txt × Val} (h : PlainOption o) : ∃ c, option o = ' ' :: c ∧ Chunk c (optionWords o) := by
  obtain ⟨n, v⟩ := o
  obtain ⟨h1, h2⟩ := h
  cases v with
  | num t =>
    refine ⟨"-setnumber".toList ++ ' ' :: (n ++ ' ' :: t), by simp [option], ?_⟩
    exact ((show Plain "-setnumber".toList by decide).chunk).blank (h1.chunk.blank h2.chunk)
  | str t =>
    refine ⟨"-setstring".toList ++ ' ' :: (n ++ ' ' :: t), by simp [option], ?_⟩
    exact ((show Plain "-setstring".toList by decide).chunk).blank (h1.chunk.blank h2.chunk)

theorem funargs_chunk (os : List (Txt × Val)) (h : ∀ o ∈ os, PlainOption o) : Chunk (funargs os) (os.flatMap optionWords) := by
  induction os with
  | nil => exact Chunk.nil
  | cons o os ih =>
    obtain ⟨c, hc, hk⟩ := option_chunk (h o (by simp))
    have ih := ih fun x hx => h x (List.mem_cons_of_mem _ hx)
    cases os with
    | nil => simpa [funargs, hc] using hk
    | cons p os =>
      obtain ⟨d, hd, -⟩ := option_chunk (h p (by simp))
      have e : funargs (o :: p :: os) = c ++ ' ' :: funargs (p :: os) := by
        simp [funargs, hc, hd]
      rw [e, List.flatMap_cons]
      exact hk.blank ih

theorem pre_chunk : Chunk ("-pre \"".toList ++ "#1".toList ++ "\"".toList) ["-pre".toList, "#1".toList] where
  last := by decide
  more := fun rest => by
    have e : ("-pre \"".toList ++ "#1".toList ++ "\"".toList) ++ ' ' :: rest =
        "-pre".toList ++ ' ' :: '"' :: '#' :: '1' :: '"' :: ' ' :: rest := by simp
    rw [e, (show Plain "-pre".toList by decide).chunk.more]
    have q : Shell.lex .out none ('"' :: '#' :: '1' :: '"' :: ' ' :: rest) = Shell.lex .out (some "#1".toList) (' ' :: rest) := rfl
    rw [q, lex_blank, Option.map_map]
    rfl

theorem two_chunk {a b : Txt} (ha : Plain a) (hb : Plain b) : Chunk (a ++ ' ' :: b) [a, b] := ha.chunk.blank hb.chunk

theorem common_chunks {M : Machine} {os : List (Txt × Val)} {tmp t : Txt} (hmsh : Plain M.mshFile)
    (hname : Plain (M.tmpName tmp)) (hres : Plain (M.tmpRes tmp)) (hdir : Plain (Shell.join tmp "res".toList)) (ht : Plain t)
    (hdt : Plain M.dtime) (ho : ∀ o ∈ os, PlainOption o) :
    ∃ l : List (Txt × List Txt), (∀ x ∈ l, Chunk x.1 x.2) ∧ l.map (·.1) = M.common os tmp t ∧
      l.flatMap (·.2) = ["-msh".toList, M.mshFile, "-name".toList, M.tmpName tmp, "-res".toList, M.tmpRes tmp,
        "-setnumber".toList, "timemax".toList, t, "-setnumber".toList, "dtime".toList, M.dtime,
        "-setstring".toList, "ResDir".toList, Shell.join tmp "res".toList] ++ os.flatMap optionWords := by
  refine ⟨[("-msh".toList, ["-msh".toList]), (M.mshFile, [M.mshFile]), ("-name".toList, ["-name".toList]),
    (M.tmpName tmp, [M.tmpName tmp]), ("-res".toList, ["-res".toList]), (M.tmpRes tmp, [M.tmpRes tmp]),
    ("-setnumber timemax".toList, ["-setnumber".toList, "timemax".toList]), (t, [t]),
    ("-setnumber dtime".toList, ["-setnumber".toList, "dtime".toList]), (M.dtime, [M.dtime]),
    ("-setstring ResDir".toList, ["-setstring".toList, "ResDir".toList]),
    (Shell.join tmp "res".toList, [Shell.join tmp "res".toList]), (funargs os, os.flatMap optionWords)], ?_, rfl, by simp⟩
  simp only [List.forall_mem_cons]
  refine ⟨Plain.chunk (by decide), hmsh.chunk, Plain.chunk (by decide), hname.chunk, Plain.chunk (by decide), hres.chunk, ?_,
    ht.chunk, ?_, hdt.chunk, ?_, hdir.chunk, funargs_chunk os ho, by simp⟩
  · exact two_chunk (a := "-setnumber".toList) (b := "timemax".toList) (by decide) (by decide)
  · exact two_chunk (a := "-setnumber".toList) (b := "dtime".toList) (by decide) (by decide)
  · exact two_chunk (a := "-setstring".toList) (b := "ResDir".toList) (by decide) (by decide)

/-! ### Paths -/

theorem cutSlash_append (p : Txt) : (cutSlash p).1 ++ (cutSlash p).2 = p ∧ '/' ∉ (cutSlash p).2 := by
  induction p with
  | nil => simp [cutSlash]
  | cons c p ih =>
    rw [cutSlash]
    split
    · exact ⟨by simp [ih.1], ih.2⟩
    · rename_i h
      rw [not_or, not_not] at h
      refine ⟨by have := ih.1; rw [h.2, List.nil_append] at this; simp [this], ?_⟩
      simp only [List.mem_cons, not_or]
      exact ⟨fun e => h.1 e.symm, ih.2⟩

theorem cutSlash_none {p : Txt} (h : '/' ∉ p) : cutSlash p = ([], p) := by
  induction p with
  | nil => rfl
  | cons c p ih =>
    simp only [List.mem_cons, not_or] at h
    rw [cutSlash, ih h.2]
    simp [Ne.symm h.1]

theorem cutSlash_slash (d : Txt) {p : Txt} (h : '/' ∉ p) : cutSlash (d ++ '/' :: p) = (d ++ ['/'], p) := by
  induction d with
  | nil => rw [List.nil_append, cutSlash, cutSlash_none h]; simp
  | cons c d ih => rw [List.cons_append, cutSlash, ih]; simp

theorem split_none {p : Txt} (h : '/' ∉ p) : Shell.split p = ([], p) := by
  unfold Shell.split
  rw [cutSlash_none h]
  simp

/-- The directory of a file. -/
theorem split_slash {d p : Txt} (hd : d.getLast? ≠ some '/') (hn : d ≠ []) (h : '/' ∉ p) :
    Shell.split (d ++ '/' :: p) = (d, p) := by
  unfold Shell.split
  rw [cutSlash_slash d h]
  obtain ⟨e, c, rfl⟩ : ∃ e c, d = e ++ [c] := ⟨d.dropLast, d.getLast hn, (List.dropLast_append_getLast hn).symm⟩
  have hc : c ≠ '/' := by simpa using hd
  simp [hc]

theorem split_root {p : Txt} (h : '/' ∉ p) : Shell.split ('/' :: p) = (['/'], p) := by
  unfold Shell.split
  have := cutSlash_slash [] h
  rw [List.nil_append] at this
  rw [this]
  simp

theorem split_snd (p : Txt) : '/' ∉ (Shell.split p).2 := (cutSlash_append p).2

theorem mem_split_fst {p : Txt} {c : Char} (h : c ∈ (Shell.split p).1) : c ∈ p := by
  have e := (cutSlash_append p).1
  unfold Shell.split at h
  dsimp only at h
  have h' : c ∈ (cutSlash p).1 := by
    split at h
    · exact h
    · rw [List.mem_reverse] at h
      exact List.mem_reverse.1 ((List.dropWhile_sublist _).subset h)
  rw [← e]
  exact List.mem_append_left _ h'

theorem mem_split_snd {p : Txt} {c : Char} (h : c ∈ (Shell.split p).2) : c ∈ p := by
  rw [← (cutSlash_append p).1]
  exact List.mem_append_right _ h

theorem mem_stem {p : Txt} {c : Char} (h : c ∈ stem p) : c ∈ p := by
  unfold stem at h
  dsimp only at h
  split at h
  · exact (List.take_sublist _ _).subset h
  · exact h

theorem mem_join {a b : Txt} {c : Char} (h : c ∈ Shell.join a b) : c ∈ a ∨ c = '/' ∨ c ∈ b := by
  unfold Shell.join at h
  split at h
  · exact .inr (.inr h)
  · split at h
    · rcases List.mem_append.1 h with h | h
      · exact .inl h
      · exact .inr (.inr h)
    · rcases List.mem_append.1 h with h | h
      · exact .inl h
      · rcases List.mem_cons.1 h with h | h
        · exact .inr (.inl h)
        · exact .inr (.inr h)

theorem join_append {a b : Txt} (x : Txt) (hb : '/' ∉ b) (hx : x.head? ≠ some '/') :
    Shell.join a (b ++ x) = Shell.join a b ++ x := by
  unfold Shell.join
  have h1 : b.head? ≠ some '/' := fun h => hb (List.mem_of_mem_head? h)
  have h2 : (b ++ x).head? ≠ some '/' := by
    cases b with
    | nil => exact hx
    | cons c b => simpa using h1
  rw [if_neg h1, if_neg h2]
  split <;> simp

theorem fname_slash (M : Machine) : '/' ∉ M.fname := fun h => split_snd _ (mem_stem h)

/-- C134.  The file of the preprocessing that is read, and the solution file, are the ones GetDP uses (the given name with its
extensions). -/
theorem C134_files (M : Machine) (tmp : Txt) :
    M.tmpPre tmp = M.tmpName tmp ++ ".pre".toList ∧ M.tmpRes tmp = M.tmpName tmp ++ ".res".toList :=
  ⟨join_append _ (fname_slash M) (by decide), join_append _ (fname_slash M) (by decide)⟩

theorem stem_dot {s x : Txt} (hx : '.' ∉ x) (hs : ∃ c ∈ s, c ≠ '.') : stem (s ++ '.' :: x) = s := by
  have h : ((s ++ '.' :: x).reverse.takeWhile (· ≠ '.')).length = x.length := by
    rw [List.reverse_append, List.reverse_cons, List.append_assoc, List.takeWhile_append_of_pos]
    · simp
    · intro a ha
      rw [List.mem_reverse] at ha
      simpa using fun e : a = '.' => hx (e ▸ ha)
  have e : (s ++ '.' :: x).take ((s ++ '.' :: x).length - x.length - 1) = s := by
    have : (s ++ '.' :: x).length - x.length - 1 = s.length := by simp; omega
    rw [this]
    simp
  unfold stem
  dsimp only
  rw [h, e, if_pos]
  refine ⟨by simp, ?_⟩
  obtain ⟨c, hc, hne⟩ := hs
  simp only [List.all_eq_true, decide_eq_true_eq, not_forall]
  exact ⟨c, hc, hne⟩

/-- C134.  GetDP gets the name of the model without directory and extension, in the temporary directory. -/
theorem C134_name (M : Machine) {d s x tmp : Txt} (hM : M.path ++ M.pro = d ++ '/' :: (s ++ '.' :: x)) (hx : '.' ∉ x) (hs : ∃ c ∈ s, c ≠ '.')
    (h1 : '/' ∉ s) (h2 : '/' ∉ x) (ht : tmp ≠ []) (ht' : tmp.getLast? ≠ some '/') : M.tmpName tmp = tmp ++ '/' :: s := by
  have e : (Shell.split (d ++ '/' :: (s ++ '.' :: x))).2 = s ++ '.' :: x := by
    unfold Shell.split
    rw [cutSlash_slash d (by simp [h1, h2])]
  unfold Machine.tmpName Machine.fname Machine.proPath
  rw [hM, e, stem_dot hx hs]
  unfold Shell.join
  have h3 : s.head? ≠ some '/' := fun h => h1 (List.mem_of_mem_head? h)
  rw [if_neg h3, if_neg (by simp [ht, ht'])]

/-- **C134 (partial)**: if the path is empty or ends with one `/`, the mesh given to GetDP lies where the constructor reads the
unknowns.  Missing: paths without `/` at the end (`C134_directory_counterexample`). -/
theorem C134_directory_partial (M : Machine) (hp : M.path = [] ∨ ∃ d, M.path = d ++ ['/'] ∧ d.getLast? ≠ some '/')
    (hpro : '/' ∉ M.pro) (hg : M.grid.head? ≠ some '/') :
    M.mshFile = M.path ++ (M.grid ++ ".msh".toList) ∧ M.preFile = M.path ++ (M.grid ++ ".pre".toList) := by
  refine ⟨?_, rfl⟩
  have h2 : (M.grid ++ ".msh".toList).head? ≠ some '/' := by
    cases hM : M.grid with
    | nil => decide
    | cons c b => rw [hM] at hg; simpa using hg
  unfold Machine.mshFile Machine.proPath
  rcases hp with hp | ⟨d, hp, hd⟩
  · rw [hp, List.nil_append, split_none hpro]
    unfold Shell.join
    rw [if_neg h2]
    simp
  · rw [hp, List.append_assoc, List.singleton_append]
    by_cases hn : d = []
    · subst hn
      rw [List.nil_append, split_root hpro]
      unfold Shell.join
      rw [if_neg h2]
      simp
    · rw [split_slash hd hn hpro]
      unfold Shell.join
      rw [if_neg h2, if_neg (by simp [hn, hd])]
      simp

/-- **C134, counterexample**: with a path that ends with a part `p` of a name, `p` belongs to the name of the file with the
unknowns, but not to that of the mesh. -/
theorem C134_directory_counterexample (M : Machine) {d p : Txt} (hM : M.path = d ++ '/' :: p) (hd : d.getLast? ≠ some '/')
    (hn : d ≠ []) (hp : '/' ∉ p) (hpro : '/' ∉ M.pro) (hg : M.grid.head? ≠ some '/') :
    M.mshFile = d ++ '/' :: (M.grid ++ ".msh".toList) ∧ M.preFile = d ++ '/' :: (p ++ (M.grid ++ ".pre".toList)) := by
  have h2 : (M.grid ++ ".msh".toList).head? ≠ some '/' := by
    cases hM : M.grid with
    | nil => decide
    | cons c b => rw [hM] at hg; simpa using hg
  refine ⟨?_, by simp [Machine.preFile, hM]⟩
  unfold Machine.mshFile Machine.proPath
  rw [hM, List.append_assoc, List.cons_append, split_slash hd hn (by simp [hp, hpro])]
  unfold Shell.join
  rw [if_neg h2, if_neg (by simp [hn, hd])]

/-! ### Words -/

/-- Parameters of the constructor without blanks and characters with a meaning for the shell. -/
structure Machine.PlainPaths (M : Machine) : Prop where
  path : M.path = [] ∨ Plain M.path
  pro : Plain M.pro
  grid : Plain M.grid
  exe : Plain M.exe
  dtime : Plain M.dtime

theorem plain_slash : '/' ∉ " \t'\"#|&;<>()$`\\\n*?[~=%!{}".toList := by decide

theorem Machine.PlainPaths.chars {M : Machine} (h : M.PlainPaths) {c : Char} (hc : c ∈ M.proPath) :
    c ∉ " \t'\"#|&;<>()$`\\\n*?[~=%!{}".toList := by
  rcases List.mem_append.1 hc with hc | hc
  · rcases h.path with e | e
    · rw [e] at hc; cases hc
    · exact e.2 c hc
  · exact h.pro.2 c hc

theorem Machine.PlainPaths.proPath {M : Machine} (h : M.PlainPaths) : Plain M.proPath :=
  ⟨by unfold Machine.proPath; intro e; exact h.pro.1 (List.append_eq_nil_iff.1 e).2, fun _ hc => h.chars hc⟩

theorem join_ne_nil {a b : Txt} (hb : b ≠ []) : Shell.join a b ≠ [] := by
  unfold Shell.join
  split
  · exact hb
  · split <;> simp [hb]

theorem join_ne_nil' {a b : Txt} (ha : a ≠ []) (hb : '/' ∉ b) : Shell.join a b ≠ [] := by
  unfold Shell.join
  have h1 : b.head? ≠ some '/' := fun h => hb (List.mem_of_mem_head? h)
  rw [if_neg h1]
  split <;> simp [ha]

theorem Machine.PlainPaths.mshFile {M : Machine} (h : M.PlainPaths) : Plain M.mshFile := by
  refine ⟨join_ne_nil (by simp), fun c hc => ?_⟩
  rcases mem_join hc with hc | rfl | hc
  · exact h.chars (mem_split_fst hc)
  · exact plain_slash
  · rcases List.mem_append.1 hc with hc | hc
    · exact h.grid.2 c hc
    · exact (show ∀ c ∈ ".msh".toList, c ∉ " \t'\"#|&;<>()$`\\\n*?[~=%!{}".toList by decide) c hc

theorem Machine.PlainPaths.tmpName {M : Machine} (h : M.PlainPaths) {tmp : Txt} (ht : Plain tmp) : Plain (M.tmpName tmp) := by
  refine ⟨join_ne_nil' ht.1 (fname_slash M), fun c hc => ?_⟩
  rcases mem_join hc with hc | rfl | hc
  · exact ht.2 c hc
  · exact plain_slash
  · exact h.chars (mem_split_snd (mem_stem hc))

theorem Machine.PlainPaths.tmpRes {M : Machine} (h : M.PlainPaths) {tmp : Txt} (ht : Plain tmp) : Plain (M.tmpRes tmp) := by
  rw [(C134_files M tmp).2]
  refine ⟨by simp, fun c hc => ?_⟩
  rcases List.mem_append.1 hc with hc | hc
  · exact (h.tmpName ht).2 c hc
  · exact (show ∀ c ∈ ".res".toList, c ∉ " \t'\"#|&;<>()$`\\\n*?[~=%!{}".toList by decide) c hc

theorem plain_resdir {tmp : Txt} (ht : Plain tmp) : Plain (Shell.join tmp "res".toList) := by
  refine ⟨join_ne_nil (by decide), fun c hc => ?_⟩
  rcases mem_join hc with hc | rfl | hc
  · exact ht.2 c hc
  · exact plain_slash
  · exact (show ∀ c ∈ "res".toList, c ∉ " \t'\"#|&;<>()$`\\\n*?[~=%!{}".toList by decide) c hc

/-- **C134 (partial)**: both calls of GetDP get program, files, times and options, each as one argument and with its value, if
names and values are plain.  Missing: names with blanks and characters with a meaning for the shell
(`C134_blank_counterexample`). -/
theorem C134_words_partial {M : Machine} (h : M.PlainPaths) {os : List (Txt × Val)} (ho : ∀ o ∈ os, PlainOption o) {tmp t : Txt}
    (htmp : Plain tmp) (ht : Plain t) :
    words (M.preCommand os tmp t) = some ([M.exe, M.path ++ M.pro, "-pre".toList, "#1".toList, "-msh".toList, M.mshFile,
      "-name".toList, M.tmpName tmp, "-res".toList, M.tmpRes tmp, "-setnumber".toList, "timemax".toList, t,
      "-setnumber".toList, "dtime".toList, M.dtime, "-setstring".toList, "ResDir".toList, Shell.join tmp "res".toList] ++
        os.flatMap optionWords) ∧
    words (M.runCommand os tmp t) = some ([M.exe, M.path ++ M.pro, "-restart".toList, "-msh".toList, M.mshFile,
      "-name".toList, M.tmpName tmp, "-res".toList, M.tmpRes tmp, "-setnumber".toList, "timemax".toList, t,
      "-setnumber".toList, "dtime".toList, M.dtime, "-setstring".toList, "ResDir".toList, Shell.join tmp "res".toList] ++
        os.flatMap optionWords) := by
  obtain ⟨l, hl, e1, e2⟩ := common_chunks (M := M) (os := os) (tmp := tmp) (t := t) h.mshFile (h.tmpName htmp) (h.tmpRes htmp)
    (plain_resdir htmp) ht h.dtime ho
  have key : ∀ c ws, Chunk c ws → words (joinBlank (M.exe :: M.proPath :: c :: M.common os tmp t)) =
      some (M.exe :: M.proPath :: (ws ++ l.flatMap (·.2))) := by
    intro c ws hc
    have := (Chunk.join ((M.exe, [M.exe]) :: (M.proPath, [M.proPath]) :: (c, ws) :: l) (by
      simp only [List.forall_mem_cons]
      exact ⟨h.exe.chunk, h.proPath.chunk, hc, hl⟩)).last
    simpa [words, e1] using this
  constructor
  · have := key _ _ pre_chunk
    rw [e2] at this
    exact this
  · have := key _ _ (Plain.chunk (w := "-restart".toList) (by decide))
    rw [e2] at this
    exact this

/-- **C134 (partial)**: the options of the constructor arrive at GetDP, each once and with its value.  Missing: as above. -/
theorem C134_options_partial {M : Machine} (h : M.PlainPaths) (h1 : Plain M.analysisType) (h2 : Plain M.imposedSpeed)
    (h3 : Plain M.maxIter) (h4 : Plain M.relaxation) (h5 : Plain M.stop) (h6 : Plain M.nbTrelax) {tmp t : Txt}
    (htmp : Plain tmp) (ht : Plain t) :
    ∀ cmd, cmd = M.preCommand M.fopt tmp t ∨ cmd = M.runCommand M.fopt tmp t → ∃ front, words cmd = some (front ++
      ["-setnumber".toList, "Flag_AnalysisType".toList, M.analysisType,
       "-setnumber".toList, "Flag_NL".toList, if M.nonlinear then "1".toList else "0".toList,
       "-setnumber".toList, "Flag_ImposedSpeed".toList, M.imposedSpeed,
       "-setnumber".toList, "Nb_max_iter".toList, M.maxIter,
       "-setnumber".toList, "relaxation_factor".toList, M.relaxation,
       "-setnumber".toList, "stop_criterion".toList, M.stop,
       "-setnumber".toList, "NbTrelax".toList, M.nbTrelax,
       "-setnumber".toList, "Flag_PWM".toList, if M.pwm then "1".toList else "0".toList]) := by
  have hb : ∀ b, Plain (bit b) := by decide
  have ho : ∀ o ∈ M.fopt, PlainOption o := by
    unfold Machine.fopt
    simp only [List.forall_mem_cons]
    exact ⟨⟨(by decide : Plain "Flag_AnalysisType".toList), h1⟩,
      ⟨(by decide : Plain "Flag_NL".toList), hb _⟩,
      ⟨(by decide : Plain "Flag_ImposedSpeed".toList), h2⟩,
      ⟨(by decide : Plain "Nb_max_iter".toList), h3⟩,
      ⟨(by decide : Plain "relaxation_factor".toList), h4⟩,
      ⟨(by decide : Plain "stop_criterion".toList), h5⟩,
      ⟨(by decide : Plain "NbTrelax".toList), h6⟩,
      ⟨(by decide : Plain "Flag_PWM".toList), hb _⟩, by simp⟩
  obtain ⟨a, b⟩ := C134_words_partial h ho htmp ht
  rintro cmd (rfl | rfl)
  · exact ⟨_, a⟩
  · exact ⟨_, b⟩

/-- **C134, counterexample**: if the path of GetDP has a blank, the shell starts another program, whatever the other
parameters are. -/
theorem C134_blank_counterexample (M : Machine) {a b : Txt} (ha : Plain a) (hM : M.exe = a ++ ' ' :: b)
    (os : List (Txt × Val)) (tmp t : Txt) : ∀ cmd, cmd = M.preCommand os tmp t ∨ cmd = M.runCommand os tmp t →
    ∀ ws, words cmd = some ws → ws.head? = some a ∧ a ≠ M.exe := by
  have key : ∀ c l ws, words (joinBlank (M.exe :: c :: l)) = some ws → ws.head? = some a ∧ a ≠ M.exe := by
    intro c l ws h
    refine ⟨?_, by rw [hM]; simp⟩
    have e : ∃ r, joinBlank (M.exe :: c :: l) = a ++ ' ' :: r := ⟨b ++ ' ' :: joinBlank (c :: l), by
      simp [joinBlank, List.intercalate, List.intersperse, hM]⟩
    obtain ⟨r, e⟩ := e
    rw [e, words, ha.chunk.more] at h
    cases hr : lex .out none r with
    | none => rw [hr] at h; cases h
    | some v => rw [hr] at h; cases h; rfl
  rintro cmd (rfl | rfl) ws h
  · exact key _ _ _ h
  · exact key _ _ _ h

/-! ### Examples -/

/-- A machine as in the examples of the package. -/
def exMachine (path exe : String) : Machine :=
  { path := path.toList, pro := "im_3kW.pro".toList, grid := "im_3kW_4k".toList, exe := exe.toList,
    analysisType := "1".toList, nonlinear := true, imposedSpeed := "1".toList, maxIter := "60".toList,
    relaxation := "0.5".toList, stop := "1e-06".toList, nbTrelax := "2".toList, pwm := false, dtime := "0.001".toList }

/-- The hypotheses of `C134_words_partial` and `C134_options_partial`. -/
theorem exMachine_plain : (exMachine "/opt/im_3kW/" "/opt/getdp").PlainPaths :=
  ⟨.inr (by decide), by decide, by decide, by decide, by decide⟩

example : Plain "/tmp/tmpab12".toList ∧ Plain "0.25".toList ∧ ∀ x ∈ ["1", "60", "0.5", "1e-06", "2"], Plain x.toList := by decide

/-- Mesh and name in the example. -/
example : (exMachine "/opt/im_3kW/" "/opt/getdp").mshFile = "/opt/im_3kW/im_3kW_4k.msh".toList ∧
    (exMachine "/opt/im_3kW/" "/opt/getdp").tmpName "/tmp/t".toList = "/tmp/t/im_3kW".toList := by decide

/-- The hypotheses of `C134_name`. -/
example : (exMachine "/opt/im_3kW/" "/opt/getdp").path ++ (exMachine "/opt/im_3kW/" "/opt/getdp").pro =
    "/opt/im_3kW".toList ++ '/' :: ("im_3kW".toList ++ '.' :: "pro".toList) ∧ ∃ c ∈ "im_3kW".toList, c ≠ '.' := by decide

/-- The hypotheses of `C134_directory_partial`. -/
example : ∃ d, (exMachine "/opt/im_3kW/" "/opt/getdp").path = d ++ ['/'] ∧ d.getLast? ≠ some '/' :=
  ⟨"/opt/im_3kW".toList, by decide, by decide⟩

/-- The hypotheses of `C134_directory_counterexample`: a path without the last slash. -/
example : (exMachine "/opt/im_3kW" "/opt/getdp").path = "/opt".toList ++ '/' :: "im_3kW".toList := by decide

/-- The hypotheses of `C134_blank_counterexample`, with a command that the shell accepts. -/
example : (exMachine "" "/my tools/getdp").exe = "/my".toList ++ ' ' :: "tools/getdp".toList ∧
    (words ((exMachine "" "/my tools/getdp").runCommand (exMachine "" "").fopt "/tmp/t".toList "0.25".toList)).map (·.take 3) =
      some ["/my".toList, "tools/getdp".toList, "im_3kW.pro".toList] := by decide +kernel

/-- The quotation marks of `-pre` are needed: without them the rest is a comment. -/
example : words "getdp -pre #1 -msh x".toList = some ["getdp".toList, "-pre".toList] := by decide

end Pymgrit.Shell
