import Verif.Elements
import Std.Data.String.ToNat

/-!
# Property C133: lines and triangles of a mesh file

Files of version 4.0 of the mesh format: a section of elements consists of a line with numbers, and of blocks of a line
`tag dim type count` and `count` lines `name node node ...`.
-/

namespace Pymgrit.Mesh

/-- One block of the section of elements; the elements with the names of their nodes. -/
structure EBlock where
  tag : String
  dim : String
  typ : String
  elems : List (String × List String)

/-- Lines of a block. -/
def EBlock.lines (b : EBlock) : List Line :=
  [b.tag, b.dim, b.typ, toString b.elems.length] :: b.elems.map fun e => e.1 :: e.2

/-- A block is not empty, and its elements have the same number of nodes. -/
def EBlock.Uniform (b : EBlock) : Prop :=
  b.elems ≠ [] ∧ ∃ k, 0 < k ∧ ∀ e ∈ b.elems, e.2.length = k

/-- A file with the given blocks of elements. -/
def elemFile (pre : List Line) (head : Line) (blocks : List EBlock) (post : List Line) : List Line :=
  pre ++ ["$Elements"] :: head :: (blocks.flatMap EBlock.lines ++ ["$EndElements"] :: post)

/-- The elements with two nodes. -/
def linesOf (es : List (String × List String)) : List (String × Pair) :=
  es.filterMap fun e => match e.2 with
    | [a, b] => some (e.1, (a, b))
    | _ => none

/-- The elements with three nodes. -/
def trianglesOf (es : List (String × List String)) : List (String × Triple) :=
  es.filterMap fun e => match e.2 with
    | [a, b, c] => some (e.1, (a, b, c))
    | _ => none

theorem not_mem_elines {key : String} {bs : List EBlock} (hb : ∀ b ∈ bs, b.Uniform) : [key] ∉ bs.flatMap EBlock.lines := by
  intro h
  obtain ⟨b, hm, h⟩ := List.mem_flatMap.1 h
  unfold EBlock.lines at h
  rw [List.mem_cons] at h
  rcases h with h | h
  · cases h
  · obtain ⟨e, he, h⟩ := List.mem_map.1 h
    obtain ⟨-, k, hk, hall⟩ := hb b hm
    have := hall e he
    injection h with _ h
    rw [h] at this
    simp at this
    omega

/-- The rows of the blocks whose elements have `k` nodes. -/
def elemRows (k : Nat) (bs : List EBlock) : List Line :=
  ((bs.flatMap EBlock.elems).filter fun e => decide (e.2.length = k)).map fun e => e.1 :: e.2

theorem elemBlocks_lines (int : String → Except String Nat) (hint : ∀ n : Nat, int (toString n) = .ok n) (bs : List EBlock)
    (hb : ∀ b ∈ bs, b.Uniform) : elemBlocks int (bs.flatMap EBlock.lines) = .ok (elemRows 2 bs, elemRows 3 bs) := by
  induction bs with
  | nil => simp [elemBlocks, elemRows]
  | cons b bs ih =>
    have ih := ih fun b' h => hb b' (List.mem_cons_of_mem _ h)
    obtain ⟨hne, k, hk, hall⟩ := hb b List.mem_cons_self
    have hfil : ∀ m, b.elems.filter (fun e => decide (e.2.length = m)) = if k = m then b.elems else [] := by
      intro m
      by_cases h : k = m
      · rw [if_pos h, List.filter_eq_self]
        intro e he
        simp [hall e he, h]
      · rw [if_neg h, List.filter_eq_nil_iff]
        intro e he
        simp [hall e he, h]
    have hrow : ∀ m, elemRows m (b :: bs) = (if k = m then b.elems.map (fun e => e.1 :: e.2) else []) ++ elemRows m bs := by
      intro m
      unfold elemRows
      rw [List.flatMap_cons, List.filter_append, List.map_append, hfil]
      split <;> rfl
    rw [List.flatMap_cons, EBlock.lines, List.cons_append, elemBlocks]
    simp only [List.getLast?_cons_cons, List.getLast?_singleton]
    obtain ⟨e0, es, he⟩ := List.exists_cons_of_ne_nil hne
    have hl : (b.elems.map fun e => e.1 :: e.2).length = b.elems.length := List.length_map _
    have hh : ((b.elems.map fun e => e.1 :: e.2) ++ bs.flatMap EBlock.lines).head? = some (e0.1 :: e0.2) := by
      rw [he]; rfl
    have hk0 : e0.2.length = k := hall e0 (by rw [he]; exact List.mem_cons_self)
    simp only [hint, bind, Except.bind, hh, List.drop_left' hl, ih, List.take_left' hl, List.length_cons, hk0, hrow]
    by_cases h2 : k = 2
    · subst h2; rfl
    · by_cases h3 : k = 3
      · subst h3; rfl
      · rw [if_neg (by omega), if_neg (by omega), if_neg h2, if_neg h3]; rfl

theorem lookup_nodup {α β : Type} [DecidableEq α] {d : List (α × β)} (hd : (d.map (·.1)).Nodup) {e : α × β} (he : e ∈ d) :
    dictGet d e.1 = .ok e.2 := by
  unfold dictGet
  have : d.find? (fun x => decide (x.1 = e.1)) = some e := by
    induction d with
    | nil => cases he
    | cons x d ih =>
      rw [List.map_cons, List.nodup_cons] at hd
      rw [List.find?_cons]
      by_cases h : x.1 = e.1
      · rcases List.mem_cons.1 he with h' | h'
        · subst h'; simp
        · exact absurd (List.mem_map.2 ⟨e, h', h.symm⟩) hd.1
      · rw [decide_eq_false h]
        exact ih hd.2 ((List.mem_cons.1 he).resolve_left fun h' => h (by rw [h']))
  rw [this]

theorem lookup_none {α β : Type} [DecidableEq α] {d : List (α × β)} {a : α} (h : a ∉ d.map (·.1)) :
    dictGet d a = .error "KeyError" := by
  unfold dictGet
  have : d.find? (fun x => decide (x.1 = a)) = none := by
    rw [List.find?_eq_none]
    intro e he hc
    exact h (List.mem_map.2 ⟨e, he, by simpa using hc⟩)
  rw [this]

theorem readLines (es : List (String × List String)) : ∀ (d : List (String × Pair)) (dr : List (String × String)),
    (d.map (·.1) ++ (linesOf es).map (·.1)).Nodup →
    (dr.map (·.1) ++ (linesOf es).map fun e => e.2.1 ++ " " ++ e.2.2).Nodup →
    ((es.filter fun e => decide (e.2.length = 2)).map fun e => e.1 :: e.2).foldlM addLine (d, dr) =
      .ok (d ++ linesOf es, dr ++ (linesOf es).map fun e => (e.2.1 ++ " " ++ e.2.2, e.1)) := by
  induction es with
  | nil => intro d dr _ _; simp [linesOf]; rfl
  | cons e es ih =>
    intro d dr h1 h2
    obtain ⟨n, l⟩ := e
    by_cases hl : l.length = 2
    · obtain ⟨a, b, rfl⟩ := List.length_eq_two.1 hl
      have e1 : linesOf ((n, [a, b]) :: es) = (n, (a, b)) :: linesOf es := rfl
      rw [e1, List.map_cons] at h1 h2
      rw [List.filter_cons_of_pos (by simp), List.map_cons, List.foldlM_cons, e1]
      simp only [bind, Except.bind, addLine, addTriangle]
      have hd : n ∉ d.map (·.1) := fun hm => (List.nodup_append.1 h1).2.2 _ hm _ List.mem_cons_self rfl
      have hdr : a ++ " " ++ b ∉ dr.map (·.1) := fun hm => (List.nodup_append.1 h2).2.2 _ hm _ List.mem_cons_self rfl
      rw [dictSet_new _ _ _ hd, dictSet_new _ _ _ hdr]
      refine (ih _ _ (by simpa [List.append_assoc] using h1) (by simpa [List.append_assoc] using h2)).trans ?_
      simp [List.append_assoc]
    · have e1 : linesOf ((n, l) :: es) = linesOf es := by
        unfold linesOf
        rw [List.filterMap_cons]
        match l, hl with
        | [], _ => rfl
        | [_], _ => rfl
        | _ :: _ :: _ :: _, _ => rfl
        | [_, _], h => exact absurd rfl h
      rw [e1] at h1 h2 ⊢
      rw [List.filter_cons_of_neg (by simpa using hl)]
      exact ih d dr h1 h2

theorem readTriangles (es : List (String × List String)) : ∀ (d : List (String × Triple)) (dr : List (String × String)),
    (d.map (·.1) ++ (trianglesOf es).map (·.1)).Nodup →
    (dr.map (·.1) ++ (trianglesOf es).map fun e => e.2.1 ++ " " ++ e.2.2.1 ++ " " ++ e.2.2.2).Nodup →
    ((es.filter fun e => decide (e.2.length = 3)).map fun e => e.1 :: e.2).foldlM addTriangle (d, dr) =
      .ok (d ++ trianglesOf es, dr ++ (trianglesOf es).map fun e => (e.2.1 ++ " " ++ e.2.2.1 ++ " " ++ e.2.2.2, e.1)) := by
  induction es with
  | nil => intro d dr _ _; simp [trianglesOf]; rfl
  | cons e es ih =>
    intro d dr h1 h2
    obtain ⟨n, l⟩ := e
    by_cases hl : l.length = 3
    · obtain ⟨a, b, c, rfl⟩ := List.length_eq_three.1 hl
      have e1 : trianglesOf ((n, [a, b, c]) :: es) = (n, (a, b, c)) :: trianglesOf es := rfl
      rw [e1, List.map_cons] at h1 h2
      rw [List.filter_cons_of_pos (by simp), List.map_cons, List.foldlM_cons, e1]
      simp only [bind, Except.bind, addLine, addTriangle]
      have hd : n ∉ d.map (·.1) := fun hm => (List.nodup_append.1 h1).2.2 _ hm _ List.mem_cons_self rfl
      have hdr : a ++ " " ++ b ++ " " ++ c ∉ dr.map (·.1) := fun hm =>
        (List.nodup_append.1 h2).2.2 _ hm _ List.mem_cons_self rfl
      rw [dictSet_new _ _ _ hd, dictSet_new _ _ _ hdr]
      refine (ih _ _ (by simpa [List.append_assoc] using h1) (by simpa [List.append_assoc] using h2)).trans ?_
      simp [List.append_assoc]
    · have e1 : trianglesOf ((n, l) :: es) = trianglesOf es := by
        unfold trianglesOf
        rw [List.filterMap_cons]
        match l, hl with
        | [], _ => rfl
        | [_], _ => rfl
        | [_, _], _ => rfl
        | _ :: _ :: _ :: _ :: _, _ => rfl
        | [_, _, _], h => exact absurd rfl h
      rw [e1] at h1 h2 ⊢
      rw [List.filter_cons_of_neg (by simpa using hl)]
      exact ih d dr h1 h2

theorem elemFile_slice (pre : List Line) (head : Line) (bs : List EBlock) (post : List Line) (h1 : head ≠ ["$Elements"])
    (h2 : ["$Elements"] ∉ post) (h3 : ["$EndElements"] ∉ post) (hb : ∀ b ∈ bs, b.Uniform) :
    Machine.slice (elemFile pre head bs post) (some (lastPos (elemFile pre head bs post) "$Elements" + 2 : Nat))
      (some (lastPos (elemFile pre head bs post) "$EndElements" : Nat)) = bs.flatMap EBlock.lines := by
  have e1 : lastPos (elemFile pre head bs post) "$Elements" = pre.length := by
    refine lastPos_eq _ _ _ ?_
    rw [List.mem_cons, List.mem_append, List.mem_cons]
    rintro (h | h | h | h)
    · exact h1 h.symm
    · exact not_mem_elines hb h
    · simp at h
    · exact h2 h
  have e2 : lastPos (elemFile pre head bs post) "$EndElements" =
      pre.length + 2 + (bs.flatMap EBlock.lines).length := by
    have := lastPos_eq "$EndElements" (pre ++ ["$Elements"] :: head :: bs.flatMap EBlock.lines) post h3
    rw [List.append_assoc] at this
    refine Eq.trans this ?_
    simp only [List.length_append, List.length_cons]
    omega
  rw [e1, e2]
  unfold Machine.slice Machine.bound
  dsimp only
  rw [if_neg (by omega), if_neg (by omega), Int.toNat_natCast, Int.toNat_natCast]
  have hl : (elemFile pre head bs post).length =
      pre.length + 2 + (bs.flatMap EBlock.lines).length + 1 + post.length := by
    unfold elemFile
    simp only [List.length_append, List.length_cons]
    omega
  rw [Nat.min_eq_right (by omega), Nat.min_eq_right (by omega)]
  have : elemFile pre head bs post =
      ((pre ++ [["$Elements"], head]) ++ bs.flatMap EBlock.lines) ++ ["$EndElements"] :: post := by
    unfold elemFile
    simp
  rw [this]
  have e4 : (pre ++ [["$Elements"], head]).length = pre.length + 2 := by simp
  rw [List.take_left' (by rw [List.length_append, e4]), List.drop_left' e4]

theorem nodup_lines {es : List (String × List String)} (hn : (es.map (·.1)).Nodup) : ((linesOf es).map (·.1)).Nodup := by
  refine hn.sublist ?_
  induction es with
  | nil => exact List.Sublist.refl _
  | cons e es ih =>
    have ih := ih (List.nodup_cons.1 hn).2
    unfold linesOf
    rw [List.filterMap_cons]
    split
    · exact ih.cons _
    · rename_i b hb
      have : b.1 = e.1 := by
        split at hb
        · cases hb; rfl
        · cases hb
      rw [List.map_cons, List.map_cons, this]
      exact ih.cons_cons _

theorem nodup_triangles {es : List (String × List String)} (hn : (es.map (·.1)).Nodup) :
    ((trianglesOf es).map (·.1)).Nodup := by
  refine hn.sublist ?_
  induction es with
  | nil => exact List.Sublist.refl _
  | cons e es ih =>
    have ih := ih (List.nodup_cons.1 hn).2
    unfold trianglesOf
    rw [List.filterMap_cons]
    split
    · exact ih.cons _
    · rename_i b hb
      have : b.1 = e.1 := by
        split at hb
        · cases hb; rfl
        · cases hb
      rw [List.map_cons, List.map_cons, this]
      exact ih.cons_cons _

theorem split_inj {α : Type} {x : α} : ∀ {a a' b b' : List α}, x ∉ a → x ∉ a' → a ++ x :: b = a' ++ x :: b' → a = a' ∧ b = b'
  | [], [], _, _, _, _, e => ⟨rfl, by simpa using e⟩
  | [], y :: a', _, _, _, h, e => by
    simp only [List.nil_append, List.cons_append, List.cons.injEq] at e
    exact absurd (by rw [e.1]; exact List.mem_cons_self) h
  | y :: a, [], _, _, h, _, e => by
    simp only [List.nil_append, List.cons_append, List.cons.injEq] at e
    exact absurd (by rw [e.1]; exact List.mem_cons_self) h
  | y :: a, y' :: a', _, _, h, h', e => by
    simp only [List.cons_append, List.cons.injEq] at e
    obtain ⟨h1, h2⟩ := split_inj (fun hm => h (List.mem_cons_of_mem _ hm)) (fun hm => h' (List.mem_cons_of_mem _ hm)) e.2
    exact ⟨by rw [e.1, h1], h2⟩

/-- Texts without blanks joined by blanks determine their parts. -/
theorem join_inj {a b a' b' : String} (h : ' ' ∉ a.toList) (h' : ' ' ∉ a'.toList)
    (e : a ++ " " ++ b = a' ++ " " ++ b') : a = a' ∧ b = b' := by
  have e := congrArg String.toList e
  have es : (" " : String).toList = [' '] := rfl
  simp only [String.toList_append, es, List.append_assoc, List.singleton_append] at e
  obtain ⟨h1, h2⟩ := split_inj h h' e
  exact ⟨String.toList_inj.1 h1, String.toList_inj.1 h2⟩

theorem mem_linesOf {es : List (String × List String)} {n a b : String} :
    (n, (a, b)) ∈ linesOf es ↔ (n, [a, b]) ∈ es := by
  unfold linesOf
  rw [List.mem_filterMap]
  constructor
  · rintro ⟨⟨m, l⟩, hm, h⟩
    match l, h with
    | [x, y], h => cases h; exact hm
    | [], h => cases h
    | [_], h => cases h
    | _ :: _ :: _ :: _, h => cases h
  · exact fun h => ⟨_, h, rfl⟩

theorem mem_trianglesOf {es : List (String × List String)} {n a b c : String} :
    (n, (a, b, c)) ∈ trianglesOf es ↔ (n, [a, b, c]) ∈ es := by
  unfold trianglesOf
  rw [List.mem_filterMap]
  constructor
  · rintro ⟨⟨m, l⟩, hm, h⟩
    match l, h with
    | [x, y, z], h => cases h; exact hm
    | [], h => cases h
    | [_], h => cases h
    | [_, _], h => cases h
    | _ :: _ :: _ :: _ :: _, h => cases h
  · exact fun h => ⟨_, h, rfl⟩

/-- The elements of a file: names and node lists occur once, no word contains a blank. -/
structure Distinct (es : List (String × List String)) : Prop where
  names : (es.map (·.1)).Nodup
  nodes : (es.map (·.2)).Nodup
  words : ∀ e ∈ es, ∀ w ∈ e.2, ' ' ∉ w.toList

theorem Distinct.lineKeys {es : List (String × List String)} (h : Distinct es) :
    ((linesOf es).map fun e => e.2.1 ++ " " ++ e.2.2).Nodup := by
  have h1 := nodup_lines h.names
  rw [List.nodup_map_iff_inj_on h1.of_map]
  rintro ⟨n, a, b⟩ hx ⟨m, c, d⟩ hy e
  rw [mem_linesOf] at hx hy
  obtain ⟨rfl, rfl⟩ := join_inj (h.words _ hx a (by simp)) (h.words _ hy c (by simp)) e
  have := List.inj_on_of_nodup_map h.nodes hx hy rfl
  cases this; rfl

theorem Distinct.triangleKeys {es : List (String × List String)} (h : Distinct es) :
    ((trianglesOf es).map fun e => e.2.1 ++ " " ++ e.2.2.1 ++ " " ++ e.2.2.2).Nodup := by
  have h1 := nodup_triangles h.names
  rw [List.nodup_map_iff_inj_on h1.of_map]
  rintro ⟨n, a, b, c⟩ hx ⟨m, a', b', c'⟩ hy e
  rw [mem_trianglesOf] at hx hy
  have e' : a ++ " " ++ (b ++ " " ++ c) = a' ++ " " ++ (b' ++ " " ++ c') := by
    simpa [String.append_assoc] using e
  obtain ⟨rfl, e''⟩ := join_inj (h.words _ hx a (by simp)) (h.words _ hy a' (by simp)) e'
  obtain ⟨rfl, rfl⟩ := join_inj (h.words _ hx b (by simp)) (h.words _ hy b' (by simp)) e''
  have := List.inj_on_of_nodup_map h.nodes hx hy rfl
  cases this; rfl

/-- C133.  All lines and triangles of the file are read, with their nodes, in the order of the file; elements with other numbers
of nodes are left out.  The other two dictionaries give the name for the nodes. -/
theorem C133_read (int : String → Except String Nat) (hint : ∀ n : Nat, int (toString n) = .ok n) {pre post : List Line}
    {head : Line} {bs : List EBlock} (h1 : head ≠ ["$Elements"]) (h2 : ["$Elements"] ∉ post) (h3 : ["$EndElements"] ∉ post)
    (hb : ∀ b ∈ bs, b.Uniform) (hd : Distinct (bs.flatMap EBlock.elems)) :
    getElements int (elemFile pre head bs post) = .ok
      (linesOf (bs.flatMap EBlock.elems), trianglesOf (bs.flatMap EBlock.elems),
       (linesOf (bs.flatMap EBlock.elems)).map (fun e => (e.2.1 ++ " " ++ e.2.2, e.1)),
       (trianglesOf (bs.flatMap EBlock.elems)).map (fun e => (e.2.1 ++ " " ++ e.2.2.1 ++ " " ++ e.2.2.2, e.1))) := by
  unfold getElements
  dsimp only
  rw [elemFile_slice pre head bs post h1 h2 h3 hb, elemBlocks_lines int hint bs hb]
  have r1 := readLines (bs.flatMap EBlock.elems) [] [] (by simpa using nodup_lines hd.names)
    (by simpa using hd.lineKeys)
  have r2 := readTriangles (bs.flatMap EBlock.elems) [] [] (by simpa using nodup_triangles hd.names)
    (by simpa using hd.triangleKeys)
  rw [List.nil_append, List.nil_append] at r1 r2
  simp only [bind, Except.bind, elemRows]
  rw [r1]
  dsimp only
  rw [r2]
  rfl

/-- C133.  Every line and every triangle of the file can be looked up by its name and by its nodes. -/
theorem C133_lookup (int : String → Except String Nat) (hint : ∀ n : Nat, int (toString n) = .ok n) {pre post : List Line}
    {head : Line} {bs : List EBlock} (h1 : head ≠ ["$Elements"]) (h2 : ["$Elements"] ∉ post) (h3 : ["$EndElements"] ∉ post)
    (hb : ∀ b ∈ bs, b.Uniform) (hd : Distinct (bs.flatMap EBlock.elems)) :
    ∃ l t lr tr, getElements int (elemFile pre head bs post) = .ok (l, t, lr, tr) ∧
      (∀ n a b, (n, [a, b]) ∈ bs.flatMap EBlock.elems → dictGet l n = .ok (a, b) ∧ dictGet lr (a ++ " " ++ b) = .ok n) ∧
      ∀ n a b c, (n, [a, b, c]) ∈ bs.flatMap EBlock.elems →
        dictGet t n = .ok (a, b, c) ∧ dictGet tr (a ++ " " ++ b ++ " " ++ c) = .ok n := by
  refine ⟨_, _, _, _, C133_read int hint h1 h2 h3 hb hd, fun n a b hm => ⟨?_, ?_⟩, fun n a b c hm => ⟨?_, ?_⟩⟩
  · exact lookup_nodup (nodup_lines hd.names) (mem_linesOf.2 hm)
  · refine lookup_nodup (e := (a ++ " " ++ b, n)) ?_ (List.mem_map.2 ⟨_, mem_linesOf.2 hm, rfl⟩)
    rw [List.map_map]; exact hd.lineKeys
  · exact lookup_nodup (nodup_triangles hd.names) (mem_trianglesOf.2 hm)
  · refine lookup_nodup (e := (a ++ " " ++ b ++ " " ++ c, n)) ?_ (List.mem_map.2 ⟨_, mem_trianglesOf.2 hm, rfl⟩)
    rw [List.map_map]; exact hd.triangleKeys

/-! ### Arrays -/

theorem nodePos_ok {β : Type} {nodes : List (String × β)} {n : String} {i : Nat} (h : nodePos nodes n = .ok i) :
    ∃ x, nodes[i]? = some (n, x) := by
  unfold nodePos at h
  split at h
  · rename_i j hj
    cases h
    obtain ⟨hlt, he, -⟩ := List.findIdx?_eq_some_iff_getElem.1 hj
    refine ⟨nodes[i].2, ?_⟩
    rw [List.getElem?_eq_getElem hlt]
    have : nodes[i].1 = n := by simpa using he
    rw [← this]
  · cases h

theorem nodePos_mem {β : Type} {nodes : List (String × β)} {n : String} (h : n ∈ nodes.map (·.1)) :
    ∃ i, nodePos nodes n = .ok i := by
  unfold nodePos
  cases hf : nodes.findIdx? fun e => decide (e.1 = n) with
  | some i => exact ⟨i, rfl⟩
  | none =>
    obtain ⟨e, he, rfl⟩ := List.mem_map.1 h
    have := List.findIdx?_eq_none_iff.1 hf e he
    simp at this

theorem nodePos_error {β : Type} {nodes : List (String × β)} {n : String} (h : n ∉ nodes.map (·.1)) :
    nodePos nodes n = .error "KeyError" := by
  unfold nodePos
  cases hf : nodes.findIdx? fun e => decide (e.1 = n) with
  | none => rfl
  | some i =>
    obtain ⟨hlt, he, -⟩ := List.findIdx?_eq_some_iff_getElem.1 hf
    exact absurd (List.mem_map.2 ⟨nodes[i], List.getElem_mem _, by simpa using he⟩) h

theorem mapM_cases {α β : Type} {f : α → Except String β} {Q : α → Prop} (xs : List α)
    (h1 : ∀ x ∈ xs, Q x → ∃ y, f x = .ok y) (h2 : ∀ x ∈ xs, ¬ Q x → f x = .error "KeyError") :
    ((∀ x ∈ xs, Q x) → ∃ ys, xs.mapM f = .ok ys) ∧ (¬ (∀ x ∈ xs, Q x) → xs.mapM f = .error "KeyError") := by
  induction xs with
  | nil => exact ⟨fun _ => ⟨[], rfl⟩, fun h => absurd (by simp) h⟩
  | cons x xs ih =>
    obtain ⟨i1, i2⟩ := ih (fun y hy => h1 y (List.mem_cons_of_mem _ hy)) fun y hy => h2 y (List.mem_cons_of_mem _ hy)
    refine ⟨fun h => ?_, fun h => ?_⟩
    · obtain ⟨y, hy⟩ := h1 x List.mem_cons_self (h x List.mem_cons_self)
      obtain ⟨ys, hys⟩ := i1 fun z hz => h z (List.mem_cons_of_mem _ hz)
      exact ⟨y :: ys, by rw [List.mapM_cons, hy, hys]; rfl⟩
    · by_cases hx : Q x
      · obtain ⟨y, hy⟩ := h1 x List.mem_cons_self hx
        rw [List.mapM_cons, hy, i2 fun hc => h fun z hz => (List.mem_cons.1 hz).elim (fun e => e ▸ hx) (hc z)]
        rfl
      · rw [List.mapM_cons, h2 x List.mem_cons_self hx]
        rfl

variable {K : Type}

theorem mem_boundaryNodes {lines : List (String × Pair)} {n : String} :
    n ∈ boundaryNodes lines ↔ ∃ e ∈ lines, n = e.2.1 ∨ n = e.2.2 := by
  unfold boundaryNodes
  rw [List.mem_mergeSort, List.mem_dedup, List.mem_flatMap]
  simp

/-- C133.  If all nodes of lines and triangles have been read: the array of the boundary has the points of the nodes of lines,
each once and in the order of their names, and the array of the triangles has the positions of their nodes. -/
theorem C133_arrays {nodes : List (String × (K × K))} {lines : List (String × Pair)} {elements : List (String × Triple)}
    (hl : ∀ e ∈ lines, e.2.1 ∈ nodes.map (·.1) ∧ e.2.2 ∈ nodes.map (·.1))
    (ht : ∀ e ∈ elements, e.2.1 ∈ nodes.map (·.1) ∧ e.2.2.1 ∈ nodes.map (·.1) ∧ e.2.2.2 ∈ nodes.map (·.1)) :
    ∃ ns bou ec, elemArrays nodes lines elements = .ok (bou, ec) ∧
      ns.Nodup ∧ ns.Pairwise (· ≤ ·) ∧ (∀ n, n ∈ ns ↔ ∃ e ∈ lines, n = e.2.1 ∨ n = e.2.2) ∧
      List.Forall₂ (fun n p => dictGet nodes n = .ok p) ns bou ∧
      List.Forall₂ (fun e p => ∃ x y z, nodes[p.1]? = some (e.2.1, x) ∧ nodes[p.2.1]? = some (e.2.2.1, y) ∧
        nodes[p.2.2]? = some (e.2.2.2, z)) elements ec := by
  obtain ⟨bou, hbou⟩ := (mapM_cases (f := fun n => dictGet nodes n) (Q := fun n => n ∈ nodes.map (·.1)) (boundaryNodes lines)
    (fun n _ h => by
      by_contra hc
      obtain ⟨e, he, rfl⟩ := List.mem_map.1 h
      unfold dictGet at hc
      cases hf : nodes.find? fun x => decide (x.1 = e.1) with
      | some y => rw [hf] at hc; exact hc ⟨_, rfl⟩
      | none => simpa using List.find?_eq_none.1 hf e he)
    (fun n _ h => lookup_none h)).1 (fun n hn => by
      obtain ⟨e, he, rfl | rfl⟩ := mem_boundaryNodes.1 hn
      · exact (hl e he).1
      · exact (hl e he).2)
  obtain ⟨ec, hec⟩ := (mapM_cases (f := triPos nodes) (Q := fun _ => True) elements (fun e he _ => by
        obtain ⟨a, ha⟩ := nodePos_mem (ht e he).1
        obtain ⟨b, hb⟩ := nodePos_mem (ht e he).2.1
        obtain ⟨c, hc⟩ := nodePos_mem (ht e he).2.2
        exact ⟨(a, b, c), by simp only [triPos, ha, hb, hc, bind, Except.bind]; rfl⟩)
      fun _ _ h => absurd trivial h).1 fun _ _ => trivial
  refine ⟨boundaryNodes lines, bou, ec, by simp only [elemArrays, hbou, hec, bind, Except.bind]; rfl, ?_, ?_, fun n =>
    mem_boundaryNodes, mapM_ok hbou, (mapM_ok hec).imp fun e p hp => ?_⟩
  · exact ((List.mergeSort_perm _ _).nodup_iff).2 (List.nodup_dedup _)
  · have := List.pairwise_mergeSort (le := fun a b : String => decide (a ≤ b))
      (fun a b c h1 h2 => by
        simp only [decide_eq_true_eq] at *; exact String.le_trans h1 h2)
      (fun a b => by
        simp only [Bool.or_eq_true, decide_eq_true_eq]; exact String.le_total a b)
      ((lines.flatMap fun e => [e.2.1, e.2.2]).dedup)
    exact this.imp fun h => by simpa using h
  · unfold triPos at hp
    cases ha : nodePos nodes e.2.1 with
    | error _ => simp only [ha, bind, Except.bind] at hp; cases hp
    | ok a =>
      cases hb : nodePos nodes e.2.2.1 with
      | error _ => simp only [ha, hb, bind, Except.bind] at hp; cases hp
      | ok b =>
        cases hc : nodePos nodes e.2.2.2 with
        | error _ => simp only [ha, hb, hc, bind, Except.bind] at hp; cases hp
        | ok c =>
          simp only [ha, hb, hc, bind, Except.bind] at hp
          cases hp
          obtain ⟨x, hx⟩ := nodePos_ok ha
          obtain ⟨y, hy⟩ := nodePos_ok hb
          obtain ⟨z, hz⟩ := nodePos_ok hc
          exact ⟨x, y, z, hx, hy, hz⟩

/-- Otherwise there is a `KeyError`. -/
theorem elemArrays_error {nodes : List (String × (K × K))} {lines : List (String × Pair)} {elements : List (String × Triple)}
    (h : (∃ e ∈ lines, e.2.1 ∉ nodes.map (·.1) ∨ e.2.2 ∉ nodes.map (·.1)) ∨
      ∃ e ∈ elements, e.2.1 ∉ nodes.map (·.1) ∨ e.2.2.1 ∉ nodes.map (·.1) ∨ e.2.2.2 ∉ nodes.map (·.1)) :
    elemArrays nodes lines elements = .error "KeyError" := by
  have A := mapM_cases (f := fun n => dictGet nodes n) (Q := fun n => n ∈ nodes.map (·.1)) (boundaryNodes lines)
    (fun n _ h => by
      by_contra hc
      obtain ⟨e, he, rfl⟩ := List.mem_map.1 h
      unfold dictGet at hc
      cases hf : nodes.find? fun x => decide (x.1 = e.1) with
      | some y => rw [hf] at hc; exact hc ⟨_, rfl⟩
      | none => simpa using List.find?_eq_none.1 hf e he)
    (fun n _ h => lookup_none h)
  have B := mapM_cases (f := triPos nodes) (Q := fun e => e.2.1 ∈ nodes.map (·.1) ∧ e.2.2.1 ∈ nodes.map (·.1) ∧ e.2.2.2 ∈ nodes.map (·.1)) elements
      (fun e he hq => by
        obtain ⟨a, ha⟩ := nodePos_mem hq.1
        obtain ⟨b, hb⟩ := nodePos_mem hq.2.1
        obtain ⟨c, hc⟩ := nodePos_mem hq.2.2
        exact ⟨(a, b, c), by simp only [triPos, ha, hb, hc, bind, Except.bind]; rfl⟩)
      (fun e he hq => by
        by_cases h1 : e.2.1 ∈ nodes.map (·.1)
        · obtain ⟨a, ha⟩ := nodePos_mem h1
          by_cases h2 : e.2.2.1 ∈ nodes.map (·.1)
          · obtain ⟨b, hb⟩ := nodePos_mem h2
            have h3 : e.2.2.2 ∉ nodes.map (·.1) := fun h3 => hq ⟨h1, h2, h3⟩
            simp only [triPos, ha, hb, nodePos_error h3, bind, Except.bind]
          · simp only [triPos, ha, nodePos_error h2, bind, Except.bind]
        · simp only [triPos, nodePos_error h1, bind, Except.bind])
  unfold elemArrays
  by_cases hb : ∀ n ∈ boundaryNodes lines, n ∈ nodes.map (·.1)
  · obtain ⟨bou, hbou⟩ := A.1 hb
    have : ¬ ∀ e ∈ elements, e.2.1 ∈ nodes.map (·.1) ∧ e.2.2.1 ∈ nodes.map (·.1) ∧ e.2.2.2 ∈ nodes.map (·.1) := by
      intro hc
      rcases h with ⟨e, he, h | h⟩ | ⟨e, he, h⟩
      · exact h (hb _ (mem_boundaryNodes.2 ⟨e, he, .inl rfl⟩))
      · exact h (hb _ (mem_boundaryNodes.2 ⟨e, he, .inr rfl⟩))
      · obtain ⟨a, b, c⟩ := hc e he
        rcases h with h | h | h
        · exact h a
        · exact h b
        · exact h c
    simp only [hbou, B.2 this, bind, Except.bind]
  · simp only [A.2 hb, bind, Except.bind]

/-! ### The constructor -/

/-- A mesh file with a section of nodes and, later, a section of elements. -/
def meshFile (pre : List Line) (head : Line) (bs : List Block) (mid : List Line) (ehead : Line) (ebs : List EBlock)
    (post : List Line) : List Line :=
  mshFile pre head bs (mid ++ ["$Elements"] :: ehead :: (ebs.flatMap EBlock.lines ++ ["$EndElements"] :: post))

/-- The format: no other section with these names, dimensions of the blocks of nodes up to two, distinct names; the coordinates
are numbers. -/
structure Format (float : String → Except String K) (c : String → K) (head : Line) (bs : List Block) (mid : List Line)
    (ehead : Line) (ebs : List EBlock) (post : List Line) : Prop where
  head : head ≠ ["$Nodes"]
  mid : ["$Nodes"] ∉ mid ∧ ["$EndNodes"] ∉ mid
  ehead : ehead ≠ ["$Nodes"] ∧ ehead ≠ ["$EndNodes"] ∧ ehead ≠ ["$Elements"]
  post : ["$Nodes"] ∉ post ∧ ["$EndNodes"] ∉ post ∧ ["$Elements"] ∉ post ∧ ["$EndElements"] ∉ post
  dims : ∀ b ∈ bs, b.dim = "0" ∨ b.dim = "1" ∨ b.dim = "2"
  numbers : ∀ n ∈ bs.flatMap Block.nodes, float n.2.1 = .ok (c n.2.1) ∧ float n.2.2.1 = .ok (c n.2.2.1)
  names : ((bs.flatMap Block.nodes).map (·.1)).Nodup
  blocks : ∀ b ∈ ebs, b.Uniform
  elems : Distinct (ebs.flatMap EBlock.elems)

section
variable {float : String → Except String K} {c : String → K} {pre : List Line} {head : Line} {bs : List Block}
  {mid : List Line} {ehead : Line} {ebs : List EBlock} {post : List Line}

theorem Format.nodes_eq (h : Format float c head bs mid ehead ebs post) :
    getNodes float (meshFile pre head bs mid ehead ebs post) =
      .ok (((bs.flatMap Block.nodes).filter fun n => n.2.1 ≠ "0" ∧ n.2.1 ≠ "1" ∧ n.2.1 ≠ "2").map
        fun n => (n.1, (c n.2.1, c n.2.2.1))) := by
  refine C81_read float c h.head ?_ ?_ h.dims h.numbers h.names
  · rw [List.mem_append, List.mem_cons, List.mem_cons, List.mem_append, List.mem_cons]
    rintro (hm | hm | hm | hm | hm | hm)
    · exact h.mid.1 hm
    · simp at hm
    · exact h.ehead.1 hm.symm
    · exact not_mem_elines h.blocks hm
    · simp at hm
    · exact h.post.1 hm
  · rw [List.mem_append, List.mem_cons, List.mem_cons, List.mem_append, List.mem_cons]
    rintro (hm | hm | hm | hm | hm | hm)
    · exact h.mid.2 hm
    · simp at hm
    · exact h.ehead.2.1 hm.symm
    · exact not_mem_elines h.blocks hm
    · simp at hm
    · exact h.post.2.1 hm

theorem Format.elements_eq (h : Format float c head bs mid ehead ebs post) {int : String → Except String Nat}
    (hint : ∀ n : Nat, int (toString n) = .ok n) :
    ∃ lr tr, getElements int (meshFile pre head bs mid ehead ebs post) =
      .ok (linesOf (ebs.flatMap EBlock.elems), trianglesOf (ebs.flatMap EBlock.elems), lr, tr) := by
  have e : meshFile pre head bs mid ehead ebs post =
      elemFile (pre ++ ["$Nodes"] :: head :: (bs.flatMap Block.lines ++ ["$EndNodes"] :: mid)) ehead ebs post := by
    simp [meshFile, mshFile, elemFile, List.append_assoc]
  rw [e]
  exact ⟨_, _, C133_read int hint h.ehead.2.2 h.post.2.2.1 h.post.2.2.2 h.blocks h.elems⟩

variable [Field K] [LinearOrder K]

/-- **C133 (partial)**: if all nodes of lines and triangles are in the file, lines and triangles cause no error: the grid
information is computed from the nodes.  Missing: nodes whose first coordinate is written `0`, `1` or `2`
(`C133_key_error`). -/
theorem C133_no_error_partial (h : Format float c head bs mid ehead ebs post) {int : String → Except String Nat}
    (hint : ∀ n : Nat, int (toString n) = .ok n) (G : Geo K) (pr : List Line) (start : Nat)
    (hn : ∀ e ∈ ebs.flatMap EBlock.elems, ∀ w ∈ e.2, ∃ n ∈ bs.flatMap Block.nodes, n.1 = w ∧
      n.2.1 ≠ "0" ∧ n.2.1 ≠ "1" ∧ n.2.1 ≠ "2") :
    computeAll G float int pr (meshFile pre head bs mid ehead ebs post) start =
      (preFile pr).bind fun x => computeData G x.1 x.2.1 x.2.2
        (((bs.flatMap Block.nodes).filter fun n => n.2.1 ≠ "0" ∧ n.2.1 ≠ "1" ∧ n.2.1 ≠ "2").map
          fun n => (n.1, (c n.2.1, c n.2.2.1))) start := by
  obtain ⟨lr, tr, he⟩ := h.elements_eq (pre := pre) hint
  have hmem : ∀ e ∈ ebs.flatMap EBlock.elems, ∀ w ∈ e.2,
      w ∈ (((bs.flatMap Block.nodes).filter fun n => n.2.1 ≠ "0" ∧ n.2.1 ≠ "1" ∧ n.2.1 ≠ "2").map
          fun n => (n.1, (c n.2.1, c n.2.2.1))).map (·.1) := by
    intro e he w hw
    obtain ⟨n, hm, rfl, hx⟩ := hn e he w hw
    rw [List.map_map]
    exact List.mem_map.2 ⟨n, List.mem_filter.2 ⟨hm, by simpa using hx⟩, rfl⟩
  obtain ⟨-, bou, ec, ha, -⟩ := C133_arrays (nodes := ((bs.flatMap Block.nodes).filter fun n =>
      n.2.1 ≠ "0" ∧ n.2.1 ≠ "1" ∧ n.2.1 ≠ "2").map fun n => (n.1, (c n.2.1, c n.2.2.1)))
    (lines := linesOf (ebs.flatMap EBlock.elems)) (elements := trianglesOf (ebs.flatMap EBlock.elems))
    (fun ⟨n, a, b⟩ hm => by
      have := hmem _ (mem_linesOf.1 hm)
      exact ⟨this a (by simp), this b (by simp)⟩)
    (fun ⟨n, a, b, d⟩ hm => by
      have := hmem _ (mem_trianglesOf.1 hm)
      exact ⟨this a (by simp), this b (by simp), this d (by simp)⟩)
  unfold computeAll
  cases preFile pr with
  | error e => rfl
  | ok x =>
    simp only [bind, Except.bind]
    rw [h.nodes_eq]
    dsimp only
    rw [he]
    dsimp only
    rw [ha]

/-- C133.  A line or a triangle with a node whose first coordinate is written `0`, `1` or `2`: the node has not been read, and
the constructor ends in a `KeyError` (if the other file can be read). -/
theorem C133_key_error (h : Format float c head bs mid ehead ebs post) {int : String → Except String Nat}
    (hint : ∀ n : Nat, int (toString n) = .ok n) (G : Geo K) {pr : List Line} (hp : ∃ x, preFile pr = .ok x) (start : Nat)
    {e : String × List String} (he : e ∈ ebs.flatMap EBlock.elems) (hk : e.2.length = 2 ∨ e.2.length = 3)
    {n : String × String × String × String} (hn : n ∈ bs.flatMap Block.nodes) (hne : n.1 ∈ e.2)
    (hx : n.2.1 = "0" ∨ n.2.1 = "1" ∨ n.2.1 = "2") :
    computeAll G float int pr (meshFile pre head bs mid ehead ebs post) start = .error "KeyError" := by
  obtain ⟨lr, tr, hel⟩ := h.elements_eq (pre := pre) hint
  have hnot : n.1 ∉ (((bs.flatMap Block.nodes).filter fun n => n.2.1 ≠ "0" ∧ n.2.1 ≠ "1" ∧ n.2.1 ≠ "2").map
      fun n => (n.1, (c n.2.1, c n.2.2.1))).map (·.1) := by
    rw [List.map_map]
    intro hm
    obtain ⟨m, hm, e1⟩ := List.mem_map.1 hm
    obtain ⟨hm1, hm2⟩ := List.mem_filter.1 hm
    have : m = n := List.inj_on_of_nodup_map h.names hm1 hn e1
    subst this
    rcases hx with hx | hx | hx <;> simp [hx] at hm2
  have ha := elemArrays_error (nodes := ((bs.flatMap Block.nodes).filter fun n =>
      n.2.1 ≠ "0" ∧ n.2.1 ≠ "1" ∧ n.2.1 ≠ "2").map fun n => (n.1, (c n.2.1, c n.2.2.1)))
    (lines := linesOf (ebs.flatMap EBlock.elems)) (elements := trianglesOf (ebs.flatMap EBlock.elems)) (by
      obtain ⟨m, l⟩ := e
      rcases hk with hk | hk
      · obtain ⟨a, b, rfl⟩ := List.length_eq_two.1 hk
        refine .inl ⟨(m, (a, b)), mem_linesOf.2 he, ?_⟩
        simp only [List.mem_cons, List.not_mem_nil, or_false] at hne
        rcases hne with hne | hne
        · exact .inl (hne ▸ hnot)
        · exact .inr (hne ▸ hnot)
      · obtain ⟨a, b, d, rfl⟩ := List.length_eq_three.1 hk
        refine .inr ⟨(m, (a, b, d)), mem_trianglesOf.2 he, ?_⟩
        simp only [List.mem_cons, List.not_mem_nil, or_false] at hne
        rcases hne with hne | hne | hne
        · exact .inl (hne ▸ hnot)
        · exact .inr (.inl (hne ▸ hnot))
        · exact .inr (.inr (hne ▸ hnot)))
  obtain ⟨x, hx⟩ := hp
  unfold computeAll
  simp only [bind, Except.bind]
  rw [hx]
  dsimp only
  rw [h.nodes_eq]
  dsimp only
  rw [hel]
  dsimp only
  rw [ha]

end

variable [Field K] [LinearOrder K]

theorem computeAll_ok {G : Geo K} {float : String → Except String K} {int : String → Except String Nat} {pr msh : List Line}
    {n : Nat} {i : Info K} (h : computeAll G float int pr msh n = .ok i) :
    ∃ x nodes, preFile pr = .ok x ∧ getNodes float msh = .ok nodes ∧ computeData G x.1 x.2.1 x.2.2 nodes n = .ok i := by
  unfold computeAll at h
  simp only [bind, Except.bind] at h
  cases e1 : preFile pr with
  | error e => rw [e1] at h; cases h
  | ok x =>
    rw [e1] at h
    dsimp only at h
    cases e2 : getNodes float msh with
    | error e => rw [e2] at h; cases h
    | ok nodes =>
      rw [e2] at h
      dsimp only at h
      cases e3 : getElements int msh with
      | error e => rw [e3] at h; cases h
      | ok el =>
        rw [e3] at h
        dsimp only at h
        cases e4 : elemArrays nodes el.1 el.2.1 with
        | error e => rw [e4] at h; cases h
        | ok y =>
          rw [e4] at h
          exact ⟨x, nodes, rfl, rfl, h⟩

theorem checkVersion_ok {f : List Line} (h : checkVersion f = .ok ()) : ∃ row, f[1]? = some row ∧ row[0]? = some "4" := by
  unfold checkVersion at h
  split at h
  · cases h
  rename_i row hrow
  split at h
  · cases h
  rename_i v hv
  split at h
  · cases h
  rename_i hne
  exact ⟨row, hrow, by rw [hv, not_not.1 hne]⟩

/-- C133.  If the constructor returns, both mesh files have exactly the version `4` (not `4.1`), and it returns the transfer data
of C79, C80 and C82. -/
theorem C133_constructor {G : Geo K} {float : String → Except String K} {int : String → Except String Nat}
    {del : List (K × K) → Tri K} {preC mshC preF mshF : List Line} {d : Machine.Data K}
    (h : construct G float int del preC mshC preF mshF = .ok d) :
    transfer G float del preC mshC preF mshF = .ok d ∧
      ∀ f, f = mshC ∨ f = mshF → ∃ row, f[1]? = some row ∧ row[0]? = some "4" := by
  unfold construct at h
  simp only [bind, Except.bind] at h
  cases e1 : checkVersion mshC with
  | error e => rw [e1] at h; cases h
  | ok _ =>
    rw [e1] at h
    dsimp only at h
    cases e2 : computeAll G float int preC mshC 0 with
    | error e => rw [e2] at h; cases h
    | ok c =>
      rw [e2] at h
      dsimp only at h
      cases e3 : checkVersion mshF with
      | error e => rw [e3] at h; cases h
      | ok _ =>
        rw [e3] at h
        dsimp only at h
        cases e4 : computeAll G float int preF mshF c.nCor with
        | error e => rw [e4] at h; cases h
        | ok f =>
          rw [e4] at h
          obtain ⟨x, nodes, a1, a2, a3⟩ := computeAll_ok e2
          obtain ⟨x', nodes', b1, b2, b3⟩ := computeAll_ok e4
          refine ⟨?_, ?_⟩
          · unfold transfer
            simp only [a1, a2, a3, b1, b2, b3, bind, Except.bind]
            exact h
          · rintro g (rfl | rfl)
            · exact checkVersion_ok e1
            · exact checkVersion_ok e3

/-- The mesh file can be read, and all nodes of its lines and triangles are among the nodes read. -/
def Covered (float : String → Except String K) (int : String → Except String Nat) (msh : List Line) : Prop :=
  ∃ nodes l t lr tr, getNodes float msh = .ok nodes ∧ getElements int msh = .ok (l, t, lr, tr) ∧
    (∀ e ∈ l, e.2.1 ∈ nodes.map (·.1) ∧ e.2.2 ∈ nodes.map (·.1)) ∧
    ∀ e ∈ t, e.2.1 ∈ nodes.map (·.1) ∧ e.2.2.1 ∈ nodes.map (·.1) ∧ e.2.2.2 ∈ nodes.map (·.1)

theorem Covered.computeAll {G : Geo K} {float : String → Except String K} {int : String → Except String Nat} {msh : List Line}
    (h : Covered float int msh) (pr : List Line) (start : Nat) :
    ∃ nodes, getNodes float msh = .ok nodes ∧ computeAll G float int pr msh start =
      (preFile pr).bind fun x => computeData G x.1 x.2.1 x.2.2 nodes start := by
  obtain ⟨nodes, l, t, lr, tr, h2, h3, hl, ht⟩ := h
  obtain ⟨_, bou, ec, h4, -⟩ := C133_arrays hl ht
  refine ⟨nodes, h2, ?_⟩
  unfold Mesh.computeAll
  rw [h2, h3]
  cases preFile pr with
  | error e => rfl
  | ok x =>
    simp only [bind, Except.bind]
    rw [h4]

/-- **C133 (partial)**: for two files of version `4` whose lines and triangles use nodes that are read, the constructor does
what C79, C80 and C82 are about: it neither fails nor gives other data because of lines and triangles.  Missing: nodes with a
first coordinate written `0`, `1` or `2` (`C133_key_error`), version `4.1` (`C133_version_counterexample`). -/
theorem C133_returns_partial {float : String → Except String K} {int : String → Except String Nat} {mshC mshF : List Line}
    (hv : ∀ f, f = mshC ∨ f = mshF → (∃ row, f[1]? = some row ∧ row[0]? = some "4") ∧ Covered float int f)
    (G : Geo K) (del : List (K × K) → Tri K) (preC preF : List Line) :
    construct G float int del preC mshC preF mshF = transfer G float del preC mshC preF mshF := by
  have cv : ∀ f, f = mshC ∨ f = mshF → checkVersion f = .ok () := by
    intro f hf
    obtain ⟨⟨row, h1, h2⟩, -⟩ := hv f hf
    unfold checkVersion
    rw [h1]
    dsimp only
    rw [h2]
    simp
  obtain ⟨nC, gC, eC⟩ := (hv mshC (.inl rfl)).2.computeAll (G := G) preC 0
  unfold construct transfer
  rw [cv _ (.inl rfl), cv _ (.inr rfl), eC, gC]
  cases preFile preC with
  | error e => rfl
  | ok x =>
    simp only [bind, Except.bind]
    cases computeData G x.1 x.2.1 x.2.2 nC 0 with
    | error e => rfl
    | ok c =>
      obtain ⟨nF, gF, eF⟩ := (hv mshF (.inr rfl)).2.computeAll (G := G) preF c.nCor
      dsimp only
      rw [eF, gF]
      cases preFile preF with
      | error e => rfl
      | ok y => rfl

/-! ### Examples -/

/-- Python's `int` on texts of digits. -/
def exInt (s : String) : Except String Nat :=
  match s.toNat? with
  | some n => .ok n
  | none => .error "ValueError"

theorem exInt_ok (n : Nat) : exInt (toString n) = .ok n := by
  unfold exInt
  rw [show (toString n).toNat? = some n from Nat.toNat?_repr n]

/-- Four nodes, of which the last one lies on the axis. -/
def exNodes : List Block := [⟨"1", "2", "0",
  [("1", "0.1", "0.2", "0"), ("2", "0.3", "0.2", "0"), ("3", "0.1", "0.5", "0"), ("4", "0", "0.5", "0")]⟩]

/-- A point, two lines and a triangle; with `k = 4` the triangle uses the node on the axis. -/
def exElems (k : String) : List EBlock := [⟨"1", "0", "15", [("1", ["1"])]⟩, ⟨"1", "1", "1", [("2", ["1", "2"]), ("3", ["2", "3"])]⟩,
  ⟨"1", "2", "2", [("4", ["1", "2", k])]⟩]

theorem exElems_format (k : String) (hk : k = "3" ∨ k = "4") :
    Format (fun s => .ok (s.length : ℚ)) (fun s => (s.length : ℚ)) ["1", "4"] exNodes [["$EndOther"]] ["3", "4"] (exElems k)
      [["$Periodic"]] where
  head := by decide
  mid := by decide
  ehead := by decide
  post := by decide
  dims := by
    intro b hb
    simp only [exNodes, List.mem_singleton] at hb
    subst hb
    exact .inr (.inr rfl)
  numbers := fun _ _ => ⟨rfl, rfl⟩
  names := by decide
  blocks := by
    intro b hb
    simp only [exElems, List.mem_cons, List.not_mem_nil, or_false] at hb
    rcases hb with rfl | rfl | rfl
    · exact ⟨by simp, 1, by decide, by simp⟩
    · exact ⟨by simp, 2, by decide, by simp⟩
    · exact ⟨by simp, 3, by decide, by simp⟩
  elems := by
    rcases hk with rfl | rfl
    · exact ⟨by decide, by decide, by decide⟩
    · exact ⟨by decide, by decide, by decide⟩

/-- The hypotheses of `C133_no_error_partial`. -/
example : ∀ e ∈ (exElems "3").flatMap EBlock.elems, ∀ w ∈ e.2, ∃ n ∈ exNodes.flatMap Block.nodes, n.1 = w ∧
    n.2.1 ≠ "0" ∧ n.2.1 ≠ "1" ∧ n.2.1 ≠ "2" := by decide

/-- The hypotheses of `C133_key_error`. -/
example : ∃ e ∈ (exElems "4").flatMap EBlock.elems, (e.2.length = 2 ∨ e.2.length = 3) ∧
    ∃ n ∈ exNodes.flatMap Block.nodes, n.1 ∈ e.2 ∧ (n.2.1 = "0" ∨ n.2.1 = "1" ∨ n.2.1 = "2") := by decide

/-- A file as a whole. -/
example : (getElements exInt (meshFile [["$MeshFormat"], ["4", "0", "8"], ["$EndMeshFormat"]] ["1", "4"] exNodes [] ["3", "4"]
    (exElems "3") [])).toOption.map (fun x => (x.1, x.2.1)) =
    some ([("2", ("1", "2")), ("3", ("2", "3"))], [("4", ("1", "2", "3"))]) := by
  have e : meshFile [["$MeshFormat"], ["4", "0", "8"], ["$EndMeshFormat"]] ["1", "4"] exNodes [] ["3", "4"] (exElems "3") [] =
      elemFile ([["$MeshFormat"], ["4", "0", "8"], ["$EndMeshFormat"]] ++ ["$Nodes"] :: ["1", "4"] ::
        (exNodes.flatMap Block.lines ++ [["$EndNodes"]])) ["3", "4"] (exElems "3") [] := by
    simp [meshFile, mshFile, elemFile, List.append_assoc]
  have hf := exElems_format "3" (.inl rfl)
  rw [e, C133_read exInt exInt_ok (by decide) (by simp) (by simp) hf.blocks hf.elems]
  decide

/-- The meshes of `C80_not_constant` with version, a line and a triangle. -/
def exFull (version tri : String) (rows : List Line) : List Line :=
  [["$MeshFormat"], [version, "0", "8"], ["$EndMeshFormat"]] ++ exMsh rows ++
    [["$Elements"], ["2", "2"], ["1", "1", "1", "1"], ["1", "a", "b"], ["1", "2", "2", "1"], ["2", "a", "b", tri],
      ["$EndElements"]]

def exRowsC : List Line := [["a", "0.1", "0.2"], ["b", "0.5", "0.3"], ["c", "0.2", "0.6"],
  ["d", "3", "4"], ["e", "5", "4.5"], ["f", "4.2", "6"]]

def exRowsF : List Line := exRowsC ++ [["p", "px", "py"], ["q", "qx", "qy"],
  ["r", "rx", "ry"], ["g", "gx", "gy"], ["s", "sx", "sy"]]

theorem exFull_elements (rows : List Line) : getElements exInt (exFull "4" "c" rows) =
    .ok ([("1", ("a", "b"))], [("2", ("a", "b", "c"))], [("a b", "1")], [("a b c", "2")]) := by
  have e : exFull "4" "c" rows = elemFile ([["$MeshFormat"], ["4", "0", "8"], ["$EndMeshFormat"]] ++ exMsh rows) ["2", "2"]
      [⟨"1", "1", "1", [("1", ["a", "b"])]⟩, ⟨"1", "2", "2", [("2", ["a", "b", "c"])]⟩] [] := by
    simp [exFull, elemFile, EBlock.lines]
    decide
  rw [e, C133_read exInt exInt_ok (by decide) (by simp) (by simp)]
  · rfl
  · intro b hb
    simp only [List.mem_cons, List.not_mem_nil, or_false] at hb
    rcases hb with rfl | rfl
    · exact ⟨by simp, 2, by decide, by simp⟩
    · exact ⟨by simp, 3, by decide, by simp⟩
  · exact ⟨by decide, by decide, by decide⟩

theorem exFull_covered {rows : List Line} {nodes : List (String × (ℚ × ℚ))}
    (h : (getNodes exFloat (exFull "4" "c" rows)).toOption = some nodes)
    (hn : "a" ∈ nodes.map (·.1) ∧ "b" ∈ nodes.map (·.1) ∧ "c" ∈ nodes.map (·.1)) :
    Covered exFloat exInt (exFull "4" "c" rows) := by
  refine ⟨nodes, _, _, _, _, ?_, exFull_elements rows, ?_, ?_⟩
  · cases e : getNodes exFloat (exFull "4" "c" rows) with
    | ok d => rw [e] at h; cases h; rfl
    | error x => rw [e] at h; cases h
  · simp only [List.mem_singleton, forall_eq]
    exact ⟨hn.1, hn.2.1⟩
  · simp only [List.mem_singleton, forall_eq]
    exact hn

/-- The hypotheses of `C133_returns_partial`. -/
theorem exFull_hyp (f : List Line) (hf : f = exFull "4" "c" exRowsC ∨ f = exFull "4" "c" exRowsF) :
    (∃ row, f[1]? = some row ∧ row[0]? = some "4") ∧ Covered exFloat exInt f := by
  rcases hf with rfl | rfl
  · exact ⟨⟨["4", "0", "8"], rfl, rfl⟩, exFull_covered (nodes := [("a", (1/10, 2/10)), ("b", (5/10, 3/10)), ("c", (2/10, 6/10)),
      ("d", (3, 4)), ("e", (5, 9/2)), ("f", (21/5, 6))]) (by decide +kernel) (by decide)⟩
  · exact ⟨⟨["4", "0", "8"], rfl, rfl⟩, exFull_covered (nodes := [("a", (1/10, 2/10)), ("b", (5/10, 3/10)), ("c", (2/10, 6/10)),
      ("d", (3, 4)), ("e", (5, 9/2)), ("f", (21/5, 6)), ("p", (8/30, 11/30)), ("q", (61/15, 29/6)), ("r", (24/5, 53/10)),
      ("g", (7/10, 3/10 + 1/10^8)), ("s", (19/5, 37/8))]) (by decide +kernel) (by decide)⟩

/-- The hypothesis of `C133_constructor`: the constructor returns for files of version `4`. -/
example : ∃ d, construct exGeo exFloat exInt exDel exPreC (exFull "4" "c" exRowsC) exPreF (exFull "4" "c" exRowsF) = .ok d := by
  rw [C133_returns_partial exFull_hyp]
  have h : (transfer exGeo exFloat exDel exPreC (exFull "4" "c" exRowsC) exPreF
    (exFull "4" "c" exRowsF)).toOption.isSome = true := by decide +kernel
  cases e : transfer exGeo exFloat exDel exPreC (exFull "4" "c" exRowsC) exPreF (exFull "4" "c" exRowsF) with
  | ok d => exact ⟨d, rfl⟩
  | error x => rw [e] at h; cases h

/-- **C133, counterexample**: a file with version `4.1` is rejected. -/
theorem C133_version_counterexample (G : Geo ℚ) (float : String → Except String ℚ) (int : String → Except String Nat)
    (del : List (ℚ × ℚ) → Tri ℚ) (preC preF rowsC mshF : List Line) (tri : String) :
    construct G float int del preC (exFull "4.1" tri rowsC) preF mshF = .error "Exception" := by
  have h : checkVersion (exFull "4.1" tri rowsC) = .error "Exception" := by
    unfold exFull checkVersion
    simp
  unfold construct
  rw [h]
  rfl

/-- The other file of `C133_key_error` can be read. -/
example : ∃ x, preFile exPreC = .ok x := by
  have h : (preFile exPreC).toOption.isSome = true := by decide +kernel
  cases e : preFile exPreC with
  | ok d => exact ⟨d, rfl⟩
  | error x => rw [e] at h; cases h

end Pymgrit.Mesh
