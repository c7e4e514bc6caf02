import Verif.PropsMesh
import Mathlib.Data.List.Nodup

/-!
# Property C81: reading the nodes of a mesh file

Files of version 4.0 of the mesh format: a section of nodes consists of a line with numbers, and of blocks
of a line `tag dim parametric count` and `count` lines `name x y z`.
-/

namespace Pymgrit.Mesh

/-- One block of the section of nodes. -/
structure Block where
  tag : String
  dim : String
  par : String
  nodes : List (String × String × String × String)

/-- Lines of a block. -/
def Block.lines (b : Block) : List Line :=
  [b.tag, b.dim, b.par, toString b.nodes.length] :: b.nodes.map fun n => [n.1, n.2.1, n.2.2.1, n.2.2.2]

/-- A mesh file with the given blocks of nodes. -/
def mshFile (pre : List Line) (head : Line) (blocks : List Block) (post : List Line) : List Line :=
  pre ++ ["$Nodes"] :: head :: (blocks.flatMap Block.lines ++ ["$EndNodes"] :: post)

theorem lastPos_fold (key : String) : ∀ (xs : List Line) (n a : Nat), [key] ∉ xs →
    (xs.zipIdx n).foldl (fun a li => if li.1 = [key] then li.2 else a) a = a
  | [], _, _, _ => rfl
  | x :: xs, n, a, h => by
    rw [List.mem_cons, not_or] at h
    rw [List.zipIdx_cons, List.foldl_cons, if_neg (fun e => h.1 e.symm)]
    exact lastPos_fold key xs (n + 1) a h.2

theorem lastPos_eq (key : String) (pre post : List Line) (h2 : [key] ∉ post) :
    lastPos (pre ++ [key] :: post) key = pre.length := by
  unfold lastPos
  rw [List.zipIdx_append, List.foldl_append, List.zipIdx_cons, List.foldl_cons, if_pos rfl,
    lastPos_fold key _ _ _ h2, Nat.zero_add]

theorem not_mem_lines {key : String} {bs : List Block} : [key] ∉ bs.flatMap Block.lines := by
  intro h
  obtain ⟨b, -, hb⟩ := List.mem_flatMap.1 h
  unfold Block.lines at hb
  rw [List.mem_cons] at hb
  rcases hb with hb | hb
  · cases hb
  · obtain ⟨n, -, hn⟩ := List.mem_map.1 hb
    cases hn

variable {K : Type}

/-- One line of the section of nodes. -/
def readLine (float : String → Except String K) (d : List (String × (K × K))) (row : Line) :
    Except String (List (String × (K × K))) :=
  match row with
  | r0 :: r1 :: rest =>
    if r1 ≠ "0" ∧ r1 ≠ "1" ∧ r1 ≠ "2" then do
      let x ← float r1
      match rest with
      | r2 :: _ => do
        let y ← float r2
        return dictSet d r0 (x, y)
      | [] => .error "IndexError"
    else .ok d
  | _ => .ok d

/-- Does the reader keep a node whose first coordinate is written `x`? -/
def kept (x : String) : Bool := x ≠ "0" && x ≠ "1" && x ≠ "2"

theorem getNodes_mshFile (float : String → Except String K) (pre : List Line) (head : Line)
    (blocks : List Block) (post : List Line) (h1 : head ≠ ["$Nodes"])
    (h2 : ["$Nodes"] ∉ post) (h3 : ["$EndNodes"] ∉ post) :
    getNodes float (mshFile pre head blocks post) =
      (blocks.flatMap Block.lines).foldlM (readLine float) [] := by
  have e1 : lastPos (mshFile pre head blocks post) "$Nodes" = pre.length := by
    refine lastPos_eq _ _ _ ?_
    rw [List.mem_cons, List.mem_append, List.mem_cons]
    rintro (h | h | h | h)
    · exact h1 h.symm
    · exact not_mem_lines h
    · simp at h
    · exact h2 h
  have e2 : lastPos (mshFile pre head blocks post) "$EndNodes" =
      pre.length + 2 + (blocks.flatMap Block.lines).length := by
    have := lastPos_eq "$EndNodes" (pre ++ ["$Nodes"] :: head :: blocks.flatMap Block.lines) post h3
    rw [List.append_assoc] at this
    refine Eq.trans this ?_
    simp only [List.length_append, List.length_cons]
    omega
  have e3 : Machine.slice (mshFile pre head blocks post) (some (pre.length + 2 : Nat))
      (some (pre.length + 2 + (blocks.flatMap Block.lines).length : Nat)) = blocks.flatMap Block.lines := by
    unfold Machine.slice Machine.bound
    dsimp only
    rw [if_neg (by omega), if_neg (by omega), Int.toNat_natCast, Int.toNat_natCast]
    have hl : (mshFile pre head blocks post).length =
        pre.length + 2 + (blocks.flatMap Block.lines).length + 1 + post.length := by
      unfold mshFile
      simp only [List.length_append, List.length_cons]
      omega
    rw [Nat.min_eq_right (by omega), Nat.min_eq_right (by omega)]
    have : mshFile pre head blocks post =
        ((pre ++ [["$Nodes"], head]) ++ blocks.flatMap Block.lines) ++ ["$EndNodes"] :: post := by
      unfold mshFile
      simp
    rw [this]
    have e4 : (pre ++ [["$Nodes"], head]).length = pre.length + 2 := by simp
    rw [List.take_left' (by rw [List.length_append, e4]), List.drop_left' e4]
  unfold getNodes
  dsimp only
  rw [e1, e2, e3]
  rfl

theorem readNodes (float : String → Except String K) (c : String → K) :
    ∀ (ns : List (String × String × String × String)) (d : List (String × (K × K))),
    (∀ n ∈ ns, kept n.2.1 = true → float n.2.1 = .ok (c n.2.1) ∧ float n.2.2.1 = .ok (c n.2.2.1)) →
    (d.map (·.1) ++ (ns.filter fun n => kept n.2.1).map (·.1)).Nodup →
    (ns.map fun n => [n.1, n.2.1, n.2.2.1, n.2.2.2]).foldlM (readLine float) d =
      .ok (d ++ (ns.filter fun n => kept n.2.1).map fun n => (n.1, (c n.2.1, c n.2.2.1)))
  | [], d, _, _ => by simp; rfl
  | n :: ns, d, hf, hd => by
    rw [List.map_cons, List.foldlM_cons]
    rw [List.filter_cons] at hd ⊢
    have hf' : ∀ m ∈ ns, kept m.2.1 = true → float m.2.1 = .ok (c m.2.1) ∧ float m.2.2.1 = .ok (c m.2.2.1) :=
      fun m hm => hf m (List.mem_cons_of_mem _ hm)
    by_cases hk : kept n.2.1 = true
    · have hk' := hk
      unfold kept at hk'
      simp only [ne_eq, decide_not, Bool.and_eq_true, Bool.not_eq_true', decide_eq_false_iff_not] at hk'
      rw [if_pos hk, List.map_cons] at hd
      rw [if_pos hk, List.map_cons]
      obtain ⟨hx, hy⟩ := hf n List.mem_cons_self hk
      have hn : n.1 ∉ d.map (·.1) := fun hm => (List.nodup_append.1 hd).2.2 _ hm _ List.mem_cons_self rfl
      have : readLine float d [n.1, n.2.1, n.2.2.1, n.2.2.2] = .ok (d ++ [(n.1, (c n.2.1, c n.2.2.1))]) := by
        unfold readLine
        dsimp only
        rw [if_pos ⟨hk'.1.1, hk'.1.2, hk'.2⟩, hx]
        simp only [bind, Except.bind, hy, pure, Except.pure, dictSet_new _ _ _ hn]
      rw [this]
      refine (readNodes float c ns _ hf' (by simpa [List.append_assoc] using hd)).trans ?_
      rw [List.append_assoc]; rfl
    · have hk' := hk
      unfold kept at hk'
      rw [if_neg hk] at hd
      rw [if_neg hk]
      have : readLine float d [n.1, n.2.1, n.2.2.1, n.2.2.2] = .ok d := by
        unfold readLine
        dsimp only
        rw [if_neg]
        intro h
        simp [h.1, h.2.1, h.2.2] at hk'
      rw [this]
      exact readNodes float c ns _ hf' hd

theorem readBlocks (float : String → Except String K) (c : String → K) :
    ∀ (bs : List Block) (d : List (String × (K × K))),
    (∀ b ∈ bs, kept b.dim = false) →
    (∀ n ∈ bs.flatMap Block.nodes,
      kept n.2.1 = true → float n.2.1 = .ok (c n.2.1) ∧ float n.2.2.1 = .ok (c n.2.2.1)) →
    (d.map (·.1) ++ ((bs.flatMap Block.nodes).filter fun n => kept n.2.1).map (·.1)).Nodup →
    (bs.flatMap Block.lines).foldlM (readLine float) d =
      .ok (d ++ ((bs.flatMap Block.nodes).filter fun n => kept n.2.1).map fun n => (n.1, (c n.2.1, c n.2.2.1)))
  | [], d, _, _, _ => by simp; rfl
  | b :: bs, d, hb, hf, hd => by
    rw [List.flatMap_cons, List.filter_append, List.map_append] at hd
    rw [List.flatMap_cons] at hf
    rw [List.flatMap_cons, List.flatMap_cons, List.filter_append, List.foldlM_append]
    have h0 : readLine float d [b.tag, b.dim, b.par, toString b.nodes.length] = .ok d := by
      have hk := hb b List.mem_cons_self
      unfold kept at hk
      unfold readLine
      dsimp only
      rw [if_neg]
      intro h
      simp [h.1, h.2.1, h.2.2] at hk
    have h1 : b.lines.foldlM (readLine float) d = .ok (d ++ (b.nodes.filter fun n => kept n.2.1).map
        fun n => (n.1, (c n.2.1, c n.2.2.1))) := by
      unfold Block.lines
      rw [List.foldlM_cons, h0]
      refine readNodes float c b.nodes d (fun n hn => hf n (List.mem_append_left _ hn)) ?_
      rw [← List.append_assoc] at hd
      exact (List.nodup_append.1 hd).1
    rw [h1]
    refine (readBlocks float c bs _ (fun b' h => hb b' (List.mem_cons_of_mem _ h))
      (fun n hn => hf n (List.mem_append_right _ hn)) ?_).trans ?_
    · rw [List.map_append, List.map_map, List.append_assoc]
      exact hd
    · rw [List.append_assoc, List.map_append]

/-- C81.  The nodes read are those whose first coordinate is not written as `0`, `1` or `2`, in the order
of the file. -/
theorem C81_read (float : String → Except String K) (c : String → K) {pre post : List Line} {head : Line}
    {bs : List Block} (h1 : head ≠ ["$Nodes"]) (h2 : ["$Nodes"] ∉ post) (h3 : ["$EndNodes"] ∉ post)
    (hdim : ∀ b ∈ bs, b.dim = "0" ∨ b.dim = "1" ∨ b.dim = "2")
    (hf : ∀ n ∈ bs.flatMap Block.nodes, float n.2.1 = .ok (c n.2.1) ∧ float n.2.2.1 = .ok (c n.2.2.1))
    (hn : ((bs.flatMap Block.nodes).map (·.1)).Nodup) :
    getNodes float (mshFile pre head bs post) =
      .ok (((bs.flatMap Block.nodes).filter fun n => n.2.1 ≠ "0" ∧ n.2.1 ≠ "1" ∧ n.2.1 ≠ "2").map
        fun n => (n.1, (c n.2.1, c n.2.2.1))) := by
  rw [getNodes_mshFile float pre head bs post h1 h2 h3, readBlocks float c bs []
    (fun b hb => by unfold kept; rcases hdim b hb with h | h | h <;> simp [h]) (fun n hn _ => hf n hn)
    (by
      rw [List.map_nil, List.nil_append]
      exact hn.sublist (List.filter_sublist.map _)), List.nil_append]
  congr 2
  refine List.filter_congr fun n _ => ?_
  unfold kept
  by_cases h0 : n.2.1 = "0" <;> by_cases h1 : n.2.1 = "1" <;> by_cases h2 : n.2.1 = "2" <;> simp [*]

/-- **C81 (partial)**: every node of the file can be looked up with its coordinates.  Missing: nodes whose
first coordinate is written `0`, `1` or `2` (`C81_dropped`). -/
theorem C81_nodes_partial (float : String → Except String K) (c : String → K) {pre post : List Line}
    {head : Line} {bs : List Block} (h1 : head ≠ ["$Nodes"]) (h2 : ["$Nodes"] ∉ post)
    (h3 : ["$EndNodes"] ∉ post) (hdim : ∀ b ∈ bs, b.dim = "0" ∨ b.dim = "1" ∨ b.dim = "2")
    (hf : ∀ n ∈ bs.flatMap Block.nodes, float n.2.1 = .ok (c n.2.1) ∧ float n.2.2.1 = .ok (c n.2.2.1))
    (hn : ((bs.flatMap Block.nodes).map (·.1)).Nodup)
    (hx : ∀ n ∈ bs.flatMap Block.nodes, n.2.1 ≠ "0" ∧ n.2.1 ≠ "1" ∧ n.2.1 ≠ "2") :
    ∃ d, getNodes float (mshFile pre head bs post) = .ok d ∧ d.length = (bs.flatMap Block.nodes).length ∧
      ∀ n ∈ bs.flatMap Block.nodes, dictGet d n.1 = .ok (c n.2.1, c n.2.2.1) := by
  refine ⟨_, C81_read float c h1 h2 h3 hdim hf hn, ?_, fun n hm => ?_⟩
  · rw [List.length_map, List.filter_eq_self.2 fun n hm => by simpa using hx n hm]
  · rw [List.filter_eq_self.2 fun n hm => by simpa using hx n hm]
    unfold dictGet
    generalize bs.flatMap Block.nodes = ns at hn hm
    clear hf hx
    induction ns with
    | nil => cases hm
    | cons m ns ih =>
      rw [List.map_cons, List.find?_cons]
      rw [List.map_cons, List.nodup_cons] at hn
      by_cases e : m.1 = n.1
      · have : n = m := by
          rcases List.mem_cons.1 hm with h | h
          · exact h
          · exact absurd (List.mem_map.2 ⟨n, h, e.symm⟩) hn.1
        subst this
        simp
      · rw [decide_eq_false e]
        exact ih hn.2 ((List.mem_cons.1 hm).resolve_left fun h => e (by rw [h]))

/-- **C81**, nodes on an axis: a node whose first coordinate is written `0`, `1` or `2` cannot be looked
up. -/
theorem C81_dropped (float : String → Except String K) (c : String → K) {pre post : List Line}
    {head : Line} {bs : List Block} (h1 : head ≠ ["$Nodes"]) (h2 : ["$Nodes"] ∉ post)
    (h3 : ["$EndNodes"] ∉ post) (hdim : ∀ b ∈ bs, b.dim = "0" ∨ b.dim = "1" ∨ b.dim = "2")
    (hf : ∀ n ∈ bs.flatMap Block.nodes, float n.2.1 = .ok (c n.2.1) ∧ float n.2.2.1 = .ok (c n.2.2.1))
    (hn : ((bs.flatMap Block.nodes).map (·.1)).Nodup) :
    ∃ d, getNodes float (mshFile pre head bs post) = .ok d ∧
      ∀ n ∈ bs.flatMap Block.nodes, n.2.1 = "0" ∨ n.2.1 = "1" ∨ n.2.1 = "2" →
        dictGet d n.1 = .error "KeyError" := by
  refine ⟨_, C81_read float c h1 h2 h3 hdim hf hn, fun n hm hx => ?_⟩
  unfold dictGet
  have : ∀ (ns : List (String × String × String × String)), (ns.map (·.1)).Nodup → n ∈ ns →
      ((ns.filter fun n => n.2.1 ≠ "0" ∧ n.2.1 ≠ "1" ∧ n.2.1 ≠ "2").map
        fun n => (n.1, (c n.2.1, c n.2.2.1))).find? (fun e => decide (e.1 = n.1)) = none := by
    intro ns hns hmem
    rw [List.find?_eq_none]
    intro e he hc
    rw [decide_eq_true_iff] at hc
    obtain ⟨m, hm', rfl⟩ := List.mem_map.1 he
    obtain ⟨hm1, hm2⟩ := List.mem_filter.1 hm'
    have : m = n := List.inj_on_of_nodup_map hns hm1 hmem hc
    subst this
    rcases hx with h | h | h <;> simp [h] at hm2
  rw [this _ hn hm]

/-- A file with two blocks; the node `2` lies on the axis. -/
example : (getNodes exFloat (mshFile [["$MeshFormat"], ["4", "0", "8"], ["$EndMeshFormat"]] ["2", "3"]
    [⟨"1", "0", "0", [("1", "0.1", "0.2", "0")]⟩, ⟨"1", "1", "0", [("2", "0", "3", "0"), ("3", "3", "0.2", "0")]⟩]
    [["$Elements"]])).toOption = some [("1", (1/10, 2/10)), ("3", (3, 2/10))] := by decide +kernel

end Pymgrit.Mesh
