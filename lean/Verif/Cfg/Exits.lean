/-
C55: the lists of exit blocks that a block list keeps (src/parser/cfg_block_list.py:24-27, 61-66, 86-92) stay exact when blocks
are split, merged and removed. The liveness analysis starts from the first list, calls and inlining depend on the second.
-/
import Verif.Cfg.Combine
import Verif.Cfg.Remove
namespace Grey.Cfg
open List

/-- The lists of exit blocks are right: `terminal_blocks` lists every block that ends the program or returns, once, and nothing
else, `function_return_blocks` every block that returns. -/
structure ExactExits (G : BlockList) : Prop where
  terminals : ∀ x, x ∈ G.terminals ↔ ∃ b, G.get x = some b ∧ (b.jumpType = "FunctionReturn" ∨ b.jumpType = "mainExit" ∨ b.jumpType = "terminal")
  returns : ∀ x, x ∈ G.returns ↔ ∃ b, G.get x = some b ∧ b.jumpType = "FunctionReturn"
  once : G.terminals.Nodup ∧ G.returns.Nodup

/-- `H` has the same blocks with the same types as `G`, and the same lists. -/
structure SameTypes (G H : BlockList) : Prop where
  lists : H.terminals = G.terminals ∧ H.returns = G.returns
  types : ∀ x, (H.get x).map (·.jumpType) = (G.get x).map (·.jumpType)

theorem SameTypes.refl (G : BlockList) : SameTypes G G := ⟨⟨rfl, rfl⟩, fun _ => rfl⟩

theorem SameTypes.trans {G H K : BlockList} (h : SameTypes G H) (h' : SameTypes H K) : SameTypes G K :=
  ⟨⟨h'.lists.1.trans h.lists.1, h'.lists.2.trans h.lists.2⟩, fun x => (h'.types x).trans (h.types x)⟩

theorem SameTypes.exits {G H : BlockList} (h : SameTypes G H) (hG : ExactExits G) : ExactExits H := by
  have key : ∀ x (p : String → Prop), (∃ b, H.get x = some b ∧ p b.jumpType) ↔ ∃ b, G.get x = some b ∧ p b.jumpType := by
    intro x p
    have := h.types x
    cases hg : G.get x <;> cases hh : H.get x <;> rw [hg, hh] at this <;> simp at this
    simp [this]
  refine ⟨fun x => ?_, fun x => ?_, ?_⟩
  · rw [h.lists.1, hG.terminals, key x (fun t => t = "FunctionReturn" ∨ t = "mainExit" ∨ t = "terminal")]
  · rw [h.lists.2, hG.returns, key x (fun t => t = "FunctionReturn")]
  · rw [h.lists.1, h.lists.2]; exact hG.once

theorem sameTypes_modify {G : BlockList} {b : String} {f : Block → Block} (hid : ∀ y, (f y).id = y.id)
    (ht : ∀ y, (f y).jumpType = y.jumpType) : SameTypes G (G.modify b f) := by
  refine ⟨⟨rfl, rfl⟩, fun x => ?_⟩
  rw [get_modify hid]
  cases G.get x with
  | none => rfl
  | some y =>
    simp only [Option.map_some, Option.some.injEq]
    split
    · exact ht y
    · rfl

theorem sameTypes_successors {p old new : String} {G H : BlockList} (h : modifySuccessors p old new G = some H) : SameTypes G H := by
  unfold modifySuccessors at h
  cases hp : G.get p with
  | none => rw [hp] at h; simp at h
  | some P =>
    rw [hp, Option.bind_some] at h
    split at h
    · simp only [Option.some.injEq] at h; subst h; exact sameTypes_modify (fun _ => rfl) (fun _ => rfl)
    · split at h
      · simp only [Option.some.injEq] at h; subst h; exact sameTypes_modify (fun _ => rfl) (fun _ => rfl)
      · simp at h

theorem sameTypes_allSuccessors {old new : String} : ∀ (ps : List String) {G H : BlockList},
    modifyAllSuccessors old new ps G = some H → SameTypes G H
  | [], G, H, h => by simp only [modifyAllSuccessors, Option.some.injEq] at h; subst h; exact .refl _
  | p :: ps, G, H, h => by
    unfold modifyAllSuccessors at h
    obtain ⟨K, h1, h2⟩ := Option.bind_eq_some_iff.1 h
    exact (sameTypes_successors h1).trans (sameTypes_allSuccessors ps h2)

theorem sameTypes_comesFrom {t : Option String} {old new : String} {G H : BlockList} (h : modifyComesFromOpt t old new G = some H) :
    SameTypes G H := by
  unfold modifyComesFromOpt at h
  cases t with
  | none => simp only [Option.some.injEq] at h; subst h; exact .refl _
  | some b =>
    simp only at h
    unfold modifyComesFrom at h
    cases hb : G.get b with
    | none => rw [hb] at h; simp at h
    | some B =>
      rw [hb, Option.bind_some] at h
      split at h
      · simp only [Option.some.injEq] at h; subst h; exact sameTypes_modify (fun _ => rfl) (fun _ => rfl)
      · simp at h

theorem exits_remove {G H : BlockList} {b : String} (h : G.removeBlock b = some H) (hG : ExactExits G) : ExactExits H := by
  have hget := get_remove h
  unfold BlockList.removeBlock at h
  split at h
  · simp only [Option.some.injEq] at h
    subst h
    refine ⟨fun x => ?_, fun x => ?_, hG.once.1.filter _, hG.once.2.filter _⟩
    · rw [hget]
      simp only [mem_filter, hG.terminals, bne_iff_ne]
      by_cases hx : x = b <;> simp [hx]
    · rw [hget]
      simp only [mem_filter, hG.returns, bne_iff_ne]
      by_cases hx : x = b <;> simp [hx]
  · simp at h

theorem exits_add {G H : BlockList} {b : Block} {st : Bool} (h : G.addBlock b st = some H) (hnew : G.get b.id = none)
    (hG : ExactExits G) : ExactExits H := by
  have hget := get_add h
  have ht : b.id ∉ G.terminals := by rw [hG.terminals, hnew]; simp
  have hr : b.id ∉ G.returns := by rw [hG.returns, hnew]; simp
  unfold BlockList.addBlock at h
  split at h
  · cases h
  · simp only [Option.some.injEq] at h
    subst h
    refine ⟨fun x => ?_, fun x => ?_, ?_, ?_⟩
    · rw [hget]
      simp only [mem_cons, not_mem_nil, or_false]
      by_cases hx : x = b.id
      · subst hx
        split <;> simp_all
      · rw [if_neg hx, ← hG.terminals]
        split <;> simp [hx]
    · rw [hget]
      by_cases hx : x = b.id
      · subst hx
        by_cases hj : b.jumpType = "FunctionReturn" <;> simp [hj, hr]
      · rw [if_neg hx, ← hG.returns]
        by_cases hj : b.jumpType = "FunctionReturn" <;> simp [hj, hx]
    · simp only
      split
      · rw [nodup_append]; exact ⟨hG.once.1, by simp, fun a ha c hc => by simp at hc; subst hc; rintro rfl; exact ht ha⟩
      · exact hG.once.1
    · simp only
      split
      · rw [nodup_append]; exact ⟨hG.once.2, by simp, fun a ha c hc => by simp at hc; subst hc; rintro rfl; exact hr ha⟩
      · exact hG.once.2

/-- **C55, splitting.** If the names of the halves are new, the lists of exit blocks are right again afterwards. -/
theorem split_exits {G G' : BlockList} {b : String} {k : Nat} (hf : G.get (firstId b) = none) (hs : G.get (secondId b) = none)
    (h : splitBlock k b G = some G') (hG : ExactExits G) : ExactExits G' := by
  unfold splitBlock at h
  obtain ⟨blk, hb, h⟩ := Option.bind_eq_some_iff.1 h
  obtain ⟨G1, h1, h⟩ := Option.bind_eq_some_iff.1 h
  obtain ⟨blk1, hb1, h⟩ := Option.bind_eq_some_iff.1 h
  obtain ⟨G2, h2, h⟩ := Option.bind_eq_some_iff.1 h
  obtain ⟨G3, h3, h⟩ := Option.bind_eq_some_iff.1 h
  obtain ⟨G4, h4, h⟩ := Option.bind_eq_some_iff.1 h
  obtain ⟨G5, h5, h6⟩ := Option.bind_eq_some_iff.1 h
  have s3 : SameTypes G G3 := ((sameTypes_allSuccessors _ h1).trans (sameTypes_comesFrom h2)).trans (sameTypes_comesFrom h3)
  have hnone : ∀ x, G.get x = none → G3.get x = none := by
    intro x hx
    have := s3.types x
    rw [hx] at this
    simpa using this
  have n4 : ∀ x, G.get x = none → G4.get x = none := by
    intro x hx
    rw [get_remove h4]
    split
    · rfl
    · exact hnone x hx
  have hid : blk.id = b := get_id hb
  have hid1 : blk1.id = b := get_id hb1
  have e5 := exits_add h5 (n4 _ (by simpa [firstHalf, hid] using hf)) (exits_remove h4 (s3.exits hG))
  refine exits_add h6 ?_ e5
  rw [get_add h5, if_neg]
  · exact n4 _ (by simpa [secondHalf, hid1] using hs)
  · simp only [secondHalf, firstHalf, hid, hid1]
    exact fun e => firstId_ne_secondId b e.symm

/-- **C55, merging.** -/
theorem merge_exits {G G' : BlockList} {a b : String} (h : mergeBlocks a b G = some G') (hG : ExactExits G) : ExactExits G' := by
  unfold mergeBlocks at h
  obtain ⟨b1, hb1, h⟩ := Option.bind_eq_some_iff.1 h
  obtain ⟨b2, hb2, h⟩ := Option.bind_eq_some_iff.1 h
  obtain ⟨G1, h1, h⟩ := Option.bind_eq_some_iff.1 h
  obtain ⟨G2, h2, h⟩ := Option.bind_eq_some_iff.1 h
  obtain ⟨G3, h3, h⟩ := Option.bind_eq_some_iff.1 h
  obtain ⟨G4, h4, h⟩ := Option.bind_eq_some_iff.1 h
  obtain ⟨G5, h5, h⟩ := Option.bind_eq_some_iff.1 h
  obtain ⟨G6, h6, h7⟩ := Option.bind_eq_some_iff.1 h
  have s : SameTypes G G4 := (((sameTypes_allSuccessors _ h1).trans (sameTypes_allSuccessors _ h2)).trans (sameTypes_comesFrom h3)).trans
    (sameTypes_comesFrom h4)
  refine exits_add h7 ?_ (exits_remove h6 (exits_remove h5 (s.exits hG)))
  have hid : b1.id = a := get_id hb1
  rw [get_remove h6, get_remove h5]
  simp [mergedBlock, hid]

theorem mergeLoop_exits {n : Nat} : ∀ (ps : List (String × String)) {G G' : BlockList} {ren : String → String},
    mergeLoop n ps G ren = some G' → ExactExits G → ExactExits G'
  | [], G, G', ren, h, hG => by simp only [mergeLoop, Option.some.injEq] at h; subst h; exact hG
  | (u, v) :: ps, G, G', ren, h, hG => by
    unfold mergeLoop at h
    obtain ⟨r, h1, h⟩ := Option.bind_eq_some_iff.1 h
    obtain ⟨r', h2, h⟩ := Option.bind_eq_some_iff.1 h
    obtain ⟨H, h3, h⟩ := Option.bind_eq_some_iff.1 h
    exact mergeLoop_exits ps h (merge_exits h3 hG)

theorem removeAll_exits : ∀ (xs : List String) {G G' : BlockList}, removeAll xs G = some G' → ExactExits G → ExactExits G'
  | [], G, G', h, hG => by simp only [removeAll, Option.some.injEq] at h; subst h; exact hG
  | x :: xs, G, G', h, hG => by
    unfold removeAll at h
    obtain ⟨H, h1, h⟩ := Option.bind_eq_some_iff.1 h
    exact removeAll_exits xs h (exits_remove h1 hG)

/-- **C55, combining and removing blocks.** -/
theorem combineRemove_exits {names : List String} {G G' : BlockList} (h : combineRemove names G = some G') (hG : ExactExits G) :
    ExactExits G' := by
  unfold combineRemove at h
  obtain ⟨H, h1, h⟩ := Option.bind_eq_some_iff.1 h
  unfold removeBlocks at h
  obtain ⟨s, _, h⟩ := Option.bind_eq_some_iff.1 h
  exact removeAll_exits _ h (mergeLoop_exits _ h1 hG)

/-- Building a block list block by block makes exact lists. -/
theorem add_exits {G G' : BlockList} {b : Block} {st : Bool} (h : G.addBlock b st = some G') (hnew : G.get b.id = none)
    (hG : ExactExits G) : ExactExits G' := exits_add h hnew hG

theorem empty_exits : ExactExits ⟨[], none, [], []⟩ := ⟨fun x => by simp [BlockList.get], fun x => by simp [BlockList.get], by simp⟩

/-- **C55, refuted for overwritten blocks.** When a block replaces one of the same name (for which the code only logs a warning, line
68-69), the lists keep the old entry: a block that no longer returns is still listed. -/
theorem overwrite_breaks_exits : ∃ G G' : BlockList, ∃ b : Block, ExactExits G ∧ G.addBlock b = some G' ∧ ¬ ExactExits G' := by
  obtain ⟨G1, h1⟩ : ∃ G1, BlockList.addBlock ⟨[], none, [], []⟩ { id := "B", instrs := [], jumpType := "FunctionReturn" } = some G1 := ⟨_, rfl⟩
  obtain ⟨G2, h2⟩ : ∃ G2, G1.addBlock { id := "B", instrs := [], jumpType := "unconditional" } = some G2 := by
    unfold BlockList.addBlock at h1; simp at h1; subst h1; exact ⟨_, rfl⟩
  refine ⟨G1, G2, _, exits_add h1 rfl empty_exits, h2, fun h => ?_⟩
  have hget := get_add h2 "B"
  have h3 := (h.returns "B")
  rw [hget] at h3
  unfold BlockList.addBlock at h1 h2
  simp at h1
  subst h1
  simp at h2
  subst h2
  simp at h3

/-- A list of three blocks. -/
def exBlocks : List Block :=
  [⟨"A", [⟨"add", ["x", "y"], ["z"]⟩], "conditional", some "B", some "C", some "z", [], []⟩,
    ⟨"B", [⟨"f", [], []⟩, ⟨"functionReturn", [], []⟩], "FunctionReturn", none, none, none, ["A"], []⟩,
    ⟨"C", [⟨"stop", [], []⟩], "terminal", none, none, none, ["A"], []⟩]

theorem exExits : ∃ G, ((BlockList.mk [] none [] []).addBlock exBlocks[0]).bind (fun G => (G.addBlock exBlocks[1]).bind fun G => G.addBlock exBlocks[2]) =
    some G ∧ ExactExits G ∧ G.get "Bf" = none ∧ G.get "Bs" = none ∧ (splitBlock 0 "B" G).map (fun H => (H.returns, H.terminals)) =
      some (["Bs"], ["C", "Bs"]) := by
  refine ⟨_, rfl, ?_, by decide +kernel, by decide +kernel, by decide +kernel⟩
  exact exits_add (G := ⟨exBlocks.take 2, some "A", ["B"], ["B"]⟩) (b := exBlocks[2]) (st := false) (by decide +kernel) (by decide +kernel)
    (exits_add (G := ⟨exBlocks.take 1, some "A", [], []⟩) (b := exBlocks[1]) (st := false) (by decide +kernel) (by decide +kernel)
      (exits_add (b := exBlocks[0]) (st := false) (by decide +kernel) rfl empty_exits))

/-- Splitting the returning block after its first instruction: the second half is listed instead. -/
example : ∃ G G', splitBlock 0 "B" G = some G' ∧ ExactExits G ∧ ExactExits G' ∧ G'.returns = ["Bs"] ∧ G'.terminals = ["C", "Bs"] := by
  obtain ⟨G, _, hG, h1, h2, h3⟩ := exExits
  obtain ⟨G', h, h4⟩ := Option.map_eq_some_iff.1 h3
  simp only [Prod.mk.injEq] at h4
  exact ⟨G, G', h, hG, split_exits h1 h2 h hG, h4.1, h4.2⟩

end Grey.Cfg
