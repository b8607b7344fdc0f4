/-
Tags of blocks (src/cfg_methods/jump_insertion.py, src/cfg_methods/sub_block_generation.py): C21.
-/
import Verif.Cfg.Split
import Verif.Common.Names
namespace Grey.Cfg
open List

/-! ### Model -/

/-- The dictionary from block names to tags, in insertion order. -/
abbrev TagDict := List (String × Nat)

/-- `tags_dict.get(block_id)` -/
def tagOf (T : TagDict) (b : String) : Option Nat := (T.find? fun p => p.1 == b).map (·.2)

/-- src/cfg_methods/jump_insertion.py:75-85: the tag and the dictionary after the request. -/
def tagFromDict (b : String) (T : TagDict) : Nat × TagDict :=
  match tagOf T b with
  | some t => (t, T)
  | none => (T.length + 1, T ++ [(b, T.length + 1)])

/-- `tags_dict[b] = t`: replaces the value of an existing key in place. -/
def setTag (b : String) (t : Nat) (T : TagDict) : TagDict :=
  if T.any (fun p => p.1 == b) then T.map (fun p => if p.1 = b then (b, t) else p) else T ++ [(b, t)]

/-- src/cfg_methods/sub_block_generation.py:79-81: the block `b` has been split, its tag goes to the first half. -/
def moveTag (b : String) (T : TagDict) : TagDict :=
  match tagOf T b with
  | some t => setTag (firstId b) t (T.filter fun p => p.1 != b)
  | none => T

/-- What happens to the dictionary of an object: requests (src/cfg_methods/jump_insertion.py:57-61,
src/cfg_methods/sub_block_generation.py:28, 88, 134) and splits, of a block, which are followed by a request for the second
half if the instruction is a function call (lines 79-88). -/
inductive TagOp where
  | request (b : String)
  | split (b : String) (isCall : Bool)

def TagOp.run : TagOp → TagDict → TagDict
  | .request b, T => (tagFromDict b T).2
  | .split b isCall, T => let T' := moveTag b T; if isCall then (tagFromDict (secondId b) T').2 else T'

def runTags (ops : List TagOp) (T : TagDict) : TagDict := ops.foldl (fun T o => o.run T) T

/-- src/parser/cfg_block.py:261-290. `args` are the arguments before the tag; the constructor of instructions reverses the list
(src/parser/cfg_instruction.py:129), so that the tag comes first. -/
def addJump (b : Block) (op : String) (args : List String) (t : Nat) : Block :=
  { b with instrs := b.instrs ++ [⟨"PUSH [tag]", [], [toString t]⟩, ⟨op, (args ++ [toString t]).reverse, []⟩] }

/-- src/cfg_methods/jump_insertion.py:54-61. Function returns (which get an argument) are not modelled here. -/
def insertJump (b : Block) (T : TagDict) : Block × TagDict :=
  match b.jumpTo with
  | none => (b, T)
  | some t =>
    if b.jumpType = "unconditional" then (addJump b "JUMP" [] (tagFromDict t T).1, (tagFromDict t T).2)
    else if b.jumpType = "conditional" then (addJump b "JUMPI" b.cond.toList (tagFromDict t T).1, (tagFromDict t T).2)
    else (b, T)

/-- src/cfg_methods/jump_insertion.py:51-61: the blocks in order. -/
def insertJumps : List Block → TagDict → List Block × TagDict
  | [], T => ([], T)
  | b :: bs, T => ((insertJump b T).1 :: (insertJumps bs (insertJump b T).2).1, (insertJumps bs (insertJump b T).2).2)

/-! ### Specification -/

/-- Block names are unique and the tags are 1, ..., n, each once. -/
structure GoodTags (T : TagDict) : Prop where
  keys : (T.map (·.1)).Nodup
  tags : T.map (·.2) ~ List.range' 1 T.length

/-! ### Proofs -/

theorem tagOf_some {T : TagDict} {b : String} {t : Nat} (h : tagOf T b = some t) : (b, t) ∈ T := by
  obtain ⟨p, hp, rfl⟩ := Option.map_eq_some_iff.1 h
  have := find?_some hp
  simp only [beq_iff_eq] at this
  rw [← this]
  exact mem_of_find?_eq_some hp

theorem tagOf_none {T : TagDict} {b : String} : tagOf T b = none ↔ b ∉ T.map (·.1) := by
  unfold tagOf
  rw [Option.map_eq_none_iff, find?_eq_none]
  constructor
  · intro h hb
    obtain ⟨p, hp, rfl⟩ := mem_map.1 hb
    exact h p hp (by simp)
  · intro h p hp hpb
    simp only [beq_iff_eq] at hpb
    exact h (mem_map.2 ⟨p, hp, hpb⟩)

theorem tagOf_of_mem {T : TagDict} (h : (T.map (·.1)).Nodup) {b : String} {t : Nat} (hb : (b, t) ∈ T) : tagOf T b = some t := by
  cases hh : tagOf T b with
  | none => exact absurd (mem_map.2 ⟨_, hb, rfl⟩) (tagOf_none.1 hh)
  | some t' =>
    have := tagOf_some hh
    have := inj_on_of_nodup_map h hb this rfl
    cases this
    rfl

theorem good_request {T : TagDict} (h : GoodTags T) (b : String) : GoodTags (tagFromDict b T).2 := by
  unfold tagFromDict
  cases hh : tagOf T b with
  | some t => exact h
  | none =>
    simp only
    refine ⟨?_, ?_⟩
    · rw [map_append, nodup_append]
      refine ⟨h.keys, by simp, ?_⟩
      intro x hx y hy
      simp only [map_cons, map_nil, mem_singleton] at hy
      subst hy
      rintro rfl
      exact tagOf_none.1 hh hx
    · rw [map_append, length_append, length_singleton, range'_1_concat, Nat.add_comm 1]
      exact h.tags.append_right _

theorem moveTag_perm {T : TagDict} (hk : (T.map (·.1)).Nodup) {b : String} {t : Nat} (hb : (b, t) ∈ T)
    (hf : firstId b ∉ T.map (·.1)) : (moveTag b T = (T.filter fun p => p.1 != b) ++ [(firstId b, t)]) ∧
      (T ~ (b, t) :: (T.filter fun p => p.1 != b)) := by
  constructor
  · unfold moveTag
    rw [tagOf_of_mem hk hb]
    simp only
    unfold setTag
    rw [if_neg]
    rw [any_eq_true]
    rintro ⟨p, hp, hpb⟩
    simp only [beq_iff_eq] at hpb
    exact hf (mem_map.2 ⟨p, mem_of_mem_filter hp, hpb⟩)
  · induction T with
    | nil => cases hb
    | cons p T ih =>
      rw [map_cons, nodup_cons] at hk
      rcases mem_cons.1 hb with rfl | hb'
      · have : (T.filter fun p => p.1 != b) = T := by
          rw [filter_eq_self]
          intro q hq
          simp only [bne_iff_ne, ne_eq]
          rintro rfl
          exact hk.1 (mem_map.2 ⟨q, hq, rfl⟩)
        simp [this]
      · have hne : p.1 ≠ b := by rintro rfl; exact hk.1 (mem_map.2 ⟨_, hb', rfl⟩)
        rw [filter_cons, if_pos (by simpa using hne)]
        refine ((ih hk.2 hb' (fun h => hf (mem_cons_of_mem _ h))).cons p).trans ?_
        exact Perm.swap _ _ _

theorem good_move {T : TagDict} (h : GoodTags T) (b : String) (hf : firstId b ∉ T.map (·.1)) : GoodTags (moveTag b T) := by
  cases hh : tagOf T b with
  | none => unfold moveTag; rw [hh]; exact h
  | some t =>
    have hb := tagOf_some hh
    obtain ⟨h1, h2⟩ := moveTag_perm h.keys hb hf
    rw [h1]
    refine ⟨?_, ?_⟩
    · rw [map_append, nodup_append]
      refine ⟨(filter_sublist.map _).nodup h.keys, by simp, ?_⟩
      intro x hx y hy
      simp only [map_cons, map_nil, mem_singleton] at hy
      subst hy
      rintro rfl
      exact hf ((filter_sublist.map _).subset hx)
    · have hl : ((T.filter fun p => p.1 != b) ++ [(firstId b, t)]).length = T.length := by
        rw [h2.length_eq]; simp
      rw [hl]
      refine Perm.trans ?_ h.tags
      rw [map_append]
      refine Perm.trans ?_ (h2.map _).symm
      simp only [map_cons, map_nil]
      exact perm_append_singleton _ _

/-- The names of the halves of every split are new. -/
def FreshOps : List TagOp → TagDict → Prop
  | [], _ => True
  | o :: os, T => (match o with
      | .split b _ => firstId b ∉ T.map (·.1)
      | .request _ => True) ∧ FreshOps os (o.run T)

/-- **C21, tags are 1..n.** After any sequence of requests and splits (with new names for the halves) the tags handed out are
1, ..., n without repetition, for n different blocks. -/
theorem tags_good (ops : List TagOp) : ∀ T, GoodTags T → FreshOps ops T → GoodTags (runTags ops T) := by
  induction ops with
  | nil => intro T h _; exact h
  | cons o os ih =>
    intro T h hf
    unfold runTags
    rw [foldl_cons]
    apply ih
    · cases o with
      | request b => exact good_request h b
      | split b isCall =>
        have hm := good_move h b hf.1
        unfold TagOp.run
        simp only
        split
        · exact good_request hm _
        · exact hm
    · exact hf.2

/-- **C21, distinct blocks have distinct tags.** -/
theorem tags_injective {T : TagDict} (h : GoodTags T) {a b : String} {t : Nat} (ha : tagOf T a = some t) (hb : tagOf T b = some t) :
    a = b := by
  have hn : (T.map (·.2)).Nodup := h.tags.nodup_iff.2 nodup_range'
  have := inj_on_of_nodup_map hn (tagOf_some ha) (tagOf_some hb) rfl
  exact (Prod.mk.inj this).1

/-- **C21, requests.** A request returns the tag of the block if it has one, the block has the returned tag afterwards (so the next
request returns the same one), and no other block's tag changes. -/
theorem request_stable (b : String) (T : TagDict) :
    (∀ t, tagOf T b = some t → (tagFromDict b T).1 = t) ∧ tagOf (tagFromDict b T).2 b = some (tagFromDict b T).1 ∧
      (∀ c t, tagOf T c = some t → tagOf (tagFromDict b T).2 c = some t) ∧ (∀ c, c ≠ b → tagOf (tagFromDict b T).2 c = tagOf T c) := by
  unfold tagFromDict
  cases hh : tagOf T b with
  | some t =>
    refine ⟨?_, hh, fun c t h => h, fun c _ => rfl⟩
    intro t' ht
    exact Option.some.inj ht
  | none =>
    simp only
    have hT : ∀ c, tagOf (T ++ [(b, T.length + 1)]) c = (tagOf T c).or (if b = c then some (T.length + 1) else none) := by
      intro c
      unfold tagOf
      rw [find?_append]
      cases T.find? fun p => p.1 == c with
      | some p => rfl
      | none =>
        by_cases hc : b = c <;> simp [hc]
    refine ⟨(by intro t h; cases h), ?_, ?_, ?_⟩
    · rw [hT, hh]; simp
    · intro c t hc
      rw [hT, hc]; rfl
    · intro c hc
      rw [hT, if_neg (Ne.symm hc)]
      cases tagOf T c <;> rfl

/-- **C21, splits.** After a split the first half has the tag of the block, the block has none, and no other tag changes. -/
theorem split_moves_tag {T : TagDict} (h : GoodTags T) (b : String) (hf : firstId b ∉ T.map (·.1)) :
    tagOf (moveTag b T) (firstId b) = tagOf T b ∧ tagOf (moveTag b T) b = none ∧
      ∀ c, c ≠ b → c ≠ firstId b → tagOf (moveTag b T) c = tagOf T c := by
  have hg := good_move h b hf
  cases hh : tagOf T b with
  | none =>
    unfold moveTag
    rw [hh]
    exact ⟨tagOf_none.2 hf, hh, fun _ _ _ => rfl⟩
  | some t =>
    obtain ⟨h1, h2⟩ := moveTag_perm h.keys (tagOf_some hh) hf
    refine ⟨?_, ?_, ?_⟩
    · apply tagOf_of_mem hg.keys
      rw [h1]; simp
    · rw [tagOf_none, h1]
      intro hb
      obtain ⟨p, hp, hpb⟩ := mem_map.1 hb
      rcases mem_append.1 hp with hp | hp
      · have := (mem_filter.1 hp).2
        simp [hpb] at this
      · rw [mem_singleton] at hp
        subst hp
        exact firstId_ne b hpb
    · intro c hc1 hc2
      cases hcT : tagOf T c with
      | some t' =>
        apply tagOf_of_mem hg.keys
        rw [h1]
        exact mem_append.2 (Or.inl (mem_filter.2 ⟨tagOf_some hcT, by simpa using hc1⟩))
      | none =>
        rw [tagOf_none] at hcT ⊢
        rw [h1]
        intro hc
        obtain ⟨p, hp, hpc⟩ := mem_map.1 hc
        rcases mem_append.1 hp with hp | hp
        · exact hcT (mem_map.2 ⟨p, mem_of_mem_filter hp, hpc⟩)
        · rw [mem_singleton] at hp
          subst hp
          exact hc2 hpc.symm

/-- **C21, jumps keep their targets.** Where a block is to jump to is recorded in its JUMP instruction by a tag. Splitting any block
(under the provisos of C22) changes names of targets and the dictionary together: the block with the target still has a
target with the same tag (`x'` is where the jump of block `x` is after the split). -/
theorem split_keeps_jump_tags {G : BlockList} (hG : Sane G) {b : String} {blk : Block} (hb : G.get b = some blk)
    (hself : b ∉ blk.succs) (hf : G.get (firstId b) = none) (hs : G.get (secondId b) = none) (k : Nat) {T : TagDict}
    (hT : GoodTags T) (hfT : firstId b ∉ T.map (·.1)) {G' : BlockList} (hsp : splitBlock k b G = some G') (isCall : Bool) :
    ∀ x X y t, G.get x = some X → X.jumpTo = some y → tagOf T y = some t →
      ∃ X' y', G'.get (if x = b then secondId b else x) = some X' ∧ X'.jumpTo = some y' ∧
        tagOf ((TagOp.split b isCall).run T) y' = some t := by
  obtain ⟨G1, h1, _, _, hget⟩ := split_spec hG hb hself hf hs k
  rw [hsp] at h1
  cases h1
  intro x X y t hX hy ht
  have hid := get_id hb
  have hmove : ∀ z t, tagOf T z = some t → tagOf ((TagOp.split b isCall).run T) (if z = b then firstId b else z) = some t := by
    intro z t hz
    have hm : tagOf (moveTag b T) (if z = b then firstId b else z) = some t := by
      by_cases hzb : z = b
      · subst hzb; rw [if_pos rfl, (split_moves_tag hT z hfT).1, hz]
      · rw [if_neg hzb, (split_moves_tag hT b hfT).2.2 z hzb, hz]
        rintro rfl
        exact hfT (mem_map.2 ⟨_, tagOf_some hz, rfl⟩)
    unfold TagOp.run
    simp only
    split
    · exact (request_stable (secondId b) _).2.2.1 _ _ hm
    · exact hm
  by_cases hx : x = b
  · subst hx
    rw [hb] at hX
    cases hX
    refine ⟨secondHalf k blk, y, by rw [if_pos rfl, hget, if_pos rfl], hy, ?_⟩
    have hyx : y ≠ x := by
      rintro rfl
      exact hself (mem_succs.2 (Or.inl hy))
    have := hmove y t ht
    rwa [if_neg hyx] at this
  · rw [if_neg hx]
    have hxs : x ≠ secondId b := by rintro rfl; rw [hs] at hX; cases hX
    have hxf : x ≠ firstId b := by rintro rfl; rw [hf] at hX; cases hX
    refine ⟨fixOther b blk x X, if y = b then firstId b else y, ?_, ?_, hmove y t ht⟩
    · rw [hget, if_neg hxs, if_neg hxf, if_neg hx, hX]; rfl
    · by_cases hyb : y = b
      · subst hyb
        simp [fixOther, hy, redirect]
      · simp only [hyb, if_false]
        simp [fixOther, hy, redirect, hyb]

/-- **C21, inserted jumps.** After the insertion, the JUMP or JUMPI that ends a block has the tag of the block's target; in the end
all these targets have the tag that was inserted. -/
theorem insertJumps_spec : ∀ (bs : List Block) (T : TagDict), GoodTags T →
    GoodTags (insertJumps bs T).2 ∧ (∀ c t, tagOf T c = some t → tagOf (insertJumps bs T).2 c = some t) ∧
    (insertJumps bs T).1.length = bs.length ∧
    ∀ (i : Nat) (b : Block), bs[i]? = some b → ∃ b' : Block, (insertJumps bs T).1[i]? = some b' ∧ b'.id = b.id ∧ b'.jumpTo = b.jumpTo ∧
      ((b.jumpType = "unconditional" ∧ b.jumpTo ≠ none) → ∃ y t, b.jumpTo = some y ∧ tagOf (insertJumps bs T).2 y = some t ∧
        b'.instrs = b.instrs ++ [⟨"PUSH [tag]", [], [toString t]⟩, ⟨"JUMP", [toString t], []⟩]) ∧
      ((b.jumpType = "conditional" ∧ b.jumpTo ≠ none) → ∃ y t, b.jumpTo = some y ∧ tagOf (insertJumps bs T).2 y = some t ∧
        b'.instrs = b.instrs ++ [⟨"PUSH [tag]", [], [toString t]⟩, ⟨"JUMPI", toString t :: b.cond.toList, []⟩]) := by
  intro bs
  induction bs with
  | nil => intro T h; refine ⟨h, fun _ _ h => h, rfl, ?_⟩; intro i b hb; simp at hb
  | cons b bs ih =>
    intro T h
    -- the first block
    have hstep : ∃ (b' : Block) (T' : TagDict), insertJumps (b :: bs) T = (b' :: (insertJumps bs T').1, (insertJumps bs T').2) ∧ GoodTags T' ∧
        (∀ c t, tagOf T c = some t → tagOf T' c = some t) ∧ b'.id = b.id ∧ b'.jumpTo = b.jumpTo ∧
        ((b.jumpType = "unconditional" ∧ b.jumpTo ≠ none) → ∃ y t, b.jumpTo = some y ∧ tagOf T' y = some t ∧
          b'.instrs = b.instrs ++ [⟨"PUSH [tag]", [], [toString t]⟩, ⟨"JUMP", [toString t], []⟩]) ∧
        ((b.jumpType = "conditional" ∧ b.jumpTo ≠ none) → ∃ y t, b.jumpTo = some y ∧ tagOf T' y = some t ∧
          b'.instrs = b.instrs ++ [⟨"PUSH [tag]", [], [toString t]⟩, ⟨"JUMPI", toString t :: b.cond.toList, []⟩]) := by
      refine ⟨(insertJump b T).1, (insertJump b T).2, rfl, ?_⟩
      unfold insertJump
      cases hj : b.jumpTo with
      | none => exact ⟨h, fun _ _ h => h, rfl, hj, by simp, by simp⟩
      | some y =>
        simp only
        split
        · rename_i hu
          refine ⟨good_request h y, (request_stable y T).2.2.1, rfl, hj, ?_, ?_⟩
          · intro _; exact ⟨y, (tagFromDict y T).1, rfl, (request_stable y T).2.1, rfl⟩
          · rintro ⟨h1, _⟩; rw [hu] at h1; exact absurd h1 (by decide)
        · rename_i hu
          split
          · refine ⟨good_request h y, (request_stable y T).2.2.1, rfl, hj, ?_, ?_⟩
            · rintro ⟨h1, _⟩; exact absurd h1 hu
            · intro _
              refine ⟨y, (tagFromDict y T).1, rfl, (request_stable y T).2.1, ?_⟩
              unfold addJump
              cases b.cond <;> rfl
          · rename_i hc
            exact ⟨h, fun _ _ h => h, rfl, hj, fun h1 => absurd h1.1 hu, fun h1 => absurd h1.1 hc⟩
    obtain ⟨b', T', he, hT', hmono, h1, h2, h3, h4⟩ := hstep
    obtain ⟨i1, i2, i3, i4⟩ := ih T' hT'
    rw [he]
    refine ⟨i1, fun c t hc => i2 c t (hmono c t hc), by simp [i3], ?_⟩
    intro i x hx
    cases i with
    | zero =>
      simp only [getElem?_cons_zero, Option.some.injEq] at hx
      subst hx
      refine ⟨b', by simp, h1, h2, ?_, ?_⟩
      · intro hu
        obtain ⟨y, t, a1, a2, a3⟩ := h3 hu
        exact ⟨y, t, a1, i2 y t a2, a3⟩
      · intro hu
        obtain ⟨y, t, a1, a2, a3⟩ := h4 hu
        exact ⟨y, t, a1, i2 y t a2, a3⟩
    | succ i =>
      simp only [getElem?_cons_succ] at hx
      obtain ⟨x', a1, a2⟩ := i4 i x hx
      exact ⟨x', by simpa using a1, a2⟩

/-! ### The theorems apply -/

def exOps : List TagOp := [.request "B1", .request "B2", .request "B1", .split "B2" true, .split "B2s" false, .request "B3", .split "B1" true]

example : runTags exOps [] = [("B2f", 2), ("B2sf", 3), ("B3", 4), ("B1f", 1), ("B1s", 5)] := by decide +kernel

example : GoodTags [] ∧ FreshOps exOps [] := ⟨⟨by simp, by simp⟩, by simp only [exOps, FreshOps]; decide +kernel⟩

/-- Without new names tags are repeated: `Bf` exists when `B` is split. -/
theorem tags_collide_without_fresh_names :
    (runTags [.request "B", .request "Bf", .request "C", .split "B" false, .request "D"] []).map (·.2) = [1, 3, 3] := by decide +kernel

example : (insertJumps exLoop.blocks []).2 = [("B1", 1), ("B2", 2)] := by decide +kernel

end Grey.Cfg
