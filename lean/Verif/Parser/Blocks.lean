/-
What the parser makes of a list of blocks, in closed form.
-/
import Verif.Parser.Spec
import Mathlib.Data.List.Nodup
namespace Grey.Parser
open List Grey.Cfg Grey.Inline

theorem blockName_inj {o a b : String} (h : blockName o a = blockName o b) : a = b := by
  unfold blockName at h
  have h1 := congrArg String.toList h
  simp only [String.toList_append] at h1
  exact String.toList_inj.1 (append_cancel_left h1)

/-! ### The blocks without their predecessors -/

/-- The instruction that stands for the exit of a function. -/
def retCode (b : JBlock) : List Instr :=
  if b.exit.type = "FunctionReturn" then [⟨"functionReturn", b.exit.returnValues.getD [], []⟩] else []

/-- The kind of a block. -/
def kindOf (t : String) : String :=
  if t = "Jump" then "unconditional" else if t = "ConditionalJump" then "conditional" else if t = "MainExit" then "mainExit"
  else if t = "Terminated" then "terminal" else t

def conv (i : JInstr) : Instr := mkInstr i.op i.ins i.outs

def convBlock (obj : String) (b : JBlock) : Block where
  id := blockName obj b.id
  instrs := b.instrs.map conv ++ retCode b
  jumpType := kindOf b.exit.type
  jumpTo := if b.exit.type = "Jump" then (b.exit.targets.map (blockName obj))[0]?
    else if b.exit.type = "ConditionalJump" then (b.exit.targets.map (blockName obj))[1]? else none
  fallsTo := if b.exit.type = "ConditionalJump" then (b.exit.targets.map (blockName obj))[0]? else none
  cond := if b.exit.type = "ConditionalJump" then b.exit.cond else none
  entries := b.entries.map (blockName obj)

theorem mapM_conv {l : List JInstr} (h : ∀ i ∈ l, i.op = "LiteralAssignment" → i.ins ≠ [] ∧ i.outs ≠ []) :
    l.mapM parseInstr = some (l.map conv) := by
  induction l with
  | nil => rfl
  | cons i l ih =>
    have h1 : parseInstr i = some (conv i) := by
      unfold parseInstr
      rw [if_neg]
      · rfl
      · rintro ⟨h1, h2⟩
        have := h i mem_cons_self h1
        tauto
    rw [mapM_cons, h1, ih fun i hi => h i (mem_cons_of_mem _ hi)]
    rfl

theorem parseBlock_eq {obj : String} {b : JBlock} (h : BlockOk b) :
    parseBlock obj b = some (convBlock obj b, b.exit.targets.map (blockName obj)) := by
  obtain ⟨h1, h2, h3, h4, h5, h6, h7⟩ := h
  unfold parseBlock
  simp only [if_neg h5, mapM_conv h7, Option.bind_some]
  unfold exitTypes at h1
  simp only [mem_cons, not_mem_nil, or_false] at h1
  rcases h1 with h1 | h1 | h1 | h1 | h1
  · have h2 := h2 h1
    cases ht : b.exit.targets with
    | nil => exact absurd ht h2
    | cons t l => simp [setJumpInfo, convBlock, retCode, kindOf, h1, ht]
  · obtain ⟨h3, h3'⟩ := h3 h1
    obtain ⟨x, hx⟩ := Option.ne_none_iff_exists'.1 h3'
    match ht : b.exit.targets with
    | [] => simp [ht] at h3
    | [_] => simp [ht] at h3
    | t :: t' :: l => simp [setJumpInfo, convBlock, retCode, kindOf, h1, ht, hx]
  · obtain ⟨vs, hv⟩ := Option.ne_none_iff_exists'.1 (h4 h1)
    simp [setJumpInfo, convBlock, retCode, kindOf, h1, hv, mkInstr]
  · simp [setJumpInfo, convBlock, retCode, kindOf, h1]
  · simp [setJumpInfo, convBlock, retCode, kindOf, h1]

/-! ### The dictionary of predecessors -/

/-- The entry of a key. -/
def entryOf (d : List (String × List String)) (k : String) : List String := (d.lookup k).getD []

theorem lookup_none {β : Type} {d : List (String × β)} {k : String} (h : d.any (fun e => e.1 == k) = false) : d.lookup k = none := by
  rw [List.lookup_eq_none_iff]
  intro p hp
  have := any_eq_false.1 h p hp
  simpa using fun h' : k = p.1 => this (by simpa using h'.symm)

theorem lookup_hit {β : Type} (k : String) (v : β) (d : List (String × β)) : ((k, v) :: d).lookup k = some v := by
  rw [List.lookup, beq_self_eq_true]

theorem lookup_miss {β : Type} {k a : String} (v : β) (d : List (String × β)) (h : k ≠ a) : ((a, v) :: d).lookup k = d.lookup k := by
  rw [List.lookup, beq_eq_false_iff_ne.2 h]

theorem lookup_mapAt (d : List (String × List String)) (k v k' : String) :
    (d.map fun e => if e.1 = k then (e.1, e.2 ++ [v]) else e).lookup k' = (d.lookup k').map fun l => if k' = k then l ++ [v] else l := by
  induction d with
  | nil => rfl
  | cons e d ih =>
    obtain ⟨a, l⟩ := e
    rw [map_cons]
    by_cases hk : k' = a
    · subst hk
      rw [lookup_hit]
      by_cases ha : k' = k
      · rw [if_pos ha, lookup_hit, Option.map_some, if_pos ha]
      · rw [if_neg ha, lookup_hit, Option.map_some, if_neg ha]
    · rw [lookup_miss _ _ hk, ← ih]
      split
      · exact lookup_miss _ _ hk
      · exact lookup_miss _ _ hk

theorem entryOf_push (d : List (String × List String)) (k v k' : String) :
    entryOf (pushTo d k v) k' = if k' = k then entryOf d k' ++ [v] else entryOf d k' := by
  unfold entryOf pushTo
  split
  · rename_i h
    rw [lookup_mapAt]
    cases hl : d.lookup k' with
    | some l => simp only [Option.map_some, Option.getD_some]
    | none =>
      have hk : k' ≠ k := by
        rintro rfl
        obtain ⟨e, he, h1⟩ := any_eq_true.1 h
        have := List.lookup_eq_none_iff.1 hl e he
        rw [beq_iff_eq] at h1
        simp [h1] at this
      rw [if_neg hk]
      rfl
  · rename_i h
    rw [Bool.not_eq_true] at h
    rw [List.lookup_append]
    by_cases hk : k' = k
    · rw [hk, lookup_none h, if_pos rfl]
      simp
    · rw [if_neg hk]
      simp [lookup_miss [v] [] hk]

theorem keys_push {d : List (String × List String)} {k v : String} (h : (d.map (·.1)).Nodup) : ((pushTo d k v).map (·.1)).Nodup := by
  unfold pushTo
  split
  · rw [map_map]
    have : ((fun e : String × List String => e.1) ∘ fun e : String × List String => if e.1 = k then (e.1, e.2 ++ [v]) else e) =
        fun e => e.1 := by
      funext e
      simp only [Function.comp_apply]
      split <;> rfl
    rw [this]
    exact h
  · rename_i hn
    rw [map_append, nodup_append]
    refine ⟨h, by simp, ?_⟩
    intro a ha b hb hab
    simp only [map_cons, map_nil, mem_singleton] at hb
    subst hb
    obtain ⟨e, he, rfl⟩ := mem_map.1 ha
    exact hn (any_eq_true.2 ⟨e, he, by simpa using hab⟩)

theorem mem_keys_push {d : List (String × List String)} {k v x : String} (h : x ∈ (pushTo d k v).map (·.1)) : x ∈ d.map (·.1) ∨ x = k := by
  unfold pushTo at h
  split at h
  · obtain ⟨e, he, rfl⟩ := mem_map.1 h
    obtain ⟨e', he', rfl⟩ := mem_map.1 he
    refine Or.inl (mem_map.2 ⟨e', he', ?_⟩)
    split <;> rfl
  · rw [map_append, mem_append] at h
    simpa using h

/-- All targets of a block. -/
def pushAll (d : List (String × List String)) (ts : List String) (v : String) : List (String × List String) :=
  ts.foldl (fun d t => pushTo d t v) d

theorem entryOf_pushAll (ts : List String) (v k : String) : ∀ d : List (String × List String),
    entryOf (pushAll d ts v) k = entryOf d k ++ (ts.filter (· = k)).map fun _ => v := by
  induction ts with
  | nil => intro d; simp [pushAll]
  | cons t ts ih =>
    intro d
    rw [show pushAll d (t :: ts) v = pushAll (pushTo d t v) ts v from rfl, ih, entryOf_push, filter_cons]
    by_cases hk : k = t
    · subst hk; simp
    · rw [if_neg hk, if_neg (by simpa using fun h => hk h.symm)]

theorem keys_pushAll (ts : List String) (v : String) : ∀ d : List (String × List String), (d.map (·.1)).Nodup →
    ((pushAll d ts v).map (·.1)).Nodup ∧ ∀ x ∈ (pushAll d ts v).map (·.1), x ∈ d.map (·.1) ∨ x ∈ ts := by
  induction ts with
  | nil => intro d h; exact ⟨h, fun x hx => Or.inl hx⟩
  | cons t ts ih =>
    intro d h
    obtain ⟨h1, h2⟩ := ih (pushTo d t v) (keys_push h)
    refine ⟨h1, fun x hx => ?_⟩
    rcases h2 x hx with h3 | h3
    · rcases mem_keys_push h3 with h4 | rfl
      · exact Or.inl h4
      · exact Or.inr mem_cons_self
    · exact Or.inr (mem_cons_of_mem _ h3)

/-! ### All blocks -/

/-- The edges to `k` in the order in which they are met. -/
def edgesTo (obj : String) (blocks : List JBlock) (k : String) : List String :=
  blocks.flatMap fun b => ((b.exit.targets.map (blockName obj)).filter (· = k)).map fun _ => blockName obj b.id

/-- The lists of exits. -/
def termsOf (obj : String) (blocks : List JBlock) : List String :=
  (blocks.filter fun b => b.exit.type ∈ ["FunctionReturn", "MainExit", "Terminated"]).map fun b => blockName obj b.id
def retsOf (obj : String) (blocks : List JBlock) : List String :=
  (blocks.filter fun b => b.exit.type = "FunctionReturn").map fun b => blockName obj b.id

theorem kind_term {t : String} (h : t ∈ exitTypes) :
    (kindOf t ∈ ["FunctionReturn", "mainExit", "terminal"] ↔ t ∈ ["FunctionReturn", "MainExit", "Terminated"]) ∧
    (kindOf t = "FunctionReturn" ↔ t = "FunctionReturn") := by
  simp only [exitTypes, mem_cons, not_mem_nil, or_false] at h
  rcases h with rfl | rfl | rfl | rfl | rfl <;> decide +kernel

theorem readBlocks_eq (obj : String) : ∀ (bs : List JBlock) (G : BlockList) (d : List (String × List String)), (∀ b ∈ bs, BlockOk b) →
    (G.blocks.map (·.id) ++ bs.map fun b => blockName obj b.id).Nodup → (G.blocks = [] ↔ G.start = none) → (d.map (·.1)).Nodup →
    ∃ G' d', readBlocks obj bs G d = some (G', d') ∧ G'.blocks = G.blocks ++ bs.map (convBlock obj) ∧
      G'.start = (G.blocks ++ bs.map (convBlock obj)).head?.bind (fun B => if G.blocks = [] then some B.id else G.start) ∧
      G'.terminals = G.terminals ++ termsOf obj bs ∧ G'.returns = G.returns ++ retsOf obj bs ∧
      (d'.map (·.1)).Nodup ∧ (∀ k, entryOf d' k = entryOf d k ++ edgesTo obj bs k) ∧
      ∀ x ∈ d'.map (·.1), x ∈ d.map (·.1) ∨ ∃ b ∈ bs, x ∈ b.exit.targets.map (blockName obj) := by
  intro bs
  induction bs with
  | nil =>
    intro G d _ _ hs hd
    refine ⟨G, d, rfl, by simp, ?_, by simp [termsOf], by simp [retsOf], hd, by simp [edgesTo], fun x hx => Or.inl hx⟩
    cases hG : G.blocks with
    | nil => simp [hs.1 hG]
    | cons B l => simp
  | cons b bs ih =>
    intro G d hb hn hs hd
    have hnot : (G.blocks.any fun x => x.id == (convBlock obj b).id) = false := by
      rw [any_eq_false]
      intro x hx h
      rw [beq_iff_eq] at h
      rw [map_cons, nodup_append] at hn
      exact hn.2.2 x.id (mem_map.2 ⟨x, hx, rfl⟩) (blockName obj b.id) mem_cons_self h
    have hadd : G.addBlock (convBlock obj b) = some
        { blocks := G.blocks ++ [convBlock obj b], start := if G.blocks = [] then some (blockName obj b.id) else G.start,
          terminals := G.terminals ++ termsOf obj [b], returns := G.returns ++ retsOf obj [b] } := by
      have hk := kind_term (hb b mem_cons_self).exit
      unfold BlockList.addBlock
      rw [if_neg]
      · simp only [hnot, Bool.false_eq_true, if_false, Bool.or_false, List.isEmpty_iff]
        refine congrArg some ?_
        have e1 : (if (convBlock obj b).jumpType ∈ ["FunctionReturn", "mainExit", "terminal"] then G.terminals ++ [(convBlock obj b).id]
            else G.terminals) = G.terminals ++ termsOf obj [b] := by
          rw [show (convBlock obj b).jumpType = kindOf b.exit.type from rfl]
          simp only [hk.1, termsOf, filter_cons, filter_nil, decide_eq_true_eq]
          split
          · rfl
          · simp
        have e2 : (if (convBlock obj b).jumpType = "FunctionReturn" then G.returns ++ [(convBlock obj b).id] else G.returns) =
            G.returns ++ retsOf obj [b] := by
          rw [show (convBlock obj b).jumpType = kindOf b.exit.type from rfl]
          simp only [hk.2, retsOf, filter_cons, filter_nil, decide_eq_true_eq]
          split
          · rfl
          · simp
        rw [e1, e2]
        rfl
      · intro h
        rw [Bool.and_eq_true, Bool.or_false, List.isEmpty_iff] at h
        rw [hs.1 h.1] at h
        cases h.2
    obtain ⟨G', d', h1, h2, h3, h4, h5, h6, h7, h8⟩ := ih
      ⟨G.blocks ++ [convBlock obj b], if G.blocks = [] then some (blockName obj b.id) else G.start, G.terminals ++ termsOf obj [b],
        G.returns ++ retsOf obj [b]⟩
      (pushAll d (b.exit.targets.map (blockName obj)) (blockName obj b.id)) (fun b' h => hb b' (mem_cons_of_mem _ h))
      (by rw [map_append, append_assoc]; exact hn)
      (by
        constructor
        · intro h; simp at h
        · intro h
          dsimp only at h
          split at h
          · cases h
          · rename_i h'
            exact absurd (hs.2 h) h')
      (keys_pushAll _ _ d hd).1
    refine ⟨G', d', ?_, by rw [h2, map_cons, append_assoc]; rfl, ?_, ?_, ?_, h6, ?_, ?_⟩
    · unfold readBlocks
      rw [parseBlock_eq (hb b mem_cons_self)]
      simp only [Option.bind_some]
      rw [hadd]
      exact h1
    · rw [h3]
      cases hG : G.blocks with
      | nil => simp [convBlock]
      | cons B l => simp
    · rw [h4, append_assoc]
      simp only [termsOf, ← map_append, ← filter_append]
      rfl
    · rw [h5, append_assoc]
      simp only [retsOf, ← map_append, ← filter_append]
      rfl
    · intro k
      rw [h7, entryOf_pushAll, append_assoc]
      rfl
    · intro x hx
      rcases h8 x hx with h9 | ⟨b', h9, h10⟩
      · rcases (keys_pushAll _ _ d hd).2 x h9 with h11 | h11
        · exact Or.inl h11
        · exact Or.inr ⟨b, mem_cons_self, h11⟩
      · exact Or.inr ⟨b', mem_cons_of_mem _ h9, h10⟩

/-! ### Predecessors -/

/-- Predecessors `ps` are added to the blocks called `k`. -/
def withPreds (k : String) (ps : List String) (B : Block) : Block := if B.id = k then { B with comesFrom := B.comesFrom ++ ps } else B

theorem withPreds_id (k : String) (ps : List String) (B : Block) : (withPreds k ps B).id = B.id := by
  unfold withPreds
  split <;> rfl

theorem addComesFrom_eq (k : String) : ∀ (ps : List String) (G : BlockList), (∃ B ∈ G.blocks, B.id = k) →
    addComesFrom k ps G = some { G with blocks := G.blocks.map (withPreds k (ps.filter (· ≠ k))) } := by
  intro ps
  induction ps with
  | nil =>
    intro G _
    have : withPreds k [] = id := by
      funext B
      simp [withPreds]
    simp [addComesFrom, this]
  | cons p ps ih =>
    intro G hG
    unfold addComesFrom
    by_cases hk : k = p
    · rw [if_neg (by simpa using hk), ih G hG, filter_cons, if_neg (by simpa using hk.symm)]
    · rw [if_pos hk]
      obtain ⟨B, hB, hBk⟩ := hG
      obtain ⟨B', hB'⟩ : ∃ B', G.get k = some B' := by
        refine Option.isSome_iff_exists.1 ?_
        unfold BlockList.get
        rw [find?_isSome]
        exact ⟨B, hB, by simpa using hBk⟩
      rw [hB', Option.bind_some, ih]
      · refine congrArg some ?_
        unfold BlockList.modify
        simp only [map_map]
        congr 1
        refine map_congr_left fun X _ => ?_
        rw [filter_cons, if_pos (by simpa using fun h => hk h.symm)]
        simp only [Function.comp_apply, withPreds]
        by_cases hX : X.id = k
        · simp [hX]
        · simp [hX]
      · refine ⟨{ B with comesFrom := B.comesFrom ++ [p] }, mem_map.2 ⟨B, hB, by rw [if_pos hBk]⟩, hBk⟩

theorem updateComesFrom_eq : ∀ (d : List (String × List String)) (G : BlockList), (d.map (·.1)).Nodup → (∀ k ∈ d.map (·.1), ∃ B ∈ G.blocks, B.id = k) →
    updateComesFrom d G = some { G with blocks := G.blocks.map fun B => { B with comesFrom := B.comesFrom ++ (entryOf d B.id).filter (· ≠ B.id) } } := by
  intro d
  induction d with
  | nil =>
    intro G _ _
    simp [updateComesFrom, entryOf]
  | cons e d ih =>
    obtain ⟨k, ps⟩ := e
    intro G hn hk
    rw [map_cons, nodup_cons] at hn
    unfold updateComesFrom
    rw [addComesFrom_eq k ps G (hk k mem_cons_self), Option.bind_some, ih _ hn.2]
    · refine congrArg some ?_
      simp only [map_map]
      congr 1
      refine map_congr_left fun X _ => ?_
      simp only [Function.comp_apply, withPreds_id]
      by_cases hX : X.id = k
      · have h1 : d.lookup k = none := by
          rw [List.lookup_eq_none_iff]
          intro p hp
          have : p.1 ≠ k := fun h => hn.1 (mem_map.2 ⟨p, hp, h⟩)
          simpa using fun h => this h.symm
        simp [withPreds, hX, entryOf, h1] 
      · simp [withPreds, hX, entryOf, lookup_miss ps d hX]
    · intro x hx
      obtain ⟨B, hB, hBx⟩ := hk x (mem_cons_of_mem _ hx)
      exact ⟨_, mem_map.2 ⟨B, hB, rfl⟩, by rw [withPreds_id]; exact hBx⟩

/-- A parsed block. -/
def parsedBlock (obj : String) (blocks : List JBlock) (b : JBlock) : Block :=
  { convBlock obj b with comesFrom := (edgesTo obj blocks (blockName obj b.id)).filter (· ≠ blockName obj b.id) }

/-- What the parser makes of a list of blocks. -/
theorem parseBlockList_eq {obj : String} {blocks : List JBlock} (h : BlocksOk blocks) :
    parseBlockList obj blocks = some
      { blocks := blocks.map (parsedBlock obj blocks), start := blocks.head?.map fun b => blockName obj b.id,
        terminals := termsOf obj blocks, returns := retsOf obj blocks } := by
  have hn : (blocks.map fun b => blockName obj b.id).Nodup := by
    rw [show (fun b : JBlock => blockName obj b.id) = blockName obj ∘ (·.id) from rfl, ← map_map]
    exact h.ids.map fun a b => blockName_inj
  obtain ⟨G', d', h1, h2, h3, h4, h5, h6, h7, h8⟩ := readBlocks_eq obj blocks ⟨[], none, [], []⟩ [] h.block (by simpa using hn) (by simp) (by simp)
  unfold parseBlockList
  rw [h1, Option.bind_some]
  simp only []
  rw [updateComesFrom_eq d' G' h6]
  · refine congrArg some ?_
    obtain ⟨bl, st, te, re⟩ := G'
    dsimp only at h2 h3 h4 h5
    simp only [nil_append] at h2 h3 h4 h5
    subst h2 h4 h5
    simp only [map_map]
    congr 1
    · refine map_congr_left fun b _ => ?_
      have e := h7 (blockName obj b.id)
      rw [show entryOf [] (blockName obj b.id) = [] from rfl, nil_append] at e
      simp only [Function.comp_apply, parsedBlock]
      rw [← e]
      rfl
    · rw [h3]
      cases blocks with
      | nil => rfl
      | cons b l => rfl
  · intro x hx
    rcases h8 x hx with h9 | ⟨b, hb, h9⟩
    · cases h9
    · obtain ⟨t, ht, rfl⟩ := mem_map.1 h9
      obtain ⟨b', hb', rfl⟩ := h.targets b hb t ht
      exact ⟨convBlock obj b', by rw [h2]; exact mem_map.2 ⟨b', hb', rfl⟩, rfl⟩

end Grey.Parser
