/-
C65: the graph the parser builds is the one of the document.
-/
import Verif.Parser.Theorem
namespace Grey.Parser
open List Grey.Cfg Grey.Inline

/-- The blocks to which the exit of a block can lead. -/
def jsuccs (b : JBlock) : List String :=
  if b.exit.type = "Jump" then b.exit.targets.take 1 else if b.exit.type = "ConditionalJump" then b.exit.targets.take 2 else []

theorem succs_parsed {obj : String} {blocks : List JBlock} {b : JBlock} (h : BlockOk b) (t : String) :
    t ∈ (parsedBlock obj blocks b).succs ↔ t ∈ (jsuccs b).map (blockName obj) := by
  obtain ⟨h1, h2, h3, -, -, -, -⟩ := h
  unfold exitTypes at h1
  simp only [mem_cons, not_mem_nil, or_false] at h1
  unfold Block.succs jsuccs
  rcases h1 with h1 | h1 | h1 | h1 | h1
  · cases ht : b.exit.targets with
    | nil => exact absurd ht (h2 h1)
    | cons t l => simp [parsedBlock, convBlock, h1, ht]
  · have h3 := (h3 h1).1
    match ht : b.exit.targets with
    | [] => simp [ht] at h3
    | [_] => simp [ht] at h3
    | t :: t' :: l => simp [parsedBlock, convBlock, h1, ht, or_comm]
  all_goals simp [parsedBlock, convBlock, h1]

theorem mem_edgesTo {obj : String} {blocks : List JBlock} {p x : String} :
    p ∈ edgesTo obj blocks (blockName obj x) ↔ ∃ b ∈ blocks, p = blockName obj b.id ∧ x ∈ b.exit.targets := by
  unfold edgesTo
  rw [mem_flatMap]
  refine exists_congr fun b => and_congr_right fun _ => ?_
  rw [mem_map]
  constructor
  · rintro ⟨t, ht, rfl⟩
    obtain ⟨ht, he⟩ := mem_filter.1 ht
    obtain ⟨t', ht', rfl⟩ := mem_map.1 ht
    rw [blockName_inj (of_decide_eq_true he)] at ht'
    exact ⟨rfl, ht'⟩
  · rintro ⟨rfl, hx⟩
    exact ⟨blockName obj x, mem_filter.2 ⟨mem_map.2 ⟨x, hx, rfl⟩, decide_eq_true rfl⟩, rfl⟩

theorem mem_preds {obj : String} {blocks : List JBlock} {b : JBlock} {p : String} :
    p ∈ (parsedBlock obj blocks b).comesFrom ↔ ∃ b' ∈ blocks, p = blockName obj b'.id ∧ b.id ∈ b'.exit.targets ∧ b'.id ≠ b.id := by
  show p ∈ (edgesTo obj blocks (blockName obj b.id)).filter _ ↔ _
  rw [mem_filter, mem_edgesTo]
  constructor
  · rintro ⟨⟨b', h1, rfl, h2⟩, h3⟩
    exact ⟨b', h1, rfl, h2, fun h => of_decide_eq_true h3 (by rw [h])⟩
  · rintro ⟨b', h1, rfl, h2, h3⟩
    exact ⟨⟨b', h1, rfl, h2⟩, decide_eq_true fun h => h3 (blockName_inj h)⟩

theorem find_block {l : List JBlock} {b : JBlock} (hn : (l.map (·.id)).Nodup) (hl : b ∈ l) : (l.find? fun b' => b'.id == b.id) = some b := by
  induction l with
  | nil => cases hl
  | cons a l ih =>
    rw [map_cons, nodup_cons] at hn
    rw [find?_cons]
    by_cases ha : a.id = b.id
    · rcases mem_cons.1 hl with rfl | hb'
      · simp
      · exact absurd (show a.id ∈ l.map (·.id) from mem_map.2 ⟨b, hb', ha.symm⟩) hn.1
    · rcases mem_cons.1 hl with rfl | hb'
      · exact absurd rfl ha
      · have : (a.id == b.id) = false := by simpa using ha
        rw [this]
        exact ih hn.2 hb'

/-- **C65 (graph).** Each list of blocks of the document becomes a list of blocks with the same blocks in the same order; the first one is where it
starts. The exit of a block leads where the document says, its kind is that of the exit, the entries of phi functions are kept, and the recorded
predecessors are the other blocks whose exits have the block among their targets. The recorded exits are the blocks without successors, and the
recorded returns are the blocks that return. -/
theorem parsed_graph {J : JObj} (h : DocOk J) : ∃ O, parseObject J = some O ∧
    (∀ f, (∃ F, O.fns f = some F) ↔ f ∈ J.functions.map (·.1)) ∧
    ∀ c blocks, J.blocksOf c = some blocks → ∃ C, O.comp c = some C ∧
      C.body.blocks.map (·.id) = blocks.map (fun b => blockName (compName J c) b.id) ∧
      C.body.start = blocks.head?.map (fun b => blockName (compName J c) b.id) ∧
      (∀ x, x ∈ C.body.terminals ↔ ∃ b ∈ blocks, x = blockName (compName J c) b.id ∧ jsuccs b = []) ∧
      (∀ x, x ∈ C.body.returns ↔ ∃ b ∈ blocks, x = blockName (compName J c) b.id ∧ b.exit.type = "FunctionReturn") ∧
      ∀ b ∈ blocks, ∃ B, C.body.get (blockName (compName J c) b.id) = some B ∧ B.jumpType = kindOf b.exit.type ∧
        (∀ t, t ∈ B.succs ↔ t ∈ (jsuccs b).map (blockName (compName J c))) ∧
        B.entries = b.entries.map (blockName (compName J c)) ∧
        ∀ p, p ∈ B.comesFrom ↔ ∃ b' ∈ blocks, p = blockName (compName J c) b'.id ∧ b.id ∈ b'.exit.targets ∧ b'.id ≠ b.id := by
  refine ⟨parsedObj J, parseObject_eq h, ?_, ?_⟩
  · intro f
    show (∃ F, (J.functions.lookup f).map _ = some F) ↔ _
    cases hF : J.functions.lookup f with
    | some F => exact ⟨fun _ => mem_map.2 ⟨(f, F), lookup_mem hF, rfl⟩, fun _ => ⟨_, rfl⟩⟩
    | none =>
      constructor
      · rintro ⟨F, hF⟩
        cases hF
      · intro hf
        obtain ⟨e, he, rfl⟩ := mem_map.1 hf
        have := List.lookup_eq_none_iff.1 hF e he
        simp at this
  · intro c blocks hb
    obtain ⟨args, hC⟩ := comp_parsed J c hb
    have hB := blocksOf_mem h hb
    refine ⟨_, hC, ?_, rfl, ?_, ?_, ?_⟩
    · show (blocks.map (parsedBlock (compName J c) blocks)).map _ = _
      rw [map_map]
      rfl
    · intro x
      show x ∈ termsOf (compName J c) blocks ↔ _
      unfold termsOf
      rw [mem_map]
      constructor
      · rintro ⟨b, hb, rfl⟩
        obtain ⟨hb, ht⟩ := mem_filter.1 hb
        refine ⟨b, hb, rfl, ?_⟩
        have ht := of_decide_eq_true ht
        simp only [mem_cons, not_mem_nil, or_false] at ht
        unfold jsuccs
        rcases ht with e | e | e <;> simp [e]
      · rintro ⟨b, hb, rfl, hs⟩
        refine ⟨b, mem_filter.2 ⟨hb, decide_eq_true ?_⟩, rfl⟩
        obtain ⟨h1, h2, h3, -, -, -, -⟩ := hB.block b hb
        unfold exitTypes at h1
        simp only [mem_cons, not_mem_nil, or_false] at h1
        unfold jsuccs at hs
        rcases h1 with e | e | e | e | e
        · cases ht : b.exit.targets with
          | nil => exact absurd ht (h2 e)
          | cons t l => simp [e, ht] at hs
        · have h3 := (h3 e).1
          match ht : b.exit.targets with
          | [] => simp [ht] at h3
          | t :: l => simp [e, ht] at hs
        all_goals simp [e]
    · intro x
      show x ∈ retsOf (compName J c) blocks ↔ _
      unfold retsOf
      rw [mem_map]
      constructor
      · rintro ⟨b, hb, rfl⟩
        obtain ⟨hb, ht⟩ := mem_filter.1 hb
        exact ⟨b, hb, rfl, of_decide_eq_true ht⟩
      · rintro ⟨b, hb, rfl, hs⟩
        exact ⟨b, mem_filter.2 ⟨hb, decide_eq_true hs⟩, rfl⟩
    · intro b hb
      refine ⟨parsedBlock (compName J c) blocks b, ?_, rfl, succs_parsed (hB.block b hb), rfl, fun p => mem_preds⟩
      show (parsedList _ _).get _ = _
      rw [get_parsed]
      rw [find_block hB.ids hb]
      rfl

/-- The exits of a list of blocks have no superfluous targets, no target twice, and no block leads to itself. -/
structure PlainExits (blocks : List JBlock) : Prop where
  only : ∀ b ∈ blocks, b.exit.targets = jsuccs b
  once : ∀ b ∈ blocks, b.exit.targets.Nodup
  noSelf : ∀ b ∈ blocks, b.id ∉ b.exit.targets

theorem edges_nodup {obj : String} {x : String} : ∀ {blocks : List JBlock}, (blocks.map (·.id)).Nodup → (∀ b ∈ blocks, b.exit.targets.Nodup) →
    (edgesTo obj blocks x).Nodup := by
  intro blocks
  induction blocks with
  | nil => intro _ _; exact nodup_nil
  | cons a l ih =>
    intro hn ht
    rw [map_cons, nodup_cons] at hn
    show (_ ++ edgesTo obj l x).Nodup
    rw [nodup_append]
    refine ⟨?_, ih hn.2 fun b hb => ht b (mem_cons_of_mem _ hb), ?_⟩
    · have h1 : ((a.exit.targets.map (blockName obj)).filter (· = x)).Nodup := ((ht a mem_cons_self).map fun _ _ => blockName_inj).filter _
      show (map (fun _ => blockName obj a.id) ((a.exit.targets.map (blockName obj)).filter (· = x))).Nodup
      match hl : (a.exit.targets.map (blockName obj)).filter (· = x) with
      | [] => exact nodup_nil
      | [_] => exact nodup_singleton _
      | y :: z :: r =>
        rw [hl] at h1
        exfalso
        have hy : y = x := of_decide_eq_true (mem_filter.1 (hl ▸ mem_cons_self : y ∈ filter (· = x) _)).2
        have hz : z = x := of_decide_eq_true (mem_filter.1 (hl ▸ mem_cons_of_mem _ mem_cons_self : z ∈ filter (· = x) _)).2
        rw [hy, hz] at h1
        exact absurd mem_cons_self (nodup_cons.1 h1).1
    · intro p hp q hq hpq
      subst hpq
      obtain ⟨_, _, rfl⟩ := mem_map.1 hp
      obtain ⟨b, hb, hq⟩ := mem_flatMap.1 hq
      obtain ⟨_, _, hq⟩ := mem_map.1 hq
      exact hn.1 (mem_map.2 ⟨b, hb, blockName_inj hq⟩)

/-- Then the graph is coherent: predecessors and successors agree. -/
theorem parsed_coherent {J : JObj} (h : DocOk J) {c : Option String} {blocks : List JBlock} (hb : J.blocksOf c = some blocks)
    (hp : PlainExits blocks) : ∃ O C, parseObject J = some O ∧ O.comp c = some C ∧ Coherent C.body := by
  obtain ⟨args, hC⟩ := comp_parsed J c hb
  have hB := blocksOf_mem h hb
  refine ⟨_, _, parseObject_eq h, hC, ?_⟩
  have hget : ∀ x X, (parsedList (compName J c) blocks).get x = some X →
      ∃ b ∈ blocks, x = blockName (compName J c) b.id ∧ X = parsedBlock (compName J c) blocks b := by
    intro x X hX
    obtain ⟨b, hb1, hb2⟩ := mem_map.1 (mem_of_find?_eq_some hX)
    have := find?_some hX
    rw [beq_iff_eq] at this
    rw [← hb2] at this
    exact ⟨b, hb1, this.symm, hb2.symm⟩
  have get : ∀ b ∈ blocks, (parsedList (compName J c) blocks).get (blockName (compName J c) b.id) =
      some (parsedBlock (compName J c) blocks b) := by
    intro b hb
    rw [get_parsed, find_block hB.ids hb]
    rfl
  have uniq : ∀ a ∈ blocks, ∀ b ∈ blocks, a.id = b.id → a = b := by
    intro a ha b hb hab
    have h1 := find_block hB.ids ha
    rw [hab, find_block hB.ids hb] at h1
    cases h1
    rfl
  constructor
  · show ((blocks.map (parsedBlock (compName J c) blocks)).map (·.id)).Nodup
    rw [map_map]
    have := hB.ids.map (f := blockName (compName J c)) fun _ _ => blockName_inj
    rwa [map_map] at this
  · intro p q P Q hP hQ
    obtain ⟨b, hb1, rfl, rfl⟩ := hget p P hP
    obtain ⟨b', hb1', rfl, rfl⟩ := hget q Q hQ
    rw [mem_preds, succs_parsed (hB.block b hb1), ← hp.only b hb1]
    constructor
    · rintro ⟨a, ha, e1, e2, -⟩
      cases uniq b hb1 a ha (blockName_inj e1)
      exact mem_map.2 ⟨_, e2, rfl⟩
    · intro ht
      obtain ⟨t, ht, e⟩ := mem_map.1 ht
      cases blockName_inj e
      exact ⟨b, hb1, rfl, ht, fun e => hp.noSelf b hb1 (e ▸ ht)⟩
  · intro q Q hQ x hx
    obtain ⟨b', hb1', rfl, rfl⟩ := hget q Q hQ
    obtain ⟨a, ha, rfl, -⟩ := mem_preds.1 hx
    exact ⟨_, get a ha⟩
  · intro p P hP x hx
    obtain ⟨b, hb1, rfl, rfl⟩ := hget p P hP
    rw [succs_parsed (hB.block b hb1), ← hp.only b hb1] at hx
    obtain ⟨t, ht, rfl⟩ := mem_map.1 hx
    obtain ⟨a, ha, rfl⟩ := hB.targets b hb1 t ht
    exact ⟨_, get a ha⟩
  · intro q Q hQ
    obtain ⟨b', hb1', rfl, rfl⟩ := hget q Q hQ
    exact (edges_nodup hB.ids hp.once).filter _

end Grey.Parser
