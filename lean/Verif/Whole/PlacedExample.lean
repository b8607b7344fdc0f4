/-
C95: an object with more variables than the stack can reach meets the hypotheses.

    y := sload(0); x0 := y + 1; …; x16 := y + 17;
    if x0 then { sstore(x1, x2); sstore(x3, x4); …; sstore(x15, x16); sstore(x0, x0) }
    stop

The names after the front end are `v0` for `y` and `v1`, …, `v17` for `x0`, …, `x16`. `v9` is out of reach in the second block, and `v8` after a while.
-/
import Verif.Whole.Placed
import Verif.Whole.StoredPipelineExample
namespace Grey.Whole
open List Grey.Cfg Grey.Inline Grey.Lower Grey.Sfs Grey.Program Grey.SymExec Grey.Front Grey.Stored Grey.Repair

def deMain : BlockList :=
  { start := some "o_Block0"
    terminals := ["o_M1", "o_M2"]
    blocks := [
      { id := "o_Block0", jumpType := "conditional", jumpTo := some "o_M1", fallsTo := some "o_M2", cond := some "x0",
        instrs := ⟨"sload", ["0x00"], ["y"]⟩ :: (List.range 17).map fun i => ⟨"add", ["y", "0x0" ++ toString (i + 1)], ["x" ++ toString i]⟩ },
      { id := "o_M1", jumpType := "terminal", comesFrom := ["o_Block0"],
        instrs := ((List.range 8).map fun i => ⟨"sstore", ["x" ++ toString (2 * i + 1), "x" ++ toString (2 * i + 2)], []⟩) ++
          [⟨"sstore", ["x0", "x0"], []⟩, ⟨"stop", [], []⟩] },
      { id := "o_M2", jumpType := "terminal", comesFrom := ["o_Block0"], instrs := [⟨"stop", [], []⟩] }] }

def deObj : Obj := Obj.ofList deMain []

def deLow : List String × Obj × TagDict := (frontEnd [] [] deObj).getD ([], deObj, [])
def deChoices (c : Option String) : Choices := ((deLow.2.1.comp c).map fun C => standard 40 10 C.body).getD ⟨[], [], 0, 0⟩
def deProg : Prog := programOf deLow.1 whDec "main" deChoices (fun _ => true) deLow.2.1
def deFn : Fn := (deProg.fns "main").getD ⟨exMainGraph, fun _ => [], fun _ => none⟩

/-- The plans of the scheduler: in the second block the writes in their order, with a copy of each variable left. -/
def deGuide (_ b : String) : Guide :=
  let p : Greedy.Plan := if b = "o_M1" then
    ⟨(List.range 9).map fun i => "SSTORE_" ++ toString i, [], (List.range 17).map fun i => ("v" ++ toString (i + 1), if i = 0 then 4 else 3), []⟩ else ⟨[], [], [], []⟩
  ⟨200, whHeur, whHeur, p, p⟩

def deSched : String → String → List String := scheduledIds deProg deGuide

/-- The variables that can be reached in a block. -/
def deReach (b : String) : Reach :=
  match (Layout.specsOf deFn.graph).lookup b with
  | none => fun _ => none
  | some lay =>
    match buildSpec (deFn.instrs b) (deFn.split b) [] (Layout.substDuplicates lay.1) lay.2 with
    | none => fun _ => none
    | some (built, _) => (reachability 16 (built.entries.map (·.instr)) (deSched "main" b) built.src none).getD fun _ => none

/-- `v9` is stored in the first block at 128, `v8` in the second one at 160. -/
def deChoice : Choice where
  stores _ b := if b = "o_Block0" then ["v9"] else if b = "o_M1" then ["v8"] else []
  reach _ b := deReach b
  cell _ v := if v = "v9" then some 128 else if v = "v8" then some 160 else none
  regs _ _ := []
  dups _ _ := []

def deTree : DTree String := .node "o_Block0" (.node "o_M1" .nil (.node "o_M2" .nil .nil)) .nil

def deW : Written := writtenBy deChoice deSched

/-- The stores and the loads in the second block. -/
theorem de_written : deW.sched "main" "o_M1" = ["DUP11", "DUP11", "SSTORE_0", "DUP13", "DUP13", "SSTORE_1", "DUP15", "DUP15", "SSTORE_2", "DUP16", "PUSH a0", "MSTORE",
    "PUSH 80", "MLOAD", "PUSH a0", "MLOAD", "SSTORE_3", "DUP3", "DUP3", "SSTORE_4", "DUP5", "DUP5", "SSTORE_5", "DUP7", "DUP7", "SSTORE_6", "DUP9", "DUP9", "SSTORE_7",
    "DUP1", "DUP1", "SSTORE_8"] ∧ (deW.sched "main" "o_Block0").take 6 = ["PUSH0_0", "SLOAD_0", "PUSH_8", "ADD_8", "PUSH0_0", "SLOAD_0"] ∧
    ["DUP16", "PUSH 80", "MSTORE"] <:+: deW.sched "main" "o_Block0" := by decide +kernel

/-! ### The object -/

theorem deObj_compilable : Compilable [] deObj :=
  compilable_of_check (cert := fun _ => (fun b => if b = "o_Block0" then [] else "y" :: (List.range 17).map fun i => "x" ++ toString i,
      "y" :: (List.range 17).map fun i => "x" ++ toString i))
    (grp := fun _ b => if b = "o_Block0" then 0 else if b = "o_M1" then 1 else 2) (rank := fun _ _ => 0) (main := deMain) (fns := []) (by decide +kernel)

theorem deObj_order : CalleesFirst deObj [] :=
  order_of_check deObj_compilable.source.comps (by decide +kernel)

theorem deObj_ending : Ending [] deObj := by
  have hall : ((compsOf deMain []).all fun p => p.2.body.blocks.all fun X => (X.entries.isEmpty || X.entries == X.comesFrom) &&
      (X.jumpType != "terminal" || match X.instrs.getLast? with
        | none => true
        | some i => decide (i.op ∈ Lower.haltOps)) && X.jumpType != "mainExit") = true := by decide +kernel
  simp only [all_eq_true, Bool.and_eq_true, Bool.or_eq_true, bne_iff_ne, beq_iff_eq, List.isEmpty_iff] at hall
  refine ⟨fun c C hC x X hX => ?_, fun c C hC x X hX hj => ?_, fun c C hC x X hX hj => ?_⟩
  · rcases (hall _ (mem_compsOf hC) X (get_mem hX)).1.1 with h | h
    · exact Or.inl h
    · exact Or.inr (h ▸ Perm.refl _)
  · rcases (hall _ (mem_compsOf hC) X (get_mem hX)).1.2 with h | h
    · exact absurd hj h
    · split at h
      · rename_i e
        exact Or.inl (getLast?_eq_none_iff.1 e)
      · rename_i i e
        exact Or.inr ⟨i, e, by rw [append_nil]; exact of_decide_eq_true h⟩
  · exact absurd hj (hall _ (mem_compsOf hC) X (get_mem hX)).2

theorem deObj_code {c : Option String} {C : Cfg.Component} {x : String} {X : Block} {i : Instr} (hC : deObj.comp c = some C) (hX : C.body.get x = some X)
    (hi : i ∈ code X) : (i.op ∈ ["functionReturn", "stop"] ∧ i.outs = [] ∧ (i.op = "stop" → i.ins = [])) ∨ Fragment (toIns whDec i) ∧ i.op ≠ "PUSH [tag]" := by
  have hall : ((compsOf deMain []).all fun p => p.2.body.blocks.all fun Y => (code Y).all fun j =>
      decide ((j.op ∈ ["functionReturn", "stop"] ∧ j.outs = [] ∧ (j.op = "stop" → j.ins = [])) ∨ Fragment (toIns whDec j) ∧ j.op ≠ "PUSH [tag]")) = true := by
    decide +kernel
  simp only [all_eq_true, decide_eq_true_eq] at hall
  exact hall _ (mem_compsOf hC) X (get_mem hX) i hi

theorem deObj_ops : OpsOk [] whDec (evmTag whTag) deObj := by
  refine ⟨fun o _ => rfl, ?_, fun t w => by simp [evmTag]⟩
  intro c C x X i hC hX hi hop
  obtain ⟨u1, u2, u3, u4, u5⟩ := evmUp
  rcases deObj_code hC hX hi with ⟨h, -⟩ | ⟨h, hn⟩
  · exact absurd (by simp only [mem_cons, not_mem_nil, or_false] at h; rcases h with h | h <;> rw [h] <;> decide) hop
  · obtain ⟨-, h⟩ := h
    obtain ⟨op, ins, outs⟩ := i
    simp only [toIns, whDec] at h hn hop ⊢
    rcases h with ⟨rfl, h1, h2⟩ | ⟨rfl, h1, h2⟩ | ⟨rfl, h1, h2⟩ | ⟨rfl, h1, h2⟩
    · refine ⟨by decide +kernel, fun args w ha => ?_, fun e => absurd e (by decide)⟩
      obtain ⟨a, rfl⟩ : ∃ a, args = [a] := length_eq_one_iff.1 (ha.trans h1)
      simp [operation, u4, evmTag, evm, h2]
    · refine ⟨by decide +kernel, fun args w ha => ?_, fun e => absurd e (by decide)⟩
      obtain ⟨a, b, rfl⟩ : ∃ a b, args = [a, b] := length_eq_two.1 (ha.trans h1)
      simp [operation, u3, evmTag, evm, h2]
    · refine ⟨by decide +kernel, fun args w ha => ?_, fun e => absurd e (by decide)⟩
      obtain ⟨a, b, rfl⟩ : ∃ a b, args = [a, b] := length_eq_two.1 (ha.trans h1)
      simp [operation, u5, evmTag, evm, h2]
    · exact absurd rfl hn

theorem deObj_emittable : Emittable whDec (evmTag whTag) exArity [] deObj := by
  refine ⟨rfl, ?_, ?_, ?_⟩
  · intro c C x X i hC hX hi ho
    rcases deObj_code hC hX hi with ⟨-, h, -⟩ | ⟨⟨-, h⟩, -⟩
    · exact h
    · exfalso
      simp only [toIns, whDec, ho] at h
      rcases h with ⟨h, -⟩ | ⟨h, -⟩ | ⟨h, -⟩ | ⟨h, -⟩ <;> exact absurd h (by decide)
  · intro c C x X i hC hX hi ho
    rcases deObj_code hC hX hi with ⟨h0, h1, h2⟩ | ⟨⟨-, h⟩, -⟩
    · simp only [mem_cons, not_mem_nil, or_false] at h0
      rcases h0 with h0 | h0
      · rw [h0] at ho; exact absurd ho (by decide)
      · refine ⟨h1, ?_⟩
        rw [h2 h0, h0]
        decide +kernel
    · exfalso
      simp only [toIns, whDec] at h
      rcases h with ⟨h, -⟩ | ⟨h, -⟩ | ⟨h, -⟩ | ⟨h, -⟩ <;> rw [h] at ho <;> exact absurd ho (by decide)
  · intro c C x X i hC hX hi ho
    rcases deObj_code hC hX hi with ⟨h, -⟩ | ⟨h, hn⟩
    · exact absurd (by simp only [mem_cons, not_mem_nil, or_false] at h; rcases h with h | h <;> rw [h] <;> decide) ho
    · exact fragment_writable h fun e => absurd e hn

theorem deObj_evm : EvmLike [] whDec (evmTag whTag) deObj := by
  have kinds : ∀ {c C x X i}, deObj.comp c = some C → C.body.get x = some X → i ∈ code X → i.op ∉ ["functionReturn"] ++ Lower.haltOps ++ [] →
      (i.op = "sload" ∧ i.ins.length = 1 ∧ i.outs.length = 1) ∨ (i.op = "sstore" ∧ i.ins.length = 2 ∧ i.outs.length = 0) ∨
        (i.op = "add" ∧ i.ins.length = 2 ∧ i.outs.length = 1) := by
    intro c C x X i hC hX hi ho
    rcases deObj_code hC hX hi with ⟨h, -⟩ | ⟨⟨-, h⟩, hn⟩
    · exact absurd (by simp only [mem_cons, not_mem_nil, or_false] at h; rcases h with h | h <;> rw [h] <;> decide) ho
    · rcases h with h | h | h | h
      · exact Or.inl h
      · exact Or.inr (Or.inl h)
      · exact Or.inr (Or.inr h)
      · exact absurd h.1 hn
  refine ⟨?_, ?_, whObj_evm.comm, whObj_evm.tag⟩
  · intro c C x X i hC hX hi ho
    show EvmOp _ i.op none _ _
    rcases kinds hC hX hi ho with ⟨h1, h2, h3⟩ | ⟨h1, h2, h3⟩ | ⟨h1, h2, h3⟩ <;> rw [h1, h2, h3]
    · exact evmOp_sload
    · exact evmOp_sstore
    · exact evmOp_add
  · intro c C x X i c' C' x' X' j hC hX hi ho hC' hX' hj ho'
    show i.op.map Char.toUpper = j.op.map Char.toUpper → i.op = j.op
    rcases kinds hC hX hi ho with ⟨h1, -⟩ | ⟨h1, -⟩ | ⟨h1, -⟩ <;> rcases kinds hC' hX' hj ho' with ⟨h2, -⟩ | ⟨h2, -⟩ | ⟨h2, -⟩ <;> rw [h1, h2] <;> decide +kernel

/-! ### The blocks -/

theorem de_graph : deFn.graph.start = "o_Block0" ∧ (∀ b ∈ nodes deTree, ∃ B ∈ deFn.graph.blocks, B.id = b) ∧ Layout.OneJoin deFn.graph ∧
    ∀ B ∈ deFn.graph.blocks, B.id ∈ nodes deTree ∧ B.phis = [] ∧ B.jumpType ≠ "sub_block" ∧ deFn.exitOuts B = [] ∧
      (B.id ≠ "o_Block0" → B.succs = [] ∧ B.fallsTo = none ∧ ∀ i ∈ deFn.instrs B.id, i.outArgs = []) ∧
      (B.id = "o_Block0" → B.jumpTo = some "o_M1" ∧ B.fallsTo = some "o_M2" ∧ B.succs = ["o_M1", "o_M2"]) ∧
      (match deProg.exit deFn B with | .branch => B.id == "o_Block0" | .halt => true | _ => false) = true ∧
      (∀ i ∈ deFn.instrs B.id, Fragment i ∧ ∀ v ∈ ["v8", "v9"], v ∈ i.outArgs → B.id = "o_Block0" ∧ i.op = "add" ∧ i.lits = none ∧ i.inArgs.length = 2 ∧ i.outArgs = [v]) ∧
      (B.id = "o_Block0" → ∀ v ∈ ["v8", "v9"], ∃ i ∈ deFn.instrs B.id, v ∈ i.outArgs) := by
  unfold Layout.OneJoin
  decide +kernel

theorem de_specs : ∀ p ∈ Layout.specsOf deFn.graph, (Layout.specsOf deFn.graph).lookup p.1 = some p.2 ∧ (Layout.substDuplicates p.2.1).Nodup ∧
    (match buildSpec (deFn.instrs p.1) (deFn.split p.1) [] (Layout.substDuplicates p.2.1) p.2.2 with
    | some q => q.1.unused.isEmpty && (reachability 16 (q.1.entries.map (·.instr)) (deSched "main" p.1) q.1.src none).isSome
    | none => false) = true := by
  decide +kernel

theorem de_okBlocks : ∀ p ∈ Layout.specsOf deFn.graph, OkBlock (deFn.instrs p.1) (Layout.substDuplicates p.2.1) := by
  decide +kernel

theorem de_keys : ∀ p ∈ Layout.specsOf deFn.graph, ∀ a ∈ deFn.instrs p.1, a.op ∈ ["sload", "sstore", "tload", "tstore"] → ∀ u ∈ a.inArgs.take 1, ∀ b ∈ deFn.instrs p.1,
    u ∉ b.outArgs := by
  decide +kernel

theorem de_scanned : (Kept.storesIn deW "main" "o_Block0" = ["v9"] ∧ Kept.storesIn deW "main" "o_M1" = ["v8"] ∧ Kept.storesIn deW "main" "o_M2" = []) ∧
    allStores (Kept.scanTree deW (fun _ => deTree) "main") = ["v9", "v8"] ∧
    (treeScan (fun _ => none) (Kept.scanTree deW (fun _ => deTree) "main") 2).map (fun c => (c "v9", c "v8")) = some (some 0, some 1) ∧
    (∀ B ∈ deFn.graph.blocks, B.jumpType = "terminal" → deW.sched "main" B.id = [] → B.phis = [] ∧ deFn.instrs B.id = []) := by
  decide +kernel

theorem de_chosen : Kept.chosenB (deChoice.stores "main") ["v8", "v9"] deTree (Kept.placement (deSched "main") (deChoice.reach "main") (fun _ _ => true) deTree).1 = true ∧
    (∀ v ∈ ["v8", "v9"], (Kept.placement (deSched "main") (deChoice.reach "main") (fun _ _ => true) deTree).2 v = false) ∧
    ∀ b ∈ nodes deTree, ∀ v ∈ (deSched "main" b).filterMap vgetOf, v ∈ ["v8", "v9"] := by
  decide +kernel

end Grey.Whole
