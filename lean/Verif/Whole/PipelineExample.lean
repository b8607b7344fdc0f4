/-
C86: the example of C64 meets the hypotheses, and the compiler fails if a schedule is wrong.
-/
import Verif.Whole.Pipeline
import Verif.Whole.AnalysedExample
namespace Grey.Whole
open List Grey.Cfg Grey.Inline Grey.Lower Grey.Sfs Grey.Program Grey.SymExec Grey.Front

theorem evmOp_sload : EvmOp (evmTag whTag) "sload" none 1 1 := by
  obtain ⟨u1, u2, u3, u4, u5⟩ := evmUp
  refine ⟨Or.inr (by decide +kernel), by decide +kernel, fun e => absurd e (by decide), fun e => absurd e (by decide), fun e => absurd e (by decide +kernel), by decide +kernel,
    ?_, fun e => absurd e (by decide +kernel), ?_, ?_, ?_⟩
  · intro _ l args w
    rw [u4]
    simp only [evmTag, evm]
    repeat' split
    all_goals simp_all
  · intro args w w' ha h
    obtain ⟨a, rfl⟩ := length_eq_one_iff.1 ha
    have := h (.sto a) (Or.inl ⟨rfl, rfl⟩)
    simpa [operation, u4, evmTag, evm] using this
  · intro args w w' ha h l hl
    obtain ⟨a, rfl⟩ := length_eq_one_iff.1 ha
    simpa [operation, u4, evmTag, evm] using hl
  · intro args w l ha h
    obtain ⟨a, rfl⟩ := length_eq_one_iff.1 ha
    simp [operation, u4, evmTag, evm]

theorem evmOp_add : EvmOp (evmTag whTag) "add" none 2 1 := by
  obtain ⟨u1, u2, u3, u4, u5⟩ := evmUp
  refine ⟨Or.inr (by decide +kernel), by decide +kernel, fun e => absurd e (by decide), fun e => absurd e (by decide), fun e => absurd e (by decide +kernel), by decide +kernel,
    ?_, fun e => absurd e (by decide +kernel), ?_, ?_, ?_⟩
  · intro _ l args w
    rw [u5]
    simp only [evmTag, evm]
    repeat' split
    all_goals simp_all
  · intro args w w' ha h
    obtain ⟨a, b, rfl⟩ := length_eq_two.1 ha
    simp [operation, u5, evmTag, evm]
  · intro args w w' ha h l hl
    obtain ⟨a, b, rfl⟩ := length_eq_two.1 ha
    simpa [operation, u5, evmTag, evm] using hl
  · intro args w l ha h
    obtain ⟨a, b, rfl⟩ := length_eq_two.1 ha
    simp [operation, u5, evmTag, evm]

theorem evmOp_sstore : EvmOp (evmTag whTag) "sstore" none 2 0 := by
  obtain ⟨u1, u2, u3, u4, u5⟩ := evmUp
  refine ⟨Or.inr (by decide +kernel), by decide +kernel, fun e => absurd e (by decide), fun e => absurd e (by decide), fun e => absurd e (by decide +kernel), by decide +kernel,
    fun h => absurd (by decide +kernel) h, fun e => absurd e (by decide +kernel), ?_, ?_, ?_⟩
  · intro args w w' ha h
    obtain ⟨a, b, rfl⟩ := length_eq_two.1 ha
    simp [operation, u3, evmTag, evm]
  · intro args w w' ha h l hl
    obtain ⟨a, b, rfl⟩ := length_eq_two.1 ha
    simp only [operation, u3, evmTag, evm]
    cases l <;> simp [stoStore, hl]
  · intro args w l ha h
    obtain ⟨a, b, rfl⟩ := length_eq_two.1 ha
    simp only [operation, u3, evmTag, evm]
    cases l with
    | sto k =>
      have hk : ¬ a = k := by simpa [MayWrite, Deps.WritesKey] using h
      simp [stoStore, show ¬ k = a from fun e => hk e.symm]
    | _ => simp [stoStore]

/-- The operations of the object are as the specifications of blocks expect them. -/
theorem whObj_evm : EvmLike ["g", "h"] whDec (evmTag whTag) whObj := by
  have kinds : ∀ {c C x X i}, whObj.comp c = some C → C.body.get x = some X → i ∈ code X → i.op ∉ ["functionReturn"] ++ Lower.haltOps ++ ["g", "h"] →
      (i.op = "sload" ∧ i.ins.length = 1 ∧ i.outs.length = 1) ∨ (i.op = "sstore" ∧ i.ins.length = 2 ∧ i.outs.length = 0) ∨
        (i.op = "add" ∧ i.ins.length = 2 ∧ i.outs.length = 1) := by
    intro c C x X i hC hX hi ho
    rcases whObj_code hC hX hi with ⟨h, -⟩ | h | ⟨⟨-, h⟩, hn⟩
    · exact absurd (by simp only [mem_cons, not_mem_nil, or_false] at h; rcases h with h | h <;> rw [h] <;> decide) ho
    · exact absurd (by simp only [mem_cons, not_mem_nil, or_false] at h; rcases h with h | h <;> rw [h] <;> decide) ho
    · rcases h with h | h | h | h
      · exact Or.inl h
      · exact Or.inr (Or.inl h)
      · exact Or.inr (Or.inr h)
      · exact absurd h.1 hn
  refine ⟨?_, ?_, ?_, ?_⟩
  · intro c C x X i hC hX hi ho
    show EvmOp _ i.op none _ _
    rcases kinds hC hX hi ho with ⟨h1, h2, h3⟩ | ⟨h1, h2, h3⟩ | ⟨h1, h2, h3⟩ <;> rw [h1, h2, h3]
    · exact evmOp_sload
    · exact evmOp_sstore
    · exact evmOp_add
  · intro c C x X i c' C' x' X' j hC hX hi ho hC' hX' hj ho'
    show i.op.map Char.toUpper = j.op.map Char.toUpper → i.op = j.op
    rcases kinds hC hX hi ho with ⟨h1, -⟩ | ⟨h1, -⟩ | ⟨h1, -⟩ <;> rcases kinds hC' hX' hj ho' with ⟨h2, -⟩ | ⟨h2, -⟩ | ⟨h2, -⟩ <;> rw [h1, h2] <;> decide +kernel
  · intro o ho l a b w
    simp only [mem_cons, not_mem_nil, or_false] at ho
    rcases ho with rfl | rfl | rfl | rfl | rfl | rfl <;> simp [evmTag, evm, Nat.add_comm]
  · intro l args w
    simp [evmTag]

/-- The program that the layout generation works on. -/
def whProg2 : Prog := programOf whLow.1 whDec "main" whChoices (fun _ => true) whLow.2.1
def whMainFn2 : Fn := (whProg2.fns "main").getD ⟨exMainGraph, fun _ => [], fun _ => none⟩
def whGFn2 : Fn := (whProg2.fns "g").getD ⟨exMainGraph, fun _ => [], fun _ => none⟩

/-- What is not checked by the compiler, as a check. -/
def uncheckedOf (F : Fn) (sched : String → List String) : Bool :=
  decide (∀ B ∈ F.graph.blocks, ∃ p ∈ Layout.specsOf F.graph, p.1 = B.id) &&
  decide (∀ p ∈ Layout.specsOf F.graph, OkCode (F.instrs p.1) (F.split p.1) p.2.1 p.2.2 (F.graph.canJunk p.1) (sched p.1) ∧
      (Layout.substDuplicates p.2.1).Nodup)

theorem unchecked_of {F : Fn} {sched : String → List String} (h : uncheckedOf F sched = true) :
    (∀ st, Layout.drive F.graph = .ok st → ∀ B ∈ F.graph.blocks, ∀ src tgt, (B.id, src, tgt) ∈ st.specs →
      (Layout.substDuplicates src).Nodup) ∧
    (∀ st, Layout.drive F.graph = .ok st → ∀ B ∈ F.graph.blocks, ∀ src tgt, (B.id, src, tgt) ∈ st.specs →
      ∀ built deps, buildSpec (F.instrs B.id) (F.split B.id) [] (Layout.substDuplicates src) tgt = some (built, deps) →
      ∀ env w, Sfs.Analysable (F.instrs B.id) built.positions built.unused ((evmTag whTag).read (blockRun (evmTag whTag) (F.instrs B.id) env w).1)) ∧
    ∀ B ∈ F.graph.blocks, ∀ s ∈ sched B.id, classify s ≠ some (.swap 0) := by
  unfold uncheckedOf at h
  rw [Bool.and_eq_true, decide_eq_true_eq, decide_eq_true_eq] at h
  obtain ⟨h1, h2⟩ := h
  have mem : ∀ st, Layout.drive F.graph = .ok st → ∀ b src tgt, (b, src, tgt) ∈ st.specs → (b, src, tgt) ∈ Layout.specsOf F.graph := by
    intro st hst b src tgt hs
    unfold Layout.specsOf; rw [hst]; exact hs
  refine ⟨?_, ?_, ?_⟩
  · intro st hst B hB src tgt hs
    exact (h2 _ (mem st hst _ _ _ hs)).2
  · intro st hst B hB src tgt hs built deps hb env w
    obtain ⟨g1, -, g3, -, g5⟩ := (h2 _ (mem st hst _ _ _ hs)).1
    rw [hb] at g3
    rw [g3.2]
    exact okAnalysable g1 g5 _
  · intro B hB s hs e
    obtain ⟨p, hp, e'⟩ := h1 B hB
    have := (h2 p hp).1.2.2.2.1 s (by rw [e']; exact hs)
    rw [e] at this
    exact this

theorem inOrder_of {G : Layout.Component} (h : Placeable G) : InOrder G := ⟨h.oneFall, h.condJump, h.chain⟩

theorem wh_unchecked (hfns : ∀ f F, whProg2.fns f = some F → (f = "main" ∧ F = whMainFn2) ∨ (f = "g" ∧ F = whGFn2)) :
    Unchecked whProg2 (evmTag whTag) whSched := by
  have key : ∀ f F, whProg2.fns f = some F → uncheckedOf F (whSched f) = true := by
    intro f F hF
    rcases hfns f F hF with ⟨rfl, rfl⟩ | ⟨rfl, rfl⟩ <;> decide +kernel
  refine ⟨⟨?_, ?_, fun f F hF => (unchecked_of (key f F hF)).1, fun f F hF => (unchecked_of (key f F hF)).2.1, ?_⟩, ?_⟩
  · intro f F hF
    rcases hfns f F hF with ⟨rfl, rfl⟩ | ⟨rfl, rfl⟩ <;> unfold Layout.OneJoin <;> decide +kernel
  · intro f F hF
    rcases hfns f F hF with ⟨rfl, rfl⟩ | ⟨rfl, rfl⟩
    · exact inOrder_of (placeable_congr (by decide +kernel) (by decide +kernel) whMain_place)
    · exact inOrder_of (placeable_congr (by decide +kernel) (by decide +kernel) whG_place)
  · intro f F hF B hB hj hn
    rcases hfns f F hF with ⟨rfl, rfl⟩ | ⟨rfl, rfl⟩
    · have : ∀ B ∈ whMainFn2.graph.blocks, B.jumpType = "terminal" → ∃ s ∈ whSched "main" B.id, s ≠ "NOP" := by decide +kernel
      obtain ⟨s, hs, hne⟩ := this B hB hj
      exact absurd (hn s hs) hne
    · have : ∀ B ∈ whGFn2.graph.blocks, B.jumpType = "terminal" → ∃ s ∈ whSched "g" B.id, s ≠ "NOP" := by decide +kernel
      obtain ⟨s, hs, hne⟩ := this B hB hj
      exact absurd (hn s hs) hne
  · intro f F hF B hB
    have h1 : ∀ b ∈ ["o_M2", "o_Block0f", "o_Block0s", "o_M3ff", "o_M3fs", "g_Block0"], ∀ f, PlainIds (whSched f b) := by
      intro b hb f
      show PlainIds (whSched "" b)
      simp only [mem_cons, not_mem_nil, or_false] at hb
      rcases hb with rfl | rfl | rfl | rfl | rfl | rfl <;> exact plain_ids (by decide +kernel)
    refine ⟨h1 _ ?_ f, (unchecked_of (key f F hF)).2.2 B hB⟩
    rcases hfns f F hF with ⟨rfl, rfl⟩ | ⟨rfl, rfl⟩
    · have : ∀ B ∈ whMainFn2.graph.blocks, B.id ∈ ["o_M2", "o_Block0f", "o_Block0s", "o_M3ff", "o_M3fs", "g_Block0"] := by decide +kernel
      exact this B hB
    · have : ∀ B ∈ whGFn2.graph.blocks, B.id ∈ ["o_M2", "o_Block0f", "o_Block0s", "o_M3ff", "o_M3fs", "g_Block0"] := by decide +kernel
      exact this B hB

/-- The object meets the hypotheses of C86: the compiler writes its assembly, which does what it does. -/
theorem wh_compiled : ∃ code, compileObject ["g", "h"] ["g", "h"] whDec "main" whChoices (fun _ => true) whSched whObj = some code ∧
    AssemblyLike (evmTag whTag) whDec exArity code whObj := by
  obtain ⟨code, hc⟩ := Option.isSome_iff_exists.1 (show (compileObject ["g", "h"] ["g", "h"] whDec "main" whChoices (fun _ => true) whSched whObj).isSome by decide +kernel)
  refine ⟨code, hc, ?_⟩
  obtain ⟨names', O', T, h1, h2⟩ := compiled_like_source_partial whObj_compilable whObj_order whObj_ending whObj_ops (main := "main") (by decide +kernel)
    whObj_emittable whTag_meaning (fun _ => rfl) whObj_evm hc
  obtain ⟨names2, O2, T2, g1, -, g3, -⟩ := whole_compiler_partial whObj_compilable whObj_order whObj_ending whObj_ops (main := "main") (by decide +kernel)
    whObj_emittable whTag_meaning (fun _ => rfl)
  rw [h1] at g1
  cases g1
  have hl : whLow = (names', O', T) := by unfold whLow; rw [h1]; rfl
  have hp : whProg2 = programOf names' whDec "main" whChoices (fun _ => true) O' := by unfold whProg2; rw [hl]
  have hnames : names' = ["g"] := by
    have : whLow.1 = ["g"] := by decide +kernel
    rw [hl] at this
    exact this
  rw [← hp] at h2
  refine h2 (wh_unchecked ?_)
  intro f F hF
  by_cases hf : f = "main"
  · subst hf
    exact Or.inl ⟨rfl, by unfold whMainFn2; rw [hF]; rfl⟩
  · have hg : f = "g" := by
      have hF' := hF
      rw [hp] at hF'
      unfold programOf toProg at hF'
      simp only [if_neg hf, Option.map_eq_some_iff] at hF'
      obtain ⟨G, hG, -⟩ := hF'
      have := (g3 f).2 ⟨G, hG⟩
      rw [hnames] at this
      simpa using this
    subst hg
    exact Or.inr ⟨rfl, by unfold whGFn2; rw [hF]; rfl⟩

/-- The assembly is that of the example of C64. -/
example : compileObject ["g", "h"] ["g", "h"] whDec "main" whChoices (fun _ => true) whSched whObj = assemble whProg whLow.1 (tagOf whLow.2.2) whSched 5 := by
  decide +kernel

/-- A schedule that leaves the value to return above the place to return to is not accepted. -/
example : compileObject ["g", "h"] ["g", "h"] whDec "main" whChoices (fun _ => true)
    (fun f b => if b = "g_Block0" then ["PUSH_0", "ADD_0"] else whSched f b) whObj = none := by
  decide +kernel

/-- If something is missing in one schedule, nothing is written. -/
example : compileObject ["g", "h"] ["g", "h"] whDec "main" whChoices (fun _ => true)
    (fun f b => if b = "o_Block0s" then ["DUP1", "PUSH_0", "SSTORE_0", "PUSH [TAG]_0"] else whSched f b) whObj = none := by
  decide +kernel

end Grey.Whole
