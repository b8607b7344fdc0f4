/-
C86 with the scheduler and variables in memory: the example of C64 meets the hypotheses.
-/
import Verif.Whole.StoredPipeline
import Verif.Whole.ScheduledExample
import Verif.Whole.StoredExample
namespace Grey.Whole
open List Grey.Cfg Grey.Inline Grey.Lower Grey.Sfs Grey.Program Grey.SymExec Grey.Front Grey.Stored Grey.Repair

/-- The sum in the main code is stored at 192 and copied to 256, the one in the function is stored at 224. -/
def whChoice : Choice where
  stores _ b := if b = "o_M3ff" then ["v8"] else if b = "g_Block0" then ["v6"] else []
  reach _ b v := if b = "o_M3ff" ∧ v = "v8" then some (0, 4, false) else if b = "g_Block0" ∧ v = "v6" then some (0, 2, false) else none
  cell _ := whCell
  regs _ b := if b = "o_M3ff" then [("v8", (256, 192))] else []
  dups _ _ := []

/-- What is written. -/
def whWritten2 : Written := writtenBy whChoice (scheduledIds whProg2 whGuide)

/-- The sum of the main code is known to be at 192 after the call. -/
def whPlaces2 : Places where
  before := fun f b => if f = "main" ∧ b = "o_M3fs" then [("v8", 192)] else []
  after := fun _ b => if b = "o_M3ff" then [("v8", 192), ("v8", 256)] else if b = "o_M3fs" then [("v8", 192)] else if b = "g_Block0" then [("v6", 224)] else []
  writes := fun f => if f = "main" then [192, 224, 256] else [224]
  cell := fun a => a ∈ [192, 224, 256]

-- the ids of the block that calls the function, with the store, and the copy at the end
example : whWritten2.sched "main" "o_M3ff" = ["PUSH [TAG]_1", "SWAP1", "PUSH_0", "ADD_0", "DUP1", "PUSH c0", "MSTORE", "PUSH [TAG]_0", "PUSH c0", "MLOAD", "PUSH 100", "MSTORE"] := by
  decide +kernel

theorem wh_places2 (hfns : ∀ f F, whProg2.fns f = some F → (f = "main" ∧ F = whMainFn2) ∨ (f = "g" ∧ F = whGFn2)) : PlacesOk whProg2 whPlaces2 := by
  have hbefore : ∀ f b p, p ∈ whPlaces2.before f b → f = "main" ∧ b = "o_M3fs" ∧ p = ("v8", 192) := by
    intro f b p hp
    simp only [whPlaces2] at hp
    split at hp
    · rename_i h
      exact ⟨h.1, h.2, by simpa using hp⟩
    · cases hp
  refine ⟨?_, ?_, ?_, ?_, ?_, ?_, ?_⟩
  · intro a b ha hb hne
    have ha : a ∈ [192, 224, 256] := ha
    have hb : b ∈ [192, 224, 256] := hb
    simp only [mem_cons, not_mem_nil, or_false] at ha hb
    unfold NoOverlap
    omega
  · intro f b p hp
    obtain ⟨-, -, rfl⟩ := hbefore f b p hp
    exact ⟨by show (192 : Nat) ∈ [192, 224, 256]; decide, (okName (by decide)).1, (okName (by decide)).2⟩
  · intro f a ha
    simp only [whPlaces2] at ha ⊢
    split at ha
    · exact ha
    · simp only [mem_cons, not_mem_nil, or_false] at ha
      simp [ha]
  · intro f F hF
    rcases hfns f F hF with ⟨rfl, rfl⟩ | ⟨rfl, rfl⟩ <;> decide +kernel
  · intro f F hF B hB g hg a ha
    rcases hfns f F hF with ⟨rfl, rfl⟩ | ⟨rfl, rfl⟩
    · simp only [whPlaces2] at ha ⊢
      split at ha
      · exact ha
      · simp only [mem_cons, not_mem_nil, or_false] at ha
        simp [ha]
    · have : ∀ B ∈ whGFn2.graph.blocks, whProg2.exit whGFn2 B = .ret := by decide +kernel
      rw [this B hB] at hg
      simp at hg
  · intro f F hF B hB S hS hs p hp
    obtain ⟨rfl, hb, rfl⟩ := hbefore _ _ _ hp
    rcases hfns _ F hF with ⟨-, rfl⟩ | ⟨h, -⟩
    · have : ∀ B ∈ whMainFn2.graph.blocks, ∀ S ∈ whMainFn2.graph.blocks, S.id ∈ B.succs → S.id = "o_M3fs" →
          (sourceOf S (S.preds.idxOf B.id) "v8", 192) ∈ whPlaces2.after "main" B.id := by decide +kernel
      exact this B hB S hS hs hb
    · exact absurd h (by decide)
  · intro f F hF B hB g hg S hS hs p hp
    obtain ⟨rfl, hb, rfl⟩ := hbefore _ _ _ hp
    rcases hfns _ F hF with ⟨-, rfl⟩ | ⟨h, -⟩
    · have : ∀ B ∈ whMainFn2.graph.blocks, ∀ S ∈ whMainFn2.graph.blocks, S.id ∈ B.succs → S.id = "o_M3fs" →
          sourceOf S (S.preds.idxOf B.id) "v8" ∉ whMainFn2.exitOuts B ∧ whProg2.exit whMainFn2 B = .call "g" := by decide +kernel
      obtain ⟨k1, k2⟩ := this B hB S hS hs hb
      refine ⟨k1, ?_⟩
      rw [k2] at hg
      cases hg
      decide
    · exact absurd h (by decide)

theorem wh_flows (hfns : ∀ f F, whProg2.fns f = some F → (f = "main" ∧ F = whMainFn2) ∨ (f = "g" ∧ F = whGFn2)) :
    ∀ f F, whProg2.fns f = some F → ∀ st, Layout.drive F.graph = .ok st → ∀ B ∈ F.graph.blocks, ∀ src tgt, (B.id, src, tgt) ∈ st.specs →
      BlockStored (evmTag whTag) whPlaces2 f B.id (F.instrs B.id) (F.split B.id) src tgt (F.graph.canJunk B.id) (whWritten2.pids f B.id)
        (whWritten2.regs f B.id) (whWritten2.dups f B.id) (whWritten2.ops f B.id) := by
  have key : ∀ (f : String) (F : Fn), (∀ p ∈ Layout.specsOf F.graph, OkStored whCell whPlaces2 whWritten2 f p.1 (F.instrs p.1) (F.split p.1) p.2.1 p.2.2 (F.graph.canJunk p.1)) →
      ∀ st, Layout.drive F.graph = .ok st → ∀ B ∈ F.graph.blocks, ∀ src tgt, (B.id, src, tgt) ∈ st.specs →
      BlockStored (evmTag whTag) whPlaces2 f B.id (F.instrs B.id) (F.split B.id) src tgt (F.graph.canJunk B.id) (whWritten2.pids f B.id)
        (whWritten2.regs f B.id) (whWritten2.dups f B.id) (whWritten2.ops f B.id) := by
    intro f F h st hc B hB src tgt hs
    have hm : (B.id, src, tgt) ∈ Layout.specsOf F.graph := by unfold Layout.specsOf; rw [hc]; exact hs
    exact okStored (h _ hm)
  intro f F hF
  rcases hfns f F hF with ⟨rfl, rfl⟩ | ⟨rfl, rfl⟩ <;> exact key _ _ (by decide +kernel)

/-- The program does not use memory, and what is stored are sums. -/
theorem wh_keeps2 (hfns : ∀ f F, whProg2.fns f = some F → (f = "main" ∧ F = whMainFn2) ∨ (f = "g" ∧ F = whGFn2)) (c : Program.Config Nat (Loc → Nat)) :
    KeepsAway whProg2 (evmTag whTag) whPlaces2 whWritten2 c := by
  intro F B hF hB
  have hlt : ∀ x : Nat, x % 2 ^ 256 < 2 ^ 256 := fun x => Nat.mod_lt _ (by decide)
  have hmem : B ∈ F.graph.blocks := mem_of_find?_eq_some hB
  refine ⟨?_, ?_⟩
  · intro i hi a ha l hl
    have hops : i.op ∈ ["sload", "sstore", "add", "PUSH [tag]"] := by
      have hfr : ∀ B ∈ F.graph.blocks, ∀ i ∈ F.instrs B.id, Fragment i := by
        rcases hfns c.fn F hF with ⟨-, rfl⟩ | ⟨-, rfl⟩ <;> decide +kernel
      obtain ⟨_, h⟩ := hfr B hmem i hi
      rcases h with ⟨e, _⟩ | ⟨e, _⟩ | ⟨e, _⟩ | ⟨e, _⟩ <;> rw [e] <;> simp
    obtain ⟨k, rfl, _⟩ := hl
    simp only [MayRead, MayWrite]
    generalize i.inArgs.map _ = args
    simp only [mem_cons, not_mem_nil, or_false] at hops
    rcases hops with e | e | e | e <;> rw [e] <;> constructor <;> intro hh <;> revert hh <;> simp [Deps.Reads, Deps.Writes]
  · intro v a hs
    rcases hfns c.fn F hF with ⟨hc, rfl⟩ | ⟨hc, rfl⟩ <;> rw [hc] at hs
    · have hall : ∀ B ∈ whMainFn2.graph.blocks, (whWritten2.ops "main" B.id).all (fun | .store v _ => v == "v8" && B.id == "o_M3ff" | _ => true) = true := by
        decide +kernel
      have := all_eq_true.1 (hall B hmem) _ hs
      simp only [Bool.and_eq_true, beq_iff_eq] at this
      obtain ⟨rfl, hb⟩ := this
      rw [hb]
      have hi : whMainFn2.instrs "o_M3ff" = [⟨"PUSH [tag]", [], ["3"], none⟩, ⟨"PUSH [tag]", [], ["5"], none⟩, ⟨"add", ["v1", "0x05"], ["v8"], none⟩] := by
        decide +kernel
      rw [hi, read_proper (okName (by decide)).1]
      simp only [blockRun, wh_add, SymExec.assign]
      exact hlt _
    · have hall : ∀ B ∈ whGFn2.graph.blocks, (whWritten2.ops "g" B.id).all (fun | .store v _ => v == "v6" && B.id == "g_Block0" | _ => true) = true := by
        decide +kernel
      have := all_eq_true.1 (hall B hmem) _ hs
      simp only [Bool.and_eq_true, beq_iff_eq] at this
      obtain ⟨rfl, hb⟩ := this
      rw [hb]
      have hi : whGFn2.instrs "g_Block0" = [⟨"add", ["v5", "0x01"], ["v6"], none⟩] := by decide +kernel
      rw [hi, read_proper (okName (by decide)).1]
      simp only [blockRun, wh_add, SymExec.assign]
      exact hlt _

theorem wh_unensured_stored (hfns : ∀ f F, whProg2.fns f = some F → (f = "main" ∧ F = whMainFn2) ∨ (f = "g" ∧ F = whGFn2)) :
    UnensuredStored whProg2 (evmTag whTag) whPlaces2 whWritten2 := by
  have hu := wh_unchecked hfns
  have hf := wh_flows hfns
  refine ⟨hu.one, hu.order, hu.copies, hu.deps, ?_, wh_places2 hfns, ?_, ?_⟩
  · intro f F hF B hB hj hn
    rcases hfns f F hF with ⟨rfl, rfl⟩ | ⟨rfl, rfl⟩
    · have : ∀ B ∈ whMainFn2.graph.blocks, B.jumpType = "terminal" → whWritten2.sched "main" B.id ≠ [] := by decide +kernel
      exact absurd hn (this B hB hj)
    · have : ∀ B ∈ whGFn2.graph.blocks, B.jumpType = "terminal" → whWritten2.sched "g" B.id ≠ [] := by decide +kernel
      exact absurd hn (this B hB hj)
  · intro f F hF st hst B hB src tgt hs built deps hb
    obtain ⟨built', deps', hb', -, -, h⟩ := (hf f F hF st hst B hB src tgt hs).accepted
    rw [hb] at hb'
    cases hb'
    exact h
  · intro f F hF B hB v a hs
    have key : ∀ (f : String) (F : Fn), (∀ B ∈ F.graph.blocks, ∀ o ∈ whWritten2.ops f B.id, (match o with | .store v a => decide (a ∈ whPlaces2.writes f ∧ OkName v) | _ => true) = true) →
        ∀ B ∈ F.graph.blocks, ∀ v a, SOp.store v a ∈ whWritten2.ops f B.id → a ∈ whPlaces2.writes f ∧ ¬ Generated v ∧ ¬ Padding v :=
      fun f F h B hB v a hs => by
        have := of_decide_eq_true (h B hB _ hs)
        exact ⟨this.1, (okName this.2).1.1, (okName this.2).2⟩
    refine key f F ?_ B hB v a hs
    rcases hfns f F hF with ⟨rfl, rfl⟩ | ⟨rfl, rfl⟩ <;> decide +kernel

/-- The object meets the hypotheses of C86 with variables in memory. -/
theorem wh_stored_scheduled : ∃ code, compileStored ["g", "h"] ["g", "h"] whDec "main" whChoices (fun _ => true) whGuide whChoice whObj = some code ∧
    ∀ w, ¬ Wrong (run (meaning (evmTag whTag) whDec) (zeros (evmTag whTag)) whObj (w, none)) none →
      SameBehaviour (evmTag whTag) exArity code (· ∈ [192, 224, 256])
        (fun h => ∃ s, Ends (run (meaning (evmTag whTag) whDec) (zeros (evmTag whTag)) whObj (w, none)) none s ∧ haltedOf s = h) w := by
  obtain ⟨code, hc⟩ := Option.isSome_iff_exists.1
    (show (compileStored ["g", "h"] ["g", "h"] whDec "main" whChoices (fun _ => true) whGuide whChoice whObj).isSome by decide +kernel)
  refine ⟨code, hc, ?_⟩
  obtain ⟨names', O', T, h1, h2⟩ := stored_like_source_partial whObj_compilable whObj_order whObj_ending whObj_ops (main := "main") (by decide +kernel)
    whObj_emittable whTag_meaning (fun _ => rfl) (evm_memory whTag) whObj_evm hc
  obtain ⟨hp, hfns⟩ := wh_fns2 h1
  rw [← hp] at h2
  exact fun w hw => h2 whPlaces2 (wh_unensured_stored hfns) w hw fun tr c _ => wh_keeps2 hfns c

/-- If a variable that is stored has no cell, nothing is written. -/
example : compileStored ["g", "h"] ["g", "h"] whDec "main" whChoices (fun _ => true) whGuide { whChoice with cell := fun _ _ => none } whObj = none := by
  decide +kernel

end Grey.Whole
