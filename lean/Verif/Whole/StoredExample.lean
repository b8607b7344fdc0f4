/-
C75: the document of C67 with two of its variables in memory.
-/
import Verif.Whole.Stored
import Verif.Whole.DocumentExample
import Verif.Stored.Example
namespace Grey.Whole
open List Grey.Cfg Grey.Inline Grey.Lower Grey.Sfs Grey.Program Grey.SymExec Grey.Front Grey.Stored Grey.Parser Grey.Repair

/-- The sum in the main code is stored at 192, the one in the function at 224. -/
def whCell (v : String) : Option Nat := if v = "v8" then some 192 else if v = "v6" then some 224 else none

def whPids (_ b : String) : List PId :=
  if b = "o_Block0f" then [.id "PUSH [TAG]_1", .id "PUSH0_0", .id "SLOAD_0", .id "PUSH [TAG]_0"]
  else if b = "o_Block0s" then [.id "DUP1", .id "DUP1", .id "PUSH_0", .id "SSTORE_0", .id "PUSH [TAG]_0"]
  else if b = "o_M3ff" then [.id "PUSH_0", .id "ADD_0", .dupSet "v8" 0, .id "POP", .id "PUSH [TAG]_1", .id "VGET(v8)", .id "PUSH [TAG]_0"]
  else if b = "o_M3fs" then [.id "PUSH [TAG]_0"]
  else if b = "o_M2" then [.id "DUP1", .id "PUSH_0", .id "SSTORE_0"]
  else if b = "g_Block0" then [.id "PUSH_0", .id "ADD_0", .id "VSET(v6)", .id "VGET(v6)", .id "SWAP1"]
  else []

def whWritten : Written where
  pids := whPids
  regs := fun _ _ => []
  dups := fun _ _ => []
  ops := fun f b => (emitBlock whCell (whPids f b) [] []).getD []

def whPlaces : Places where
  before := fun _ _ => []
  after := fun _ b => if b = "o_M3ff" then [("v8", 192)] else if b = "g_Block0" then [("v6", 224)] else []
  writes := fun f => if f = "main" then [192, 224] else [224]
  cell := fun a => a ∈ [192, 224]

theorem wh_stored_checked (hfns : ∀ f F, whProg.fns f = some F → (f = "main" ∧ F = whMainFn) ∨ (f = "g" ∧ F = whGFn)) :
    CheckedStored whProg (evmTag whTag) whPlaces whWritten where
  one := (wh_checked hfns).one
  live := (wh_checked hfns).live
  place := (wh_checked hfns).place
  places := by
    refine ⟨?_, fun f b p hp => by simp [whPlaces] at hp, ?_, fun _ _ _ => rfl, ?_, fun f F _ B _ S _ _ p hp => by simp [whPlaces] at hp,
      fun f F _ B _ g _ S _ _ p hp => by simp [whPlaces] at hp⟩
    · intro a b ha hb hne
      have ha : a ∈ [192, 224] := ha
      have hb : b ∈ [192, 224] := hb
      simp only [mem_cons, not_mem_nil, or_false] at ha hb
      unfold NoOverlap
      omega
    · intro f a ha
      simp only [whPlaces] at ha ⊢
      split at ha
      · exact ha
      · simp only [mem_cons, not_mem_nil, or_false] at ha
        simp [ha]
    · intro f F hF B hB g hg a ha
      rcases hfns f F hF with ⟨rfl, rfl⟩ | ⟨rfl, rfl⟩
      · simp only [whPlaces] at ha ⊢
        split at ha
        · exact ha
        · simp only [mem_cons, not_mem_nil, or_false] at ha
          simp [ha]
      · have : ∀ B ∈ whGFn.graph.blocks, whProg.exit whGFn B = .ret := by decide +kernel
        rw [this B hB] at hg
        simp at hg
  blocks := by
    have key : ∀ (f : String) (F : Fn), (Layout.drive F.graph).toOption.isSome = true →
        (∀ p ∈ Layout.specsOf F.graph, OkStored whCell whPlaces whWritten f p.1 (F.instrs p.1) (F.split p.1) p.2.1 p.2.2 (F.graph.canJunk p.1) ∧
          (Layout.substDuplicates p.2.1).Nodup ∧ ∀ v ∈ ((F.split p.1).map (·.outArgs)).getD [], v ∉ p.2.1) →
        ∃ st, Layout.drive F.graph = .ok st ∧ ∀ B ∈ F.graph.blocks, ∀ src tgt, (B.id, src, tgt) ∈ st.specs →
          BlockStored (evmTag whTag) whPlaces f B.id (F.instrs B.id) (F.split B.id) src tgt (F.graph.canJunk B.id) (whWritten.pids f B.id)
            (whWritten.regs f B.id) (whWritten.dups f B.id) (whWritten.ops f B.id) ∧
          (Layout.substDuplicates src).Nodup ∧ ∀ v ∈ F.exitOuts B, v ∉ src := by
      intro f F hd h
      cases hc : Layout.drive F.graph with
      | error e => rw [hc] at hd; simp [Except.toOption] at hd
      | ok st =>
        refine ⟨st, rfl, fun B hB src tgt hs => ?_⟩
        have hm : (B.id, src, tgt) ∈ Layout.specsOf F.graph := by unfold Layout.specsOf; rw [hc]; exact hs
        obtain ⟨h1, h2, h3⟩ := h _ hm
        exact ⟨okStored h1, h2, h3⟩
    intro f F hF
    rcases hfns f F hF with ⟨rfl, rfl⟩ | ⟨rfl, rfl⟩ <;> exact key _ _ (by decide +kernel) (by decide +kernel)
  terminal := by
    intro f F hF B hB hj hn
    rcases hfns f F hF with ⟨rfl, rfl⟩ | ⟨rfl, rfl⟩
    · have : ∀ B ∈ whMainFn.graph.blocks, B.jumpType = "terminal" → whWritten.sched "main" B.id ≠ [] := by decide +kernel
      exact absurd hn (this B hB hj)
    · have : ∀ B ∈ whGFn.graph.blocks, B.jumpType = "terminal" → whWritten.sched "g" B.id ≠ [] := by decide +kernel
      exact absurd hn (this B hB hj)

theorem wh_add (p q v : String) (e : String → Nat) (w : Loc → Nat) :
    (evmTag whTag).ins ⟨"add", [p, q], [v], none⟩ e w = ([((evmTag whTag).read e p + (evmTag whTag).read e q) % 2 ^ 256], w) := by
  generalize hp : (evmTag whTag).read e p = x
  generalize hv : (evmTag whTag).read e q = y
  simp [Interp.ins, Ins.name, evmUp.2.2.2.2, hp, hv]
  simp [evmTag, evm]

/-- The program does not use memory, and what is stored are sums. -/
theorem wh_keeps (hfns : ∀ f F, whProg.fns f = some F → (f = "main" ∧ F = whMainFn) ∨ (f = "g" ∧ F = whGFn)) (c : Program.Config Nat (Loc → Nat)) :
    KeepsAway whProg (evmTag whTag) whPlaces whWritten c := by
  intro F B hF hB
  have hlt : ∀ x : Nat, x % 2 ^ 256 < 2 ^ 256 := fun x => Nat.mod_lt _ (by decide)
  have hmem : B ∈ F.graph.blocks := mem_of_find?_eq_some hB
  refine ⟨?_, ?_⟩
  · intro i hi a ha l hl
    have hops : i.op ∈ ["sload", "sstore", "add", "PUSH [tag]"] := by
      have hfr : ∀ B ∈ F.graph.blocks, ∀ i ∈ F.instrs B.id, Fragment i := by
        rcases hfns c.fn F hF with ⟨-, rfl⟩ | ⟨-, rfl⟩ <;> decide +kernel
      obtain ⟨_, h⟩ := hfr B hmem i hi
      rcases h with ⟨e, _⟩ | ⟨e, _⟩ | ⟨e, _⟩ | ⟨e, _⟩ <;> rw [e] <;> simp
    obtain ⟨k, rfl, _⟩ := hl
    simp only [MayRead, MayWrite]
    generalize i.inArgs.map _ = args
    simp only [mem_cons, not_mem_nil, or_false] at hops
    rcases hops with e | e | e | e <;> rw [e] <;> constructor <;> intro hh <;> revert hh <;> simp [Deps.Reads, Deps.Writes]
  · intro v a hs
    rcases hfns c.fn F hF with ⟨hc, rfl⟩ | ⟨hc, rfl⟩ <;> rw [hc] at hs
    · have hall : ∀ B ∈ whMainFn.graph.blocks, (whWritten.ops "main" B.id).all (fun | .store v _ => v == "v8" && B.id == "o_M3ff" | _ => true) = true := by
        decide +kernel
      have := all_eq_true.1 (hall B hmem) _ hs
      simp only [Bool.and_eq_true, beq_iff_eq] at this
      obtain ⟨rfl, hb⟩ := this
      rw [hb]
      have hi : whMainFn.instrs "o_M3ff" = [⟨"PUSH [tag]", [], ["3"], none⟩, ⟨"PUSH [tag]", [], ["5"], none⟩, ⟨"add", ["v1", "0x05"], ["v8"], none⟩] := by
        decide +kernel
      rw [hi, read_proper (okName (by decide)).1]
      simp only [blockRun, wh_add, SymExec.assign]
      exact hlt _
    · have hall : ∀ B ∈ whGFn.graph.blocks, (whWritten.ops "g" B.id).all (fun | .store v _ => v == "v6" && B.id == "g_Block0" | _ => true) = true := by
        decide +kernel
      have := all_eq_true.1 (hall B hmem) _ hs
      simp only [Bool.and_eq_true, beq_iff_eq] at this
      obtain ⟨rfl, hb⟩ := this
      rw [hb]
      have hi : whGFn.instrs "g_Block0" = [⟨"add", ["v5", "0x01"], ["v6"], none⟩] := by decide +kernel
      rw [hi, read_proper (okName (by decide)).1]
      simp only [blockRun, wh_add, SymExec.assign]
      exact hlt _

/-- The document meets the hypotheses of C75: the assembly with loads and stores does what it says. -/
theorem wh_stored_document : ∃ code, assemble whProg whLow.1 (tagOf whLow.2.2) whWritten.sched 5 = some code ∧
    ∀ w, ¬ Wrong (jrun (meaning (evmTag whTag) whDec) (zeros (evmTag whTag)) whDoc (w, none)) none →
      SameBehaviour (evmTag whTag) exArity code (· ∈ [192, 224])
        (fun h => ∃ s, Ends (jrun (meaning (evmTag whTag) whDec) (zeros (evmTag whTag)) whDoc (w, none)) none s ∧ haltedOf s = h) w := by
  obtain ⟨O, hO, h⟩ := document_to_assembly_stored_partial (order := ["g", "h"]) (dec := whDec) (I := evmTag whTag) (arity := exArity) (val := id)
    (main := "main") whDoc_ok whDoc_results
  rw [whDoc_parsed] at hO
  cases hO
  obtain ⟨names', O', T, h1, h2⟩ := h whObj_compilable whObj_order whObj_ending whObj_ops (by decide +kernel) whObj_emittable whTag_meaning (fun _ => rfl)
    (evm_memory whTag)
  obtain ⟨n2, O2, T2, g1, -, g3, -⟩ := whole_compiler_partial whObj_compilable whObj_order whObj_ending whObj_ops (main := "main") (by decide +kernel)
    whObj_emittable whTag_meaning (fun _ => rfl)
  have e : (n2, O2, T2) = (names', O', T) := Option.some.inj (g1.symm.trans h1)
  cases e
  have hl : whLow = (names', O', T) := by unfold whLow; rw [g1]; rfl
  have hp : whProg = toProg names' whDec "main" whAna O' := by unfold whProg; rw [hl]
  have hfns := wh_fns hl g3
  have hfuel : ∀ f F, whProg.fns f = some F → F.graph.blocks.length ≤ 5 := by
    intro f F hF
    rcases hfns f F hF with ⟨rfl, rfl⟩ | ⟨rfl, rfl⟩ <;> decide +kernel
  obtain ⟨code, e1, e2⟩ := h2 whAna whPlaces whWritten 5 (hp ▸ wh_stored_checked hfns) (hp ▸ hfuel)
  refine ⟨code, by rw [hl, hp]; exact e1, fun w hw => e2 w hw fun tr c _ => ?_⟩
  rw [← hp]
  exact wh_keeps hfns c

/-- The assembly. -/
example : (assemble whProg whLow.1 (tagOf whLow.2.2) whWritten.sched 5).map (·.map (·.name)) = some ["PUSH [tag]", "PUSH", "SLOAD", "PUSH [tag]", "JUMP",
    "tag", "JUMPDEST", "DUP1", "DUP1", "PUSH", "SSTORE", "PUSH [tag]", "JUMPI", "tag", "JUMPDEST", "DUP1", "PUSH", "SSTORE", "STOP", "tag", "JUMPDEST", "PUSH",
    "ADD", "DUP1", "PUSH", "MSTORE", "POP", "PUSH [tag]", "PUSH", "MLOAD", "PUSH [tag]", "JUMP", "tag", "JUMPDEST", "PUSH [tag]", "JUMP", "tag", "JUMPDEST",
    "PUSH", "ADD", "PUSH", "MSTORE", "PUSH", "MLOAD", "SWAP1", "JUMP"] := by
  decide +kernel

end Grey.Whole
