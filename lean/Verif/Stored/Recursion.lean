/-
C68, finding 17: variables are kept in memory at fixed addresses, so a recursive call overwrites the variables of the calls that
have not returned. The code of every block is right; only the proviso `PlacesOk.over` is not met.
-/
import Verif.Stored.RecursionDefs
import Verif.Stored.Example
namespace Grey.Stored
open List Grey.Layout Grey.Sfs Grey.SymExec Grey.Program Grey.Repair Grey.Output

/-- `n` is kept at 128. -/
def recCell (v : String) : Option Nat := if v = "n" then some 128 else none

/-- `n` is stored before the recursive call and loaded after it. -/
def recPids (_ b : String) : List PId :=
  if b = "Block0" then [.id "PUSH [TAG]_1", .id "PUSH0_0", .id "SLOAD_0", .id "PUSH [TAG]_0"]
  else if b = "M1" then [.id "DUP1", .id "PUSH_0", .id "SSTORE_0"]
  else if b = "f_Block0" then [.id "DUP1", .id "PUSH [TAG]_0"]
  else if b = "F1" then [.dupSet "n" 0, .id "PUSH [TAG]_1", .id "DUP2", .id "PUSH_0", .id "ADD_0", .id "PUSH [TAG]_0"]
  else if b = "F3" then [.id "VGET(n)", .id "ADD_0", .id "SWAP1", .id "POP", .id "SWAP1"]
  else if b = "F2" then [.id "PUSH0_0", .id "ADD_0", .id "SWAP1"]
  else []

def recWritten : Written where
  pids := recPids
  regs := fun _ _ => []
  dups := fun _ _ => []
  ops := fun f b => (emitBlock recCell (recPids f b) [] []).getD []

def recPlaces : Places where
  before := fun f b => if f = "f" ∧ b = "F3" then [("n", 128)] else []
  after := fun f b => if f = "f" ∧ b = "F1" then [("n", 128)] else []
  writes := fun f => if f = "f" ∨ f = "main" then [128] else []
  cell := fun a => a = 128

def recTags (b : String) : Option Nat :=
  if b = "f_Block0" then some 1 else if b = "M1" then some 2 else if b = "F1" then some 3 else if b = "F3" then some 4 else none

theorem recMain_place : Placeable recMain.graph where
  entry := ⟨"", "", rfl⟩
  known := by decide +kernel
  reach := by
    have r0 : Reachable recMain.graph "Block0" := .start
    have r1 : Reachable recMain.graph "M1" := .step (B := recMain.graph.blocks[0]) (S := recMain.graph.blocks[1]) r0 (by decide +kernel) (by decide +kernel) (by decide +kernel)
    have : ∀ B ∈ recMain.graph.blocks, B.id = "Block0" ∨ B.id = "M1" := by decide +kernel
    intro B hB
    rcases this B hB with e | e <;> rw [e] <;> assumption
  oneFall := by
    have : ∀ B ∈ recMain.graph.blocks, ∀ C ∈ recMain.graph.blocks, B.fallsTo.isSome → B.fallsTo = C.fallsTo → B = C := by decide +kernel
    exact fun B hB C hC d h1 h2 => this B hB C hC (by rw [h1]; rfl) (by rw [h1, h2])
  noSelf := by decide +kernel
  condJump := by
    have : ∀ B ∈ recMain.graph.blocks, B.jumpTo.isSome → B.fallsTo.isSome → ∀ C ∈ recMain.graph.blocks,
        C.fallsTo ≠ B.jumpTo ∧ (C.jumpTo = B.jumpTo → C = B) := by decide +kernel
    intro B hB j d h1 h2 C hC
    rw [← h1]
    exact this B hB (by rw [h1]; rfl) (by rw [h2]; rfl) C hC
  chain := by
    have : ∀ B ∈ recMain.graph.blocks, ∀ C ∈ recMain.graph.blocks, B.fallsTo = some C.id → C.fallsTo = none := by
      decide +kernel
    intro B hB C hC d h1 h2
    rw [this B hB C hC h1] at h2
    simp at h2

theorem recF_place : Placeable recF.graph where
  entry := ⟨"f_", "", by decide +kernel⟩
  known := by decide +kernel
  reach := by
    have r0 : Reachable recF.graph "f_Block0" := .start
    have r1 : Reachable recF.graph "F1" := .step (B := recF.graph.blocks[0]) (S := recF.graph.blocks[1]) r0 (by decide +kernel) (by decide +kernel) (by decide +kernel)
    have r2 : Reachable recF.graph "F2" := .step (B := recF.graph.blocks[0]) (S := recF.graph.blocks[3]) r0 (by decide +kernel) (by decide +kernel) (by decide +kernel)
    have r3 : Reachable recF.graph "F3" := .step (B := recF.graph.blocks[1]) (S := recF.graph.blocks[2]) r1 (by decide +kernel) (by decide +kernel) (by decide +kernel)
    have : ∀ B ∈ recF.graph.blocks, B.id = "f_Block0" ∨ B.id = "F1" ∨ B.id = "F2" ∨ B.id = "F3" := by decide +kernel
    intro B hB
    rcases this B hB with e | e | e | e <;> rw [e] <;> assumption
  oneFall := by
    have : ∀ B ∈ recF.graph.blocks, ∀ C ∈ recF.graph.blocks, B.fallsTo.isSome → B.fallsTo = C.fallsTo → B = C := by decide +kernel
    exact fun B hB C hC d h1 h2 => this B hB C hC (by rw [h1]; rfl) (by rw [h1, h2])
  noSelf := by decide +kernel
  condJump := by
    have : ∀ B ∈ recF.graph.blocks, B.jumpTo.isSome → B.fallsTo.isSome → ∀ C ∈ recF.graph.blocks,
        C.fallsTo ≠ B.jumpTo ∧ (C.jumpTo = B.jumpTo → C = B) := by decide +kernel
    intro B hB j d h1 h2 C hC
    rw [← h1]
    exact this B hB (by rw [h1]; rfl) (by rw [h2]; rfl) C hC
  chain := by
    have : ∀ B ∈ recF.graph.blocks, ∀ C ∈ recF.graph.blocks, B.fallsTo = some C.id → C.fallsTo = none := by
      decide +kernel
    intro B hB C hC d h1 h2
    rw [this B hB C hC h1] at h2
    simp at h2

theorem rec_stored_of {f : String} {F : Fn} (hp : Placeable F.graph) (hd : (drive F.graph).toOption.isSome = true)
    (h : ∀ p ∈ specsOf F.graph, OkStored recCell recPlaces recWritten f p.1 (F.instrs p.1) (F.split p.1) p.2.1 p.2.2 (F.graph.canJunk p.1) ∧
      (substDuplicates p.2.1).Nodup ∧ ∀ v ∈ ((F.split p.1).map (·.outArgs)).getD [], v ∉ p.2.1)
    (hf : OkFlat recProg recTags (fun _ => ["POP"]) F) (hne : ∀ B ∈ F.graph.blocks, recWritten.sched f B.id ≠ []) :
    ∃ st, StoredFn recProg evmT recPlaces recWritten exArity recTags f F st := by
  cases hc : drive F.graph with
  | error e => rw [hc] at hd; simp [Except.toOption] at hd
  | ok st =>
    have hfl := okFlat hp hf
    refine ⟨st, hc, fun B hB src tgt hs => ?_, hp, hfl.ends, hfl.writable, fun B hB _ => Or.inr (hne B hB), fun B hB _ e => absurd e (hne B hB)⟩
    have hm : (B.id, src, tgt) ∈ specsOf F.graph := by unfold specsOf; rw [hc]; exact hs
    obtain ⟨h1, h2, h3⟩ := h _ hm
    exact ⟨okStored h1, h2, h3⟩

theorem recProg_fns {f : String} {F : Fn} (h : recProg.fns f = some F) : (f = "main" ∧ F = recMain) ∨ (f = "f" ∧ F = recF) := by
  simp only [recProg] at h
  split at h
  · rename_i e; simp at h; exact Or.inl ⟨e, h.symm⟩
  split at h
  · rename_i e; simp at h; exact Or.inr ⟨e, h.symm⟩
  · simp at h

/-- The code of every block is right: the validator has accepted it, and every variable is loaded from a cell it was stored to. -/
theorem rec_stored : ∀ f F, recProg.fns f = some F → ∃ st, StoredFn recProg evmT recPlaces recWritten exArity recTags f F st := by
  intro f F hF
  rcases recProg_fns hF with ⟨rfl, rfl⟩ | ⟨rfl, rfl⟩
  · exact rec_stored_of recMain_place (by decide +kernel) (by decide +kernel) (by decide +kernel) (by decide +kernel)
  · exact rec_stored_of recF_place (by decide +kernel) (by decide +kernel) (by decide +kernel) (by decide +kernel)

/-- What is known about the cells is right along all edges. -/
theorem rec_edges : ∀ f F, recProg.fns f = some F → ∀ B ∈ F.graph.blocks, ∀ S ∈ F.graph.blocks, S.id ∈ B.succs →
    ∀ p ∈ recPlaces.before f S.id, (sourceOf S (S.preds.idxOf B.id) p.1, p.2) ∈ recPlaces.after f B.id := by
  intro f F hF
  rcases recProg_fns hF with ⟨rfl, rfl⟩ | ⟨rfl, rfl⟩ <;> decide +kernel

def recCode : List Asm := (assemble recProg ["f"] recTags recWritten.sched 4).getD []

/-- The first storage slot holds `2`. -/
def recWorld (l : Loc) : Nat := if l = .sto 0 then 2 else 0

theorem rec_program : ((runC recProg evmT 20 ⟨"main", "Block0", fun _ => 0, [], recWorld⟩).map fun h => (h.op, h.world (.sto 1))) = some ("STOP", 3) := by
  decide +kernel

theorem rec_assembly : ((frunC recCode evmT exArity [("1", 100), ("2", 200), ("3", 300), ("4", 400)] 200 ⟨0, [], recWorld⟩).map
    fun h => (h.op, h.world (.sto 1))) = some ("STOP", 2) := by
  decide +kernel

/-- A program with a recursive function, for which all blocks are right: the program stores `3`, its assembly stores `2`, since the
recursive call overwrites the variable of the call that waits for it. -/
theorem recursion_overwrites_stored : ∃ code tr n x y, assemble recProg ["f"] recTags recWritten.sched 4 = some code ∧
    Runs recProg evmT ⟨"main", "Block0", fun _ => 0, [], recWorld⟩ tr (.inr x) ∧ FRuns code evmT exArity ⟨0, [], recWorld⟩ n (.inr y) ∧
    x.world (.sto 1) = 3 ∧ y.world (.sto 1) = 2 := by
  have h1 := rec_program
  have h2 := rec_assembly
  obtain ⟨x, hx, ex⟩ := Option.map_eq_some_iff.1 h1
  obtain ⟨y, hy, ey⟩ := Option.map_eq_some_iff.1 h2
  obtain ⟨tr, hr⟩ := runC_runs hx
  obtain ⟨n, hn⟩ := frunC_runs (I := evmT) (by
    intro q hq w
    simp only [mem_cons, not_mem_nil, or_false] at hq
    rcases hq with rfl | rfl | rfl | rfl <;> rfl) hy
  have hc : assemble recProg ["f"] recTags recWritten.sched 4 = some recCode := by decide +kernel
  exact ⟨recCode, tr, n, x, y, hc, hr, hn, by simpa using congrArg Prod.snd ex, by simpa using congrArg Prod.snd ey⟩

end Grey.Stored
