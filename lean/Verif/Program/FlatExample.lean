/-
C54: the program of C53 meets the hypotheses, and its assembly.
-/
import Verif.Program.FlatTheorems
import Verif.Program.Example
namespace Grey.Program
open List Grey.Layout Grey.Sfs Grey.SymExec Grey.Output

/-- The tags of the blocks that are jumped to. -/
def exTags (b : String) : Option Nat :=
  if b = "g_Block0" then some 1 else if b = "M1" then some 2 else if b = "M3" then some 3 else if b = "M2" then some 4 else none

/-- The numbers of arguments. -/
def exArity (o : String) : Nat :=
  if o = "SLOAD" ∨ o = "MLOAD" then 1 else if o = "SSTORE" ∨ o = "ADD" ∨ o = "MSTORE" then 2 else 0

theorem fragment_writable {tag : Option (List String) → Nat} {i : Ins} (h : Fragment i) (ht : i.op = "PUSH [tag]" → ∃ n : Nat, i.outArgs = [toString n]) :
    Writable (evmTag tag) exArity i := by
  obtain ⟨u1, u2, u3, u4, u5⟩ := evmUp
  obtain ⟨op, ins, outs, lits⟩ := i
  obtain ⟨hl, h⟩ := h
  simp only at hl h ht
  subst hl
  have hlit : ∀ o ∈ ["sload", "sstore", "add"], o ∉ literalArgOps := by decide
  have h1 : ∀ o ∈ ["SLOAD", "SSTORE", "ADD"], o ∉ controlOps ∧ o ∉ ["PUSH0", "PUSH data", "PUSH [TAG]"] ∧ o ∉ ["PUSHIMMUTABLE", "ASSIGNIMMUTABLE"] := by
    decide +kernel
  rcases h with ⟨rfl, h2, _⟩ | ⟨rfl, h2, _⟩ | ⟨rfl, h2, _⟩ | ⟨rfl, h2, _⟩
  · obtain ⟨a, b, c⟩ := h1 "SLOAD" (by simp)
    refine .op ?_ ?_ ?_ ?_ (fun hc => absurd hc (hlit _ (by simp))) <;> simp only [Ins.name, u4]
    · exact a
    · exact b
    · exact h2
    · exact fun hc => absurd hc c
  · obtain ⟨a, b, c⟩ := h1 "SSTORE" (by simp)
    refine .op ?_ ?_ ?_ ?_ (fun hc => absurd hc (hlit _ (by simp))) <;> simp only [Ins.name, u3]
    · exact a
    · exact b
    · exact h2
    · exact fun hc => absurd hc c
  · obtain ⟨a, b, c⟩ := h1 "ADD" (by simp)
    refine .op ?_ ?_ ?_ ?_ (fun hc => absurd hc (hlit _ (by simp))) <;> simp only [Ins.name, u5]
    · exact a
    · exact b
    · exact h2
    · exact fun hc => absurd hc c
  · obtain ⟨n, e⟩ := ht rfl
    exact .tag n rfl (length_eq_zero_iff.1 h2) e

theorem avoiding_closed {G : Component} {c d : String} (S : List String) (h0 : G.start ∈ S)
    (h1 : ∀ B ∈ G.blocks, B.id ∈ S → B.id ≠ c → ∀ d ∈ B.succs, d ∈ S) (h : ReachAvoiding G c d) : d ∈ S := by
  induction h with
  | start => exact h0
  | step _ hB hne hd ih => exact h1 _ hB ih hne _ hd

theorem exMain_place : Placeable exMain.graph where
  entry := ⟨"", "", rfl⟩
  known := by decide +kernel
  reach := by
    have r0 : Reachable exMain.graph "Block0" := .start
    have r1 : Reachable exMain.graph "M1" := .step (B := exMain.graph.blocks[0]) (S := exMain.graph.blocks[1]) r0 (by decide +kernel) (by decide +kernel) (by decide +kernel)
    have r2 : Reachable exMain.graph "M3" := .step (B := exMain.graph.blocks[1]) (S := exMain.graph.blocks[2]) r1 (by decide +kernel) (by decide +kernel) (by decide +kernel)
    have r3 : Reachable exMain.graph "M2" := .step (B := exMain.graph.blocks[2]) (S := exMain.graph.blocks[3]) r2 (by decide +kernel) (by decide +kernel) (by decide +kernel)
    have : ∀ B ∈ exMain.graph.blocks, B.id = "Block0" ∨ B.id = "M1" ∨ B.id = "M3" ∨ B.id = "M2" := by decide +kernel
    intro B hB
    rcases this B hB with e | e | e | e <;> rw [e] <;> assumption
  oneFall := by
    have : ∀ B ∈ exMain.graph.blocks, ∀ C ∈ exMain.graph.blocks, B.fallsTo.isSome → B.fallsTo = C.fallsTo → B = C := by decide +kernel
    exact fun B hB C hC d h1 h2 => this B hB C hC (by rw [h1]; rfl) (by rw [h1, h2])
  noSelf := by decide +kernel
  condJump := by
    have : ∀ B ∈ exMain.graph.blocks, B.jumpTo.isSome → B.fallsTo.isSome → ∀ C ∈ exMain.graph.blocks,
        C.fallsTo ≠ B.jumpTo ∧ (C.jumpTo = B.jumpTo → C = B) := by decide +kernel
    intro B hB j d h1 h2 C hC
    rw [← h1]
    exact this B hB (by rw [h1]; rfl) (by rw [h2]; rfl) C hC
  chain := by
    have : ∀ B ∈ exMain.graph.blocks, ∀ C ∈ exMain.graph.blocks, B.fallsTo = some C.id → C.fallsTo.isSome → C.id = "M1" ∧ C.fallsTo = some "M2" := by
      decide +kernel
    intro B hB C hC d h1 h2 h
    obtain ⟨e1, e2⟩ := this B hB C hC h1 (by rw [h2]; rfl)
    rw [e1] at h
    rw [e2, Option.some.injEq] at h2
    subst h2
    have := avoiding_closed ["Block0", "M1"] (by decide) (by decide +kernel) h
    simp at this

theorem exG_place : Placeable exG.graph where
  entry := ⟨"g_", "", by decide +kernel⟩
  known := by decide +kernel
  reach := by
    have : ∀ B ∈ exG.graph.blocks, B.id = exG.graph.start := by decide +kernel
    intro B hB
    rw [this B hB]
    exact .start
  oneFall := by
    have : ∀ B ∈ exG.graph.blocks, B.fallsTo = none := by decide +kernel
    intro B hB C hC d h
    rw [this B hB] at h
    simp at h
  noSelf := by decide +kernel
  condJump := by
    have : ∀ B ∈ exG.graph.blocks, B.fallsTo = none := by decide +kernel
    intro B hB j d _ h
    rw [this B hB] at h
    simp at h
  chain := by
    have : ∀ B ∈ exG.graph.blocks, B.fallsTo = none := by decide +kernel
    intro B hB C hC d h
    rw [this B hB] at h
    simp at h

instance (P : Prog) (arity : String → Nat) (F : Fn) (B : LBlock) : Decidable (EndOk P arity F B) := by
  unfold EndOk
  cases P.exit F B <;> simp only <;> try infer_instance
  cases F.split B.id <;> simp only <;> infer_instance

/-- The decidable part of the hypotheses about a component. -/
def OkFlat (P : Prog) (tags : String → Option Nat) (sched : String → List String) (F : Fn) : Prop :=
  (∀ B ∈ F.graph.blocks, EndOk P exArity F B) ∧
  (∀ B ∈ F.graph.blocks, ∀ i ∈ F.instrs B.id, Fragment i ∧ (i.op = "PUSH [tag]" → i.outArgs ∈ [["1"], ["2"], ["3"], ["4"]])) ∧
  (∀ B ∈ F.graph.blocks, ∀ s ∈ sched B.id, match classify s with
    | some (.dup n) => n ≤ 16 ∧ s = "DUP" ++ toString n
    | some (.swap n) => n ≤ 16 ∧ s = "SWAP" ++ toString n
    | some (.get _) => False
    | some (.set _) => False
    | _ => True) ∧
  ∀ B ∈ F.graph.blocks, ∃ s ∈ sched B.id, s ≠ "NOP"

instance (P : Prog) (tags : String → Option Nat) (sched : String → List String) (F : Fn) : Decidable (OkFlat P tags sched F) := by
  unfold OkFlat
  have : ∀ s, Decidable (match classify s with
    | some (.dup n) => n ≤ 16 ∧ s = "DUP" ++ toString n
    | some (.swap n) => n ≤ 16 ∧ s = "SWAP" ++ toString n
    | some (.get _) => False
    | some (.set _) => False
    | _ => True) := by intro s; split <;> infer_instance
  infer_instance

theorem okFlat {P : Prog} {tags : String → Option Nat} {sched : String → List String} {F : Fn} (hp : Placeable F.graph)
    (h : OkFlat P tags sched F) : FlatOk P evmT exArity tags sched F where
  place := hp
  ends := h.1
  writable := by
    intro B hB i hi
    refine fragment_writable (h.2.1 B hB i hi).1 fun e => ?_
    have := (h.2.1 B hB i hi).2 e
    simp only [mem_cons, not_mem_nil, or_false] at this
    rcases this with e | e | e | e
    · exact ⟨1, e⟩
    · exact ⟨2, e⟩
    · exact ⟨3, e⟩
    · exact ⟨4, e⟩
  ids := fun B hB => by
    have := h.2.2.1 B hB
    refine ⟨fun s hs n e => ?_, fun s hs n e => ?_, fun s hs v e => ?_, fun s hs v e => ?_⟩ <;> have := this s hs <;> rw [e] at this
    · exact this
    · exact this
    · exact this
    · exact this
  nonempty := fun B hB _ => Or.inr (h.2.2.2 B hB)
  terminal := by
    intro B hB _ hn
    obtain ⟨s, hs, hne⟩ := h.2.2.2 B hB
    exact absurd (hn s hs) hne

theorem exTags_ok : TagsOk exProg evmT exDest ["g"] exTags where
  functions := by
    intro g
    simp only [mem_cons, not_mem_nil, or_false, exProg]
    constructor
    · rintro rfl; simp
    · rintro ⟨h1, h2⟩
      rw [if_neg h1] at h2
      by_contra hne
      rw [if_neg hne] at h2
      simp at h2
  nodup := by decide
  plain := by decide
  dest := by
    intro v f b h
    have hval : ∀ t : String, TagValue evmT t (exTag (some [t])) := fun t w => by simp [evmTag]
    unfold exDest at h
    split at h
    · simp only [Option.some.injEq, Prod.mk.injEq] at h
      obtain ⟨rfl, rfl⟩ := h
      rename_i e; subst e
      exact ⟨exG, rfl, by decide +kernel, 1, rfl, hval "1"⟩
    split at h
    · simp only [Option.some.injEq, Prod.mk.injEq] at h
      obtain ⟨rfl, rfl⟩ := h
      rename_i e; subst e
      exact ⟨exMain, rfl, by decide +kernel, 2, rfl, hval "2"⟩
    split at h
    · simp only [Option.some.injEq, Prod.mk.injEq] at h
      obtain ⟨rfl, rfl⟩ := h
      rename_i e; subst e
      exact ⟨exMain, rfl, by decide +kernel, 3, rfl, hval "3"⟩
    split at h
    · simp only [Option.some.injEq, Prod.mk.injEq] at h
      obtain ⟨rfl, rfl⟩ := h
      rename_i e; subst e
      exact ⟨exMain, rfl, by decide +kernel, 4, rfl, hval "4"⟩
    · simp at h

theorem exProg_fns {f : String} {F : Fn} (h : exProg.fns f = some F) : (f = "main" ∧ F = exMain) ∨ (f = "g" ∧ F = exG) := by
  simp only [exProg] at h
  split at h
  · rename_i e; subst e; simp only [Option.some.injEq] at h; exact Or.inl ⟨rfl, h.symm⟩
  · split at h
    · rename_i e; subst e; simp only [Option.some.injEq] at h; exact Or.inr ⟨rfl, h.symm⟩
    · simp at h

theorem exTags_unique : TagsUnique exProg evmT exTags where
  blocks := by
    have h1 : ∀ B ∈ exMain.graph.blocks, ∀ C ∈ exMain.graph.blocks, (exTags B.id).isSome → exTags B.id = exTags C.id → B = C := by
      decide +kernel
    have h2 : ∀ B ∈ exG.graph.blocks, ∀ C ∈ exG.graph.blocks, B = C := by decide +kernel
    have h3 : ∀ B ∈ exMain.graph.blocks, ∀ C ∈ exG.graph.blocks, exTags B.id ≠ exTags C.id := by decide +kernel
    intro f F g G B C t hF hG hB hC htB htC
    rcases exProg_fns hF with ⟨rfl, rfl⟩ | ⟨rfl, rfl⟩ <;> rcases exProg_fns hG with ⟨rfl, rfl⟩ | ⟨rfl, rfl⟩
    · exact ⟨rfl, h1 B hB C hC (by rw [htB]; rfl) (by rw [htB, htC])⟩
    · exact absurd (by rw [htB, htC]) (h3 B hB C hC)
    · exact absurd (by rw [htB, htC]) (h3 C hC B hB)
    · exact ⟨rfl, h2 B hB C hC⟩
  values := by
    have hr : ∀ b t, exTags b = some t → t = 1 ∨ t = 2 ∨ t = 3 ∨ t = 4 := by
      intro b t h
      unfold exTags at h
      repeat' split at h
      all_goals simp at h
      all_goals omega
    have hinj : ∀ t ∈ [1, 2, 3, 4], ∀ t' ∈ [1, 2, 3, 4], exTag (some [toString t]) = exTag (some [toString t']) → t = t' := by
      decide +kernel
    intro b b' t t' v h1 h2 h3 h4
    have e3 := h3 (fun _ => 0)
    have e4 := h4 (fun _ => 0)
    simp only [evmTag, if_true, cons.injEq, and_true] at e3 e4
    exact hinj t (by simpa using hr b t h1) t' (by simpa using hr b' t' h2) (e3.trans e4.symm)

theorem ex_ok : ∀ f F, exProg.fns f = some F → FnOk exProg evmT exDest f F := by
  intro f F hF
  rcases exProg_fns hF with ⟨rfl, rfl⟩ | ⟨rfl, rfl⟩
  · exact exMain_ok
  · exact exG_ok

theorem ex_accepted : ∀ f F, exProg.fns f = some F → ∃ st, Accepted evmT (exSched f) F st := by
  intro f F hF
  rcases exProg_fns hF with ⟨rfl, rfl⟩ | ⟨rfl, rfl⟩
  · exact exMain_accepted
  · exact exG_accepted

theorem ex_flat : ∀ f F, exProg.fns f = some F → FlatOk exProg evmT exArity exTags (exSched f) F := by
  intro f F hF
  rcases exProg_fns hF with ⟨rfl, rfl⟩ | ⟨rfl, rfl⟩
  · exact okFlat exMain_place (by decide +kernel)
  · exact okFlat exG_place (by decide +kernel)

/-- The assembly of the program. -/
theorem ex_code : assemble exProg ["g"] exTags exSched 4 = some
    [⟨"PUSH [tag]", some "2", none⟩, ⟨"PUSH", some "0", none⟩, ⟨"SLOAD", none, none⟩, ⟨"PUSH [tag]", some "1", none⟩,
      ⟨"JUMP", none, some "[in]"⟩, ⟨"tag", some "2", none⟩, ⟨"JUMPDEST", none, none⟩, ⟨"DUP1", none, none⟩,
      ⟨"DUP1", none, none⟩, ⟨"PUSH", some "1", none⟩, ⟨"SSTORE", none, none⟩, ⟨"PUSH [tag]", some "3", none⟩,
      ⟨"JUMPI", none, none⟩, ⟨"tag", some "4", none⟩, ⟨"JUMPDEST", none, none⟩, ⟨"DUP1", none, none⟩,
      ⟨"PUSH", some "3", none⟩, ⟨"SSTORE", none, none⟩, ⟨"STOP", none, none⟩, ⟨"tag", some "3", none⟩,
      ⟨"JUMPDEST", none, none⟩, ⟨"PUSH", some "5", none⟩, ⟨"ADD", none, none⟩, ⟨"PUSH [tag]", some "4", none⟩,
      ⟨"JUMP", none, none⟩, ⟨"tag", some "1", none⟩, ⟨"JUMPDEST", none, none⟩, ⟨"PUSH", some "1", none⟩, ⟨"ADD", none, none⟩,
      ⟨"SWAP1", none, none⟩, ⟨"JUMP", none, some "[out]"⟩] := by
  decide +kernel

/-- The program and its code meet the hypotheses of C54: the assembly stops where the program stops, with the expected values, and
only there. -/
example (w : Loc → Nat) (below : List Nat) (h : (w (.sto 0) + 1) % 2 ^ 256 ≠ 0) :
    ∃ code n w', assemble exProg ["g"] exTags exSched 4 = some code ∧
      FRuns code evmT exArity ⟨0, below, w⟩ n (.inr ⟨"STOP", [], w'⟩) ∧
      w' (.sto 1) = (w (.sto 0) + 1) % 2 ^ 256 ∧ w' (.sto 3) = ((w (.sto 0) + 1) % 2 ^ 256 + 5) % 2 ^ 256 := by
  have hfuel : ∀ f F, exProg.fns f = some F → F.graph.blocks.length ≤ 4 := by
    intro f F hF
    rcases exProg_fns hF with ⟨rfl, rfl⟩ | ⟨rfl, rfl⟩ <;> decide
  obtain ⟨code, hc, hall⟩ := assembly_runs_partial (fun _ => rfl) ex_ok ex_accepted ex_flat exTags_ok (M := exMain) rfl 4 hfuel
  obtain ⟨tr, w', hr, _, h1, h2⟩ := ex_run (fun _ => 0) w h
  obtain ⟨n, hn⟩ := (hall _ w below tr _ hr).1 _ rfl
  exact ⟨code, n, w', hc, hn, h1, h2⟩

/-- The hypotheses of the converse are met, too. -/
example (w : Loc → Nat) (below : List Nat) {code : List Asm} (hc : assemble exProg ["g"] exTags exSched 4 = some code) {n : Nat}
    {h : Halted Nat (Loc → Nat)} (hr : FRuns code evmT exArity ⟨0, below, w⟩ n (.inr h)) (env : String → Nat) :
    (∃ tr, Runs exProg evmT ⟨"main", "Block0", env, [], w⟩ tr (.inr h)) ∨
    ∃ tr c, Runs exProg evmT ⟨"main", "Block0", env, [], w⟩ tr (.inl c) ∧ step exProg evmT c = none := by
  have hfuel : ∀ f F, exProg.fns f = some F → F.graph.blocks.length ≤ 4 := by
    intro f F hF
    rcases exProg_fns hF with ⟨rfl, rfl⟩ | ⟨rfl, rfl⟩ <;> decide
  exact assembly_only_runs_partial (fun _ => rfl) ex_ok ex_accepted ex_flat exTags_ok exTags_unique (M := exMain) rfl 4 hfuel hc env w below hr

/-! ### Finding: blocks that end with `invalid` -/

/-- Two components: the main code stores a number and ends with `invalid`, the function stores another one. -/
def badGraph (start : String) : Component where
  blocks := [⟨start, [], [], [], none, none, "terminal", "", [], []⟩]
  start := start
  inputs := []
  main := true
  junk := true
  inLoop := fun _ => false
  liveIn := fun _ => []
  liveOut := fun _ => []
  depth := fun _ _ => [0]
  level := fun _ => some 0
  domPath := fun _ _ => none

def badProg : Prog where
  fns := fun f =>
    if f = "main" then some ⟨badGraph "Block0", fun _ => [⟨"sstore", ["0x01", "0x02"], [], none⟩, ⟨"invalid", [], [], none⟩], fun _ => none⟩
    else if f = "g" then some ⟨badGraph "g_Block0", fun _ => [⟨"sstore", ["0x01", "0x03"], [], none⟩], fun _ => some ⟨"stop", [], [], none⟩⟩
    else none
  main := "main"

/-- Where `Fn.split` comes from, `invalid` is not a terminal operation (src/parser/constants.py:4,
src/cfg_methods/sub_block_generation.py:145-146), so it is one of the instructions to be scheduled, and since nothing uses it, it is
removed. -/
theorem invalid_is_removed : (builtOf badProg "main" "Block0").map (fun b => (b.entries.map (·.instr.id), b.unused)) =
    some (["PUSH_0", "PUSH_1", "SSTORE_0"], ["INVALID_0"]) := by decide +kernel

/-- The code of the block runs into whatever comes next: here into the function, which overwrites the storage and stops without
an error. -/
theorem invalid_runs_on : (assemble badProg ["g"] (fun _ => none) (fun _ _ => ["PUSH_1", "PUSH_0", "SSTORE_0"]) 1) = some
    [⟨"PUSH", some "2", none⟩, ⟨"PUSH", some "1", none⟩, ⟨"SSTORE", none, none⟩,
      ⟨"PUSH", some "3", none⟩, ⟨"PUSH", some "1", none⟩, ⟨"SSTORE", none, none⟩, ⟨"STOP", none, none⟩] := by decide +kernel

/-- The schedules are accepted. -/
example : ∀ p ∈ [("main", "Block0"), ("g", "g_Block0")], (builtOf badProg p.1 p.2).map (fun b =>
    check ⟨b.entries.map (·.instr), b.src, b.tgt, []⟩ ["PUSH_1", "PUSH_0", "SSTORE_0"] true) = some true := by decide +kernel

end Grey.Program
