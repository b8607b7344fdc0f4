/-
Specification vocabulary for variables that are kept in memory: when it is right to load a variable from a cell of memory, and
what is assumed about memory. Independent of how the cells are chosen.
-/
import Verif.Stored.Model
import Verif.Program.FlatSpec
import Verif.Program.Compile
namespace Grey.Stored
open List Grey.Layout Grey.Sfs Grey.SymExec Grey.Program Grey.Repair

/-! ### Memory -/

/-- Byte `l` is one of the 32 bytes of the cell at `a`. -/
def InCell (a : Nat) (l : Loc) : Prop := ∃ k, l = .mem k ∧ a ≤ k ∧ k < a + 32

/-- Two states agree on everything except the cells. -/
def SameOutside {C : Type} (cells : Nat → Prop) (w w' : Loc → C) : Prop := ∀ l, (∀ a, cells a → ¬ InCell a l) → w' l = w l

/-- The cell at `a` contains the word `x`. -/
def Holds {C : Type} (I : Interp Nat (Loc → C)) (w : Loc → C) (a x : Nat) : Prop := (I.op "MLOAD" none [a] w).1 = [x]

/-- What is assumed about the two operations that the reparation adds: they take one and two arguments, a load changes nothing and
depends on the 32 bytes only, a store changes the 32 bytes only, and a load after the store of a word finds the word. -/
structure MemoryOk {C : Type} (I : Interp Nat (Loc → C)) (arity : String → Nat) : Prop where
  loadArity : arity "MLOAD" = 1
  storeArity : arity "MSTORE" = 2
  loadWorld : ∀ a w, (I.op "MLOAD" none [a] w).2 = w
  loadLocal : ∀ a w w', (∀ l, InCell a l → w l = w' l) → (I.op "MLOAD" none [a] w).1 = (I.op "MLOAD" none [a] w').1
  storeResult : ∀ a x w, (I.op "MSTORE" none [a, x] w).1 = []
  storeLocal : ∀ a x w l, ¬ InCell a l → (I.op "MSTORE" none [a, x] w).2 l = w l
  loadStore : ∀ a x w, x < 2 ^ 256 → Holds I (I.op "MSTORE" none [a, x] w).2 a x

/-! ### Which variables are in which cells -/

/-- What is known: the variable is in the cell. -/
abbrev Facts := List (String × Nat)

/-- The names on the stack and what is known about the cells, after an operation. `none`: the operation is not right here; a
variable is loaded from a cell that does not hold it, or stored when it is not on top of the stack. -/
def SOp.flow (tab : List UInstr) : SOp → List String × Facts → Option (List String × Facts)
  | .id s, (st, K) => match classify s with
    | none | some (.get _) | some (.set _) => none
    | some o => (execOp tab o st).map (·, K)
  | .load v a, (st, K) => if (v, a) ∈ K then some (v :: st, K) else none
  | .store _ _, ([], _) => none
  | .store v a, (x :: st, K) => if x = v then some (st, (v, a) :: K.filter fun p => p.2 ≠ a) else none
  | .dup n, (st, K) => if n ≤ 16 then (execOp tab (.dup n) st).map (·, K) else none

def flow (tab : List UInstr) : List SOp → List String × Facts → Option (List String × Facts)
  | [], x => some x
  | o :: os, x => (o.flow tab x).bind (flow tab os)

/-- What has been known and is not about the variables that the instructions assign. -/
def unassigned (instrs : List Ins) (K : Facts) : Facts := K.filter fun p => decide (∀ i ∈ instrs, p.1 ∉ i.outArgs)

/-- The variable whose value the variable `v` takes when the block `S` is entered along its `k`-th entry. -/
def sourceOf (S : LBlock) (k : Nat) (v : String) : String :=
  match S.phis.find? fun p => p.out == v with
  | some p => (p.args[k]?).getD v
  | none => v

/-- Where the variables are: what is known before and after every block, and the cells that a function (with the functions it
calls) writes. -/
structure Places where
  before : String → String → Facts
  after : String → String → Facts
  writes : String → List Nat
  cell : Nat → Prop

/-- The places are right: cells do not overlap; nothing is known at the beginning of a component; what is known before a block is
known at the end of all blocks before it, for the arguments of its phi functions; a call does not write the cells that are
used after it. -/
structure PlacesOk (P : Prog) (L : Places) : Prop where
  apart : ∀ a b, L.cell a → L.cell b → a ≠ b → NoOverlap a b
  known : ∀ f b p, p ∈ L.before f b → L.cell p.2 ∧ Proper p.1 ∧ ¬ Padding p.1
  written : ∀ f a, a ∈ L.writes f → L.cell a
  start : ∀ f F, P.fns f = some F → L.before f F.graph.start = []
  calls : ∀ f F, P.fns f = some F → ∀ B ∈ F.graph.blocks, ∀ g, P.exit F B = .call g → ∀ a ∈ L.writes g, a ∈ L.writes f
  edges : ∀ f F, P.fns f = some F → ∀ B ∈ F.graph.blocks, ∀ S ∈ F.graph.blocks, S.id ∈ B.succs → ∀ p ∈ L.before f S.id,
    (sourceOf S (S.preds.idxOf B.id) p.1, p.2) ∈ L.after f B.id
  over : ∀ f F, P.fns f = some F → ∀ B ∈ F.graph.blocks, ∀ g, P.exit F B = .call g → ∀ S ∈ F.graph.blocks, S.id ∈ B.succs →
    ∀ p ∈ L.before f S.id, sourceOf S (S.preds.idxOf B.id) p.1 ∉ F.exitOuts B ∧ p.2 ∉ L.writes g

/-- The operations written for a block are right: the validator has accepted the ids, `flow` finds every load and store right,
and finds what is claimed to be known afterwards; the cells it stores to are listed. -/
structure BlockStored {C : Type} (I : Interp Nat (Loc → C)) (L : Places) (f b : String) (instrs : List Ins) (split : Option Ins)
    (src tgt : List String) (junk : Bool) (pids : List PId) (regs dups : List (String × (Nat × Nat))) (ops : List SOp) : Prop where
  block : BlockOk instrs (substDuplicates src)
  interp : InterpOk I instrs
  local' : LocalOk I instrs
  final : ∀ v ∈ beforeSplit split tgt, ¬ Generated v
  emitted : ∃ cell, emitBlock cell pids regs dups = some ops
  accepted : ∃ built deps, buildSpec instrs split [] (substDuplicates src) tgt = some (built, deps) ∧
    check ⟨built.entries.map (·.instr), built.src, built.tgt, deps⟩ (originals pids) junk = true ∧
    (∀ env w, Analysable instrs built.positions built.unused (I.read (blockRun I instrs env w).1)) ∧
    ∃ st K, flow (built.entries.map (·.instr)) ops (built.src, unassigned instrs (L.before f b)) = some (st, K) ∧
      ∀ p ∈ L.after f b, p ∈ K ∧ ¬ Generated p.1 ∧ ¬ Padding p.1
  stores : ∀ v a, SOp.store v a ∈ ops → a ∈ L.writes f ∧ ¬ Generated v ∧ ¬ Padding v
  dup : ∀ s, SOp.id s ∈ ops → ∀ n, classify s = some (.dup n) → n ≤ 16 ∧ s = "DUP" ++ toString n
  swap : ∀ s, SOp.id s ∈ ops → ∀ n, classify s = some (.swap n) → 0 < n ∧ n ≤ 16 ∧ s = "SWAP" ++ toString n
  names : ∀ s ∈ originals pids, (∀ v, vgetOf s = some v ↔ classify s = some (.get v)) ∧ ∀ v, vsetOf s = some v ↔ classify s = some (.set v)

/-- What is written for the blocks of an object: the ids with their placeholders, the arguments of phi functions to be copied, and
the operations. -/
structure Written where
  pids : String → String → List PId
  regs : String → String → List (String × (Nat × Nat))
  dups : String → String → List (String × (Nat × Nat))
  ops : String → String → List SOp

/-- The ids of a block. -/
def Written.sched (W : Written) (f b : String) : List String := (W.ops f b).flatMap SOp.texts

/-- A component whose variables are partly in memory. -/
structure StoredFn {C : Type} (P : Prog) (I : Interp Nat (Loc → C)) (L : Places) (W : Written) (arity : String → Nat)
    (tags : String → Option Nat) (f : String) (F : Fn) (st : DState) : Prop where
  layouts : drive F.graph = .ok st
  blocks : ∀ B ∈ F.graph.blocks, ∀ src tgt, (B.id, src, tgt) ∈ st.specs →
    BlockStored I L f B.id (F.instrs B.id) (F.split B.id) src tgt (F.graph.canJunk B.id) (W.pids f B.id) (W.regs f B.id) (W.dups f B.id)
      (W.ops f B.id) ∧
    (substDuplicates src).Nodup ∧ ∀ v ∈ F.exitOuts B, v ∉ src
  place : Placeable F.graph
  ends : ∀ B ∈ F.graph.blocks, EndOk P arity F B
  writable : ∀ B ∈ F.graph.blocks, ∀ i ∈ F.instrs B.id, Writable I arity i
  nonempty : ∀ B ∈ F.graph.blocks, P.exit F B = .fall → tags B.id ≠ none ∨ W.sched f B.id ≠ []
  terminal : ∀ B ∈ F.graph.blocks, B.jumpType = "terminal" → W.sched f B.id = [] → B.phis = [] ∧ F.instrs B.id = []

/-- The program keeps away from the cells, when it is about to execute the block of `c`: no instruction of the block reads or
writes a cell, and the variables that are stored have values of 256 bits. -/
def KeepsAway {C : Type} (P : Prog) (I : Interp Nat (Loc → C)) (L : Places) (W : Written) (c : Config Nat (Loc → C)) : Prop :=
  ∀ F B, P.fns c.fn = some F → F.graph.block c.block = some B →
    let fin := (blockRun I (F.instrs B.id) c.env c.world).1
    (∀ i ∈ F.instrs B.id, ∀ a, L.cell a → ∀ l, InCell a l →
      ¬ MayRead i.op (i.inArgs.map (I.read fin)) l ∧ ¬ MayWrite i.op (i.inArgs.map (I.read fin)) l) ∧
    ∀ v a, SOp.store v a ∈ W.ops c.fn B.id → I.read fin v < 2 ^ 256

end Grey.Stored
