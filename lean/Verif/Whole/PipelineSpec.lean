/-
Specification for C86: what is assumed about the operations of an object, and what the compiler does not check.
-/
import Verif.Whole.Spec
namespace Grey.Whole
open List Grey.Cfg Grey.Inline Grey.Lower Grey.Sfs Grey.Program Grey.SymExec

/-- An operation as the specifications of blocks expect it, with `n` arguments and `m` results: a lower-case name of an existing operation, or the assignment of a
literal; operations that push something have no arguments and one result. It changes the state only if it is one of the effects, and reads and writes
only the places that it may read and write. -/
structure EvmOp {C : Type} (I : Interp Nat (Loc → C)) (op : String) (lits : Option (List String)) (n m : Nat) : Prop where
  known : op = "LiteralAssignment" ∨ (Opcodes.existsOpcode (op.map Char.toUpper) = true ∧ (Opcodes.opcodes.lookup op).isNone ∧
    ∀ p ∈ ["SWAP", "DUP", "VERBATIM", "VGET(", "VSET("], ¬ p.toList <:+: (op.map Char.toUpper).toList)
  prefixOnly : "LiteralAssig".toList <+: op.toList → op = "LiteralAssignment"
  literal : op = "LiteralAssignment" → n = 1 ∧ m = 1
  push : op = "push" → ∃ c, lits = some [c] ∧ constNumber c ≠ 0
  pushes : "push".toList <+: op.toList → n = 0 ∧ m = 1
  noPush : op.map Char.toUpper = "PUSH" → op = "push"
  quiet : (op.map Char.toUpper).map Char.toLower ∉ effectOps → ∀ l args w, (I.op (op.map Char.toUpper) l args w).2 = w
  const : "push".toList <+: op.toList → ∀ l w w', (I.op (op.map Char.toUpper) l [] w).1 = (I.op (op.map Char.toUpper) l [] w').1
  result : ∀ args w w', args.length = n → (∀ l, MayRead op args l → w l = w' l) → (operation I op lits args w).1 = (operation I op lits args w').1
  written : ∀ args w w', args.length = n → (∀ l, MayRead op args l → w l = w' l) → ∀ l, w l = w' l → (operation I op lits args w).2 l = (operation I op lits args w').2 l
  untouched : ∀ args w l, args.length = n → ¬ MayWrite op args l → (operation I op lits args w).2 l = w l

/-- The operations of the object (other than calls, returns and the ends of the execution) are such operations, and operations with the same name in capitals are
the same. -/
structure EvmLike {C : Type} (names : List String) (dec : String → String × Option (List String)) (I : Interp Nat (Loc → C)) (O : Obj) : Prop where
  ops : ∀ c C x X i, O.comp c = some C → C.body.get x = some X → i ∈ code X → i.op ∉ ["functionReturn"] ++ Lower.haltOps ++ names →
    EvmOp I (dec i.op).1 (dec i.op).2 i.ins.length i.outs.length
  same : ∀ c C x X i c' C' x' X' j, O.comp c = some C → C.body.get x = some X → i ∈ code X → i.op ∉ ["functionReturn"] ++ Lower.haltOps ++ names →
    O.comp c' = some C' → C'.body.get x' = some X' → j ∈ code X' → j.op ∉ ["functionReturn"] ++ Lower.haltOps ++ names →
    (dec i.op).1.map Char.toUpper = (dec j.op).1.map Char.toUpper → (dec i.op).1 = (dec j.op).1
  comm : ∀ o ∈ ["ADD", "MUL", "EQ", "AND", "OR", "XOR"], ∀ l a b w, I.op o l [a, b] w = I.op o l [b, a] w
  tag : ∀ l args w, (I.op "PUSH [TAG]" l args w).2 = w

/-- Blocks can be placed one after the other (C33): as `Placeable`, without what the front end and the layout generation ensure. -/
structure InOrder (G : Layout.Component) : Prop where
  oneFall : ∀ B ∈ G.blocks, ∀ C ∈ G.blocks, ∀ d, B.fallsTo = some d → C.fallsTo = some d → B = C
  condJump : ∀ B ∈ G.blocks, ∀ j d, B.jumpTo = some j → B.fallsTo = some d →
    ∀ C ∈ G.blocks, C.fallsTo ≠ some j ∧ (C.jumpTo = some j → C = B)
  chain : ∀ B ∈ G.blocks, ∀ C ∈ G.blocks, ∀ d, B.fallsTo = some C.id → C.fallsTo = some d → ¬ ReachAvoiding G C.id d

/-- What the compiler relies on without checking it, for the program `P` and the ids `sched` of the blocks:
- no block precedes two joins (C52), and the blocks can be placed one after the other (C33);
- the names on the stack that a block starts from are different after the substitution of duplicates (C18);
- the dependences between the instructions of a block are found (C51);
- a terminal block with an empty schedule consists of its last instruction only (C54). -/
structure Unensured {C : Type} (P : Prog) (I : Interp Nat (Loc → C)) (sched : String → String → List String) : Prop where
  one : ∀ f F, P.fns f = some F → Layout.OneJoin F.graph
  order : ∀ f F, P.fns f = some F → InOrder F.graph
  copies : ∀ f F, P.fns f = some F → ∀ st, Layout.drive F.graph = .ok st → ∀ B ∈ F.graph.blocks, ∀ src tgt, (B.id, src, tgt) ∈ st.specs →
    (Layout.substDuplicates src).Nodup
  deps : ∀ f F, P.fns f = some F → ∀ st, Layout.drive F.graph = .ok st → ∀ B ∈ F.graph.blocks, ∀ src tgt, (B.id, src, tgt) ∈ st.specs →
    ∀ built deps, buildSpec (F.instrs B.id) (F.split B.id) [] (Layout.substDuplicates src) tgt = some (built, deps) →
    ∀ env w, Sfs.Analysable (F.instrs B.id) built.positions built.unused (I.read (blockRun I (F.instrs B.id) env w).1)
  terminal : ∀ f F, P.fns f = some F → ∀ B ∈ F.graph.blocks, B.jumpType = "terminal" → (∀ s ∈ sched f B.id, s = "NOP") →
    B.phis = [] ∧ F.instrs B.id = []

/-- The same if the ids can be anything that the check of the schedules accepts: they are those of instructions, `NOP`, or `DUP` and `SWAP` up to the depth 16
(variables that are stored in memory are not covered). -/
structure Unchecked {C : Type} (P : Prog) (I : Interp Nat (Loc → C)) (sched : String → String → List String) : Prop extends Unensured P I sched where
  ids : ∀ f F, P.fns f = some F → ∀ B ∈ F.graph.blocks, PlainIds (sched f B.id) ∧ ∀ s ∈ sched f B.id, classify s ≠ some (.swap 0)

end Grey.Whole
