/-
Specification vocabulary for assembly: a machine with a program counter that runs a list of assembly items, independent of how the
list has been made.
-/
import Verif.Output.Asm
import Verif.Program.Spec
namespace Grey.Program
open Grey.Layout Grey.Sfs Grey.SymExec Grey.Output

/-- A state of the machine. -/
structure FState (V σ : Type) where
  pc : Nat
  stack : List V
  world : σ

/-- The operations that end an execution. -/
def haltOps : List String := ["STOP", "RETURN", "REVERT", "INVALID", "SELFDESTRUCT"]

/-- The items that are not simply operations on the stack and the world. -/
def controlOps : List String :=
  ["PUSH", "PUSH [tag]", "POP", "JUMP", "JUMPI", "tag", "JUMPDEST"] ++ haltOps ++
    (List.range 16).map (fun n => "DUP" ++ toString (n + 1)) ++ (List.range 16).map (fun n => "SWAP" ++ toString (n + 1))

section
variable {V σ : Type}

/-- The tag `t` stands for the value `v`. -/
def TagValue (I : Interp V σ) (t : String) (v : V) : Prop := ∀ w, (I.op "PUSH [TAG]" (some [t]) [] w).1 = [v]

/-- The item at position `p` is a tag that stands for `v`, so a jump to `v` goes there. -/
def Target (code : List Asm) (I : Interp V σ) (v : V) (p : Nat) : Prop :=
  ∃ t, code[p]? = some ⟨"tag", some t, none⟩ ∧ TagValue I t v

/-- One item. `arity` is the number of arguments of an operation. There is no step on an underflow, on a jump to a value that no
tag stands for, and after the last item. -/
inductive FStep (code : List Asm) (I : Interp V σ) (arity : String → Nat) : FState V σ → FState V σ ⊕ Halted V σ → Prop
  | push {pc s w v j} (h : code[pc]? = some ⟨"PUSH", some v, j⟩) :
      FStep code I arity ⟨pc, s, w⟩ (.inl ⟨pc + 1, I.num (hexNumber v.toList) :: s, w⟩)
  | pushTag {pc s w t j} (h : code[pc]? = some ⟨"PUSH [tag]", some t, j⟩) :
      FStep code I arity ⟨pc, s, w⟩
        (.inl ⟨pc + 1, (I.op "PUSH [TAG]" (some [t]) [] w).1 ++ s, (I.op "PUSH [TAG]" (some [t]) [] w).2⟩)
  | pop {pc x s w j} (h : code[pc]? = some ⟨"POP", none, j⟩) : FStep code I arity ⟨pc, x :: s, w⟩ (.inl ⟨pc + 1, s, w⟩)
  | dup {pc a y b w j} (hn : a.length < 16) (h : code[pc]? = some ⟨"DUP" ++ toString (a.length + 1), none, j⟩) :
      FStep code I arity ⟨pc, a ++ y :: b, w⟩ (.inl ⟨pc + 1, y :: (a ++ y :: b), w⟩)
  | swap {pc x a y b w j} (hn : a.length < 16) (h : code[pc]? = some ⟨"SWAP" ++ toString (a.length + 1), none, j⟩) :
      FStep code I arity ⟨pc, x :: (a ++ y :: b), w⟩ (.inl ⟨pc + 1, y :: (a ++ x :: b), w⟩)
  | tag {pc s w t j} (h : code[pc]? = some ⟨"tag", some t, j⟩) : FStep code I arity ⟨pc, s, w⟩ (.inl ⟨pc + 1, s, w⟩)
  | jumpdest {pc s w j} (h : code[pc]? = some ⟨"JUMPDEST", none, j⟩) : FStep code I arity ⟨pc, s, w⟩ (.inl ⟨pc + 1, s, w⟩)
  | jump {pc v s w p j} (h : code[pc]? = some ⟨"JUMP", none, j⟩) (ht : Target code I v p) :
      FStep code I arity ⟨pc, v :: s, w⟩ (.inl ⟨p, s, w⟩)
  | taken {pc v c s w p j} (h : code[pc]? = some ⟨"JUMPI", none, j⟩) (hc : c ≠ I.num 0) (ht : Target code I v p) :
      FStep code I arity ⟨pc, v :: c :: s, w⟩ (.inl ⟨p, s, w⟩)
  | notTaken {pc v s w j} (h : code[pc]? = some ⟨"JUMPI", none, j⟩) :
      FStep code I arity ⟨pc, v :: I.num 0 :: s, w⟩ (.inl ⟨pc + 1, s, w⟩)
  | halt {pc op args s w j} (h : code[pc]? = some ⟨op, none, j⟩) (ho : op ∈ haltOps) (ha : args.length = arity op) :
      FStep code I arity ⟨pc, args ++ s, w⟩ (.inr ⟨op, args, w⟩)
  | op {pc name v args s w j} (h : code[pc]? = some ⟨name, v, j⟩) (hn : name ∉ controlOps) (ha : args.length = arity name) :
      FStep code I arity ⟨pc, args ++ s, w⟩
        (.inl ⟨pc + 1, (I.op name (v.map fun x => [x]) args w).1 ++ s, (I.op name (v.map fun x => [x]) args w).2⟩)

/-- Executions, with the number of items executed. -/
inductive FRuns (code : List Asm) (I : Interp V σ) (arity : String → Nat) : FState V σ → Nat → FState V σ ⊕ Halted V σ → Prop
  | nil (s) : FRuns code I arity s 0 (.inl s)
  | halt {s h} (hs : FStep code I arity s (.inr h)) : FRuns code I arity s 1 (.inr h)
  | cons {s s' n x} (hs : FStep code I arity s (.inl s')) (hr : FRuns code I arity s' n x) : FRuns code I arity s (n + 1) x

/-- The number written by decimal digits. -/
def decNumber (l : List Char) : Nat := l.foldl (fun n c => 10 * n + (c.toNat - 48)) 0

/-- `b` is another way to write the literal `a`: with capitals, or, for a decimal number, in hexadecimal. -/
def SameLiteral (a b : String) : Prop :=
  a.map Char.toUpper = b.map Char.toUpper ∨
    (a.toList ≠ [] ∧ (∀ c ∈ a.toList, c.isDigit = true) ∧ decNumber a.toList = hexNumber b.toList)

/-- What is assumed about an instruction so that it can be written as an assembly item: it has the number of arguments of its
operation; tags are decimal numbers; it has at most one literal argument, and its meaning does not depend on how that is
written; it is not a jump, a stack manipulation or an end of the execution. -/
inductive Writable (I : Interp V σ) (arity : String → Nat) (i : Ins) : Prop
  | const (h : i.op = "LiteralAssignment" ∨ i.op = "push")
  | tag (n : Nat) (h : i.op = "PUSH [tag]") (ha : i.inArgs = []) (ho : i.outArgs = [toString n])
  | op (h1 : i.name ∉ controlOps) (h2 : i.name ∉ ["PUSH0", "PUSH data", "PUSH [TAG]"]) (ha : i.inArgs.length = arity i.name)
      (hv : i.name ∈ ["PUSHIMMUTABLE", "ASSIGNIMMUTABLE"] → i.op ∈ literalArgOps)
      (hl : i.op ∈ literalArgOps → ∃ l, i.lits = some [l] ∧
        ∀ l', SameLiteral l l' → ∀ args w, I.op i.name (some [l]) args w = I.op i.name (some [l']) args w)

/-- What is assumed about the ids of a schedule: `DUP` and `SWAP` reach at most the depth 16 and are written with a plain
number, and no variables are stored. -/
structure PlainIds (ids : List String) : Prop where
  dup : ∀ s ∈ ids, ∀ n, classify s = some (.dup n) → n ≤ 16 ∧ s = "DUP" ++ toString n
  swap : ∀ s ∈ ids, ∀ n, classify s = some (.swap n) → n ≤ 16 ∧ s = "SWAP" ++ toString n
  get : ∀ s ∈ ids, ∀ v, classify s ≠ some (.get v)
  set : ∀ s ∈ ids, ∀ v, classify s ≠ some (.set v)

/-! ### What is assumed -/

/-- The types of the blocks say how they end, and the blocks that end the program do so with an operation that exists.
`arity` is the number of arguments of an operation. -/
def EndOk (P : Prog) (arity : String → Nat) (F : Fn) (B : LBlock) : Prop :=
  match P.exit F B with
  | .fall => B.jumpType = "falls_to" ∧ B.jumpTo = none
  | .jump => B.jumpType = "unconditional" ∧ B.fallsTo = none ∧ (F.split B.id).bind (·.lits) = none
  | .branch => B.jumpType = "conditional" ∧ B.fallsTo.isSome ∧ (F.split B.id).bind (·.lits) = none
  | .call _ => B.jumpTo = none ∧
    (((B.jumpType = "sub_block" ∨ B.jumpType = "falls_to") ∧ B.fallsTo.isSome) ∨ (B.jumpType = "terminal" ∧ B.fallsTo = none))
  | .ret => B.jumpType = "FunctionReturn" ∧ B.jumpTo = none ∧ B.fallsTo = none
  | .halt => B.jumpTo = none ∧ B.fallsTo = none ∧ match F.split B.id with
    | none => B.jumpType = "mainExit" ∧ arity "STOP" = 0
    | some i => B.jumpType = "terminal" ∧ i.name ∈ haltOps ∧ i.lits = none ∧ i.inArgs.length = arity i.name

/-- `d` can be reached from the beginning without passing through `c`. -/
inductive ReachAvoiding (G : Component) (c : String) : String → Prop
  | start : ReachAvoiding G c G.start
  | step {B : LBlock} {d : String} : ReachAvoiding G c B.id → B ∈ G.blocks → B.id ≠ c → d ∈ B.succs → ReachAvoiding G c d

/-- What is assumed about the order of the blocks, see C33: all blocks can be reached, no two blocks fall to the same block and
none to itself; the block a conditional block jumps to has no other predecessor; if a block that is fallen to falls to a block
`d`, then `d` can only be reached through it. -/
structure Placeable (G : Component) : Prop where
  entry : (∃ l r, G.start = l ++ "Block0" ++ r)
  known : ∀ B ∈ G.blocks, ∀ n ∈ B.succs, ∃ S ∈ G.blocks, S.id = n
  reach : ∀ B ∈ G.blocks, Reachable G B.id
  oneFall : ∀ B ∈ G.blocks, ∀ C ∈ G.blocks, ∀ d, B.fallsTo = some d → C.fallsTo = some d → B = C
  noSelf : ∀ B ∈ G.blocks, B.fallsTo ≠ some B.id
  condJump : ∀ B ∈ G.blocks, ∀ j d, B.jumpTo = some j → B.fallsTo = some d →
    ∀ C ∈ G.blocks, C.fallsTo ≠ some j ∧ (C.jumpTo = some j → C = B)
  chain : ∀ B ∈ G.blocks, ∀ C ∈ G.blocks, ∀ d, B.fallsTo = some C.id → C.fallsTo = some d → ¬ ReachAvoiding G C.id d

/-- What is assumed about a component so that its code can be written down. -/
structure FlatOk (P : Prog) (I : Interp V σ) (arity : String → Nat) (tags : String → Option Nat) (sched : String → List String)
    (F : Fn) : Prop where
  place : Placeable F.graph
  ends : ∀ B ∈ F.graph.blocks, EndOk P arity F B
  writable : ∀ B ∈ F.graph.blocks, ∀ i ∈ F.instrs B.id, Writable I arity i
  ids : ∀ B ∈ F.graph.blocks, PlainIds (sched B.id)
  /-- a block that falls through has a tag or an instruction -/
  nonempty : ∀ B ∈ F.graph.blocks, P.exit F B = .fall → tags B.id ≠ none ∨ ∃ s ∈ sched B.id, s ≠ "NOP"
  /-- a terminal block with an empty schedule consists of its last instruction only -/
  terminal : ∀ B ∈ F.graph.blocks, B.jumpType = "terminal" → (∀ s ∈ sched B.id, s = "NOP") → B.phis = [] ∧ F.instrs B.id = []

/-- The functions are named, and a value that stands for the beginning of a block is the value of the tag of that block. -/
structure TagsOk (P : Prog) (I : Interp V σ) (dest : V → Option (String × String)) (names : List String)
    (tags : String → Option Nat) : Prop where
  functions : ∀ g, g ∈ names ↔ g ≠ P.main ∧ (P.fns g).isSome
  nodup : names.Nodup
  plain : ∀ g ∈ names, g ∉ ["JUMP", "JUMPI", "functionReturn"]
  dest : ∀ v f b, dest v = some (f, b) → ∃ F, P.fns f = some F ∧ (∃ B ∈ F.graph.blocks, B.id = b) ∧
    ∃ t, tags b = some t ∧ TagValue I (toString t) v

/-- Different blocks have different tags, and different tags have different values. -/
structure TagsUnique (P : Prog) (I : Interp V σ) (tags : String → Option Nat) : Prop where
  blocks : ∀ f F g G B C t, P.fns f = some F → P.fns g = some G → B ∈ F.graph.blocks → C ∈ G.graph.blocks → tags B.id = some t →
    tags C.id = some t → f = g ∧ B = C
  values : ∀ b b' t t' v, tags b = some t → tags b' = some t' → TagValue I (toString t) v → TagValue I (toString t') v → t = t'

end
end Grey.Program
