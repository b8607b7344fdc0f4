/-
Specification vocabulary for whole programs: the meaning of the control flow graphs, the stack machine that runs the compiled
blocks, and what it means that a program is compiled.

The control flow graphs are those after src/cfg_methods/jump_insertion.py and src/cfg_methods/sub_block_generation.py: jumps
and calls are explicit, a function has the place to return to as its last parameter.
-/
import Verif.Layout.DriverSpec
import Verif.Sfs.BuildSpec
namespace Grey.Program
open Grey.Layout Grey.Sfs Grey.SymExec

/-- The code of a component (the main code or a function): its control flow graph with what the layout generation knows about
it, and for every block the instructions and the split instruction, if there is one. -/
structure Fn where
  graph : Component
  instrs : String → List Ins
  split : String → Option Ins

/-- A program: its components by name. -/
structure Prog where
  fns : String → Option Fn
  main : String

/-- How a block ends. -/
inductive Exit where
  | fall
  | jump
  | branch
  | call (callee : String)
  | ret
  | halt
  deriving DecidableEq, Repr

/-- How a block ends, from its split instruction (src/solution_generation/reconstruct_bytecode.py:85-115, 223-228 and
271-281; src/cfg_methods/sub_block_generation.py:107-147). Blocks without a split instruction end the program or fall through to
the next one. -/
def Prog.exit (P : Prog) (F : Fn) (B : LBlock) : Exit :=
  match F.split B.id with
  | none => if B.fallsTo.isSome then .fall else .halt
  | some i =>
    if i.op = "JUMP" then .jump
    else if i.op = "JUMPI" then .branch
    else if i.op = "functionReturn" then .ret
    else if (P.fns i.op).isSome then .call i.op
    else .halt

/-- The arguments and the results of the split instruction. -/
def Fn.exitArgs (F : Fn) (B : LBlock) : List String := ((F.split B.id).map (·.inArgs)).getD []
def Fn.exitOuts (F : Fn) (B : LBlock) : List String := ((F.split B.id).map (·.outArgs)).getD []
def Fn.exitOp (F : Fn) (B : LBlock) : String := ((F.split B.id).map (·.name)).getD "STOP"

/-! ### The meaning of the control flow graphs -/

/-- A call that has not returned: the function, the block that calls, and the values of the variables. -/
structure Frame (V : Type) where
  fn : String
  block : String
  env : String → V

/-- A state: the function, the block to execute next, the values of the variables, the calls, and the world. -/
structure Config (V σ : Type) where
  fn : String
  block : String
  env : String → V
  frames : List (Frame V)
  world : σ

/-- The end: the last operation, its arguments, and the world. -/
structure Halted (V σ : Type) where
  op : String
  args : List V
  world : σ

section
variable {V σ : Type}

/-- Entering a block along its `k`-th entry: all phi functions take their `k`-th argument at once. -/
noncomputable def enter (I : Interp V σ) (phis : List Phi) (k : Nat) (env : String → V) : String → V := fun x =>
  match phis.find? fun f => f.out == x with
  | some f => match f.args[k]? with
    | some a => I.read env a
    | none => env x
  | none => env x

/-- From the block `B` on to the block `target`. -/
noncomputable def goto (I : Interp V σ) (f : String) (F : Fn) (B : LBlock) (target : Option String) (env : String → V)
    (frames : List (Frame V)) (w : σ) : Option (Config V σ) :=
  (target.bind F.graph.block).map fun S => ⟨f, S.id, enter I S.phis (S.preds.idxOf B.id) env, frames, w⟩

/-- One block: its instructions in order, then what its end says. A call binds the parameters of the function to the arguments
after the first one (the first one is where to jump to), a return binds the results of the call to the values after the first
one. There is no step if a number of values is wrong, a block is missing, or a return has no call. -/
noncomputable def step (P : Prog) (I : Interp V σ) (c : Config V σ) : Option (Config V σ ⊕ Halted V σ) := open Classical in
  (P.fns c.fn).bind fun F => (F.graph.block c.block).bind fun B =>
    let r := blockRun I (F.instrs B.id) c.env c.world
    let args := (F.exitArgs B).map (I.read r.1)
    match P.exit F B with
    | .fall => (goto I c.fn F B B.fallsTo r.1 c.frames r.2).map .inl
    | .jump => (goto I c.fn F B B.jumpTo r.1 c.frames r.2).map .inl
    | .branch => (goto I c.fn F B (if args[1]? = some (I.num 0) then B.fallsTo else B.jumpTo) r.1 c.frames r.2).map .inl
    | .call g => (P.fns g).bind fun G =>
      if (args.drop 1).length = G.graph.inputs.length then
        some (.inl ⟨g, G.graph.start, assign (fun _ => I.num 0) G.graph.inputs (args.drop 1), ⟨c.fn, B.id, r.1⟩ :: c.frames, r.2⟩)
      else none
    | .ret => match c.frames with
      | [] => none
      | fr :: frames => (P.fns fr.fn).bind fun F' => (F'.graph.block fr.block).bind fun B' =>
        if (args.drop 1).length = (F'.exitOuts B').length then
          (goto I fr.fn F' B' B'.fallsTo (assign fr.env (F'.exitOuts B') (args.drop 1)) frames r.2).map .inl
        else none
    | .halt => some (.inr ⟨F.exitOp B, args, r.2⟩)

/-- Runs of the program, with the blocks that are executed and the world before each of them. -/
inductive Runs (P : Prog) (I : Interp V σ) : Config V σ → List (String × String × σ) → Config V σ ⊕ Halted V σ → Prop
  | nil (c) : Runs P I c [] (.inl c)
  | halt {c h} (hs : step P I c = some (.inr h)) : Runs P I c [(c.fn, c.block, c.world)] (.inr h)
  | cons {c c' tr x} (hs : step P I c = some (.inl c')) (hr : Runs P I c' tr x) :
      Runs P I c ((c.fn, c.block, c.world) :: tr) x

/-! ### The machine -/

/-- The last instruction of the code of a block: none (go on with the next block), `JUMP`, `JUMPI`, or an operation with some
number of arguments that ends the program. -/
inductive Last where
  | next (b : Option String)
  | jump
  | jumpi (b : Option String)
  | stop (op : String) (arity : Nat)

/-- The code of a block: a table of instructions with their meaning, a list of ids, and the last instruction. -/
structure Code (V σ : Type) where
  tab : List UInstr
  sem : Sem V σ
  ids : List String
  last : Last

/-- A state of the machine: the block to execute next, the stack, the slots for stored variables, the world. -/
structure MConfig (V σ : Type) where
  fn : String
  block : String
  stack : List V
  slot : Var → V
  world : σ

/-- The machine runs the code of a block. `dest` says which block begins at the position a value stands for. -/
inductive MStep (zero : V) (code : String → String → Option (Code V σ)) (dest : V → Option (String × String)) :
    MConfig V σ → MConfig V σ ⊕ Halted V σ → Prop
  | next {f b b' k s m w s' m' w'} (hc : code f b = some k) (hl : k.last = .next (some b'))
      (hr : Run k.tab k.sem k.ids ⟨s, m, w⟩ ⟨s', m', w'⟩) :
      MStep zero code dest ⟨f, b, s, m, w⟩ (.inl ⟨f, b', s', m', w'⟩)
  | jump {f b f' b' k s m w t s' m' w'} (hc : code f b = some k) (hl : k.last = .jump)
      (hr : Run k.tab k.sem k.ids ⟨s, m, w⟩ ⟨t :: s', m', w'⟩) (ht : dest t = some (f', b')) :
      MStep zero code dest ⟨f, b, s, m, w⟩ (.inl ⟨f', b', s', m', w'⟩)
  | taken {f b b1 f' b' k s m w t c s' m' w'} (hc : code f b = some k) (hl : k.last = .jumpi b1)
      (hr : Run k.tab k.sem k.ids ⟨s, m, w⟩ ⟨t :: c :: s', m', w'⟩) (hz : c ≠ zero) (ht : dest t = some (f', b')) :
      MStep zero code dest ⟨f, b, s, m, w⟩ (.inl ⟨f', b', s', m', w'⟩)
  | notTaken {f b b' k s m w t s' m' w'} (hc : code f b = some k) (hl : k.last = .jumpi (some b'))
      (hr : Run k.tab k.sem k.ids ⟨s, m, w⟩ ⟨t :: zero :: s', m', w'⟩) :
      MStep zero code dest ⟨f, b, s, m, w⟩ (.inl ⟨f, b', s', m', w'⟩)
  | stop {f b k s m w op n args s' m' w'} (hc : code f b = some k) (hl : k.last = .stop op n) (hn : args.length = n)
      (hr : Run k.tab k.sem k.ids ⟨s, m, w⟩ ⟨args ++ s', m', w'⟩) :
      MStep zero code dest ⟨f, b, s, m, w⟩ (.inr ⟨op, args, w'⟩)

/-- Runs of the machine, with the blocks that are executed and the world before each of them. -/
inductive MRuns (zero : V) (code : String → String → Option (Code V σ)) (dest : V → Option (String × String)) :
    MConfig V σ → List (String × String × σ) → MConfig V σ ⊕ Halted V σ → Prop
  | nil (m) : MRuns zero code dest m [] (.inl m)
  | halt {m h} (hs : MStep zero code dest m (.inr h)) : MRuns zero code dest m [(m.fn, m.block, m.world)] (.inr h)
  | cons {m m' tr x} (hs : MStep zero code dest m (.inl m')) (hr : MRuns zero code dest m' tr x) :
      MRuns zero code dest m ((m.fn, m.block, m.world) :: tr) x

/-- A state of the program and one of the machine agree: both are about to execute the same block in the same world, or both have
ended, with the same operation on the same arguments in the same world. -/
def Agree : Config V σ ⊕ Halted V σ → MConfig V σ ⊕ Halted V σ → Prop
  | .inl c, .inl m => m.fn = c.fn ∧ m.block = c.block ∧ m.world = c.world
  | .inr h, .inr h' => h' = h
  | _, _ => False

/-- The last instruction of a block (src/solution_generation/reconstruct_bytecode.py:85-115): calls, returns and unconditional
jumps are `JUMP`s. -/
def Prog.last (P : Prog) (F : Fn) (B : LBlock) : Last :=
  match P.exit F B with
  | .fall => .next B.fallsTo
  | .jump => .jump
  | .call _ => .jump
  | .ret => .jump
  | .branch => .jumpi B.fallsTo
  | .halt => .stop (F.exitOp B) (F.exitArgs B).length

/-! ### What is assumed -/

/-- A name that the layout generation invents: for the positions below a join that nobody reads, and for further copies of a
variable. -/
def Padding (x : String) : Prop := (∃ n : Nat, x = "a" ++ toString n) ∨ ∃ n : Nat, x = pseudoName n

/-- The block pushes the tag `t`, and the code at `target` begins where that tag is. -/
def PushesTag (I : Interp V σ) (dest : V → Option (String × String)) (instrs : List Ins) (t : String)
    (target : String × String) : Prop :=
  (∃ i ∈ instrs, i.op = "PUSH [tag]" ∧ i.inArgs = [] ∧ i.outArgs = [t]) ∧
  ∃ v, (∀ w, (I.op "PUSH [TAG]" (some [t]) [] w).1 = [v]) ∧ dest v = some target

/-- The function returns somewhere. -/
def Prog.Returns (P : Prog) (G : Fn) : Prop := ∃ B ∈ G.graph.blocks, P.exit G B = .ret

/-- What is assumed about a component of the program. -/
structure FnOk (P : Prog) (I : Interp V σ) (dest : V → Option (String × String)) (f : String) (F : Fn) : Prop where
  /-- a graph that the layout generation can work on, see C52 -/
  wf : WellFormed F.graph
  one : OneJoin F.graph
  /-- the first block has no predecessors -/
  start : ∃ S ∈ F.graph.blocks, S.id = F.graph.start ∧ S.comesFrom = []
  /-- functions have no junk (src/liveness/layout_generation.py:128-129); the main code has no parameters
  (src/liveness/utils.py:18) -/
  junk : f ≠ P.main → NoJunk F.graph
  inputs : f = P.main → F.graph.inputs = []
  /-- the layout generation knows the results of the split instruction -/
  final : ∀ B ∈ F.graph.blocks, B.finalElems = F.exitOuts B
  /-- only calls have results, and what follows a call with results is not a join -/
  outs : ∀ B ∈ F.graph.blocks, (∀ g, P.exit F B ≠ .call g) → F.exitOuts B = []
  callJoin : ∀ B ∈ F.graph.blocks, F.exitOuts B ≠ [] → ∀ J ∈ F.graph.blocks, 1 < J.comesFrom.length → B.id ∉ J.comesFrom
  /-- the end of a function: nothing is live, and the block is not a final one of the program -/
  ret : ∀ B ∈ F.graph.blocks, P.exit F B = .ret → f ≠ P.main ∧ B.succs = [] ∧ F.graph.liveOut B.id = [] ∧
    B.jumpType ∉ ["terminal", "mainExit"] ∧ B.previousType ∉ ["terminal", "mainExit"]
  /-- single assignment within a block and between the split instruction and the block -/
  insOuts : ∀ B ∈ F.graph.blocks, ((F.instrs B.id).flatMap (·.outArgs)).Nodup
  outsNodup : ∀ B ∈ F.graph.blocks, (F.exitOuts B).Nodup
  inputsNodup : F.graph.inputs.Nodup
  /-- variables have proper names, and nothing is named like the padding of the layout generation -/
  properIns : ∀ B ∈ F.graph.blocks, ∀ i ∈ F.instrs B.id, ∀ v ∈ i.outArgs, Proper v ∧ ¬ Padding v
  properOuts : ∀ B ∈ F.graph.blocks, ∀ v ∈ F.exitOuts B, Proper v ∧ ¬ Padding v
  properPhi : ∀ B ∈ F.graph.blocks, ∀ p ∈ B.phis, Proper p.out ∧ ¬ Padding p.out
  properInputs : ∀ v ∈ F.graph.inputs, Proper v ∧ ¬ Padding v
  namesIns : ∀ B ∈ F.graph.blocks, ∀ i ∈ F.instrs B.id, ∀ v ∈ i.inArgs, ¬ Padding v
  namesArgs : ∀ B ∈ F.graph.blocks, ∀ v ∈ F.exitArgs B, ¬ Padding v
  namesPhi : ∀ B ∈ F.graph.blocks, ∀ p ∈ B.phis, ∀ v ∈ p.args, ¬ Padding v
  /-- jumps and calls go to the tags that the block pushes, returns to the value of the last parameter -/
  jumps : ∀ B ∈ F.graph.blocks, P.exit F B = .jump → ∃ t n, F.exitArgs B = [t] ∧ B.jumpTo = some n ∧
    PushesTag I dest (F.instrs B.id) t (f, n)
  branches : ∀ B ∈ F.graph.blocks, P.exit F B = .branch → ∃ t c n, F.exitArgs B = [t, c] ∧ B.jumpTo = some n ∧
    PushesTag I dest (F.instrs B.id) t (f, n)
  calls : ∀ B ∈ F.graph.blocks, ∀ g G, P.exit F B = .call g → P.fns g = some G → g ≠ P.main ∧
    (∃ t args, F.exitArgs B = t :: args ∧ PushesTag I dest (F.instrs B.id) t (g, G.graph.start)) ∧
    (P.Returns G → ∀ n, B.fallsTo = some n → ∃ r, (F.exitArgs B).getLast? = some r ∧
      PushesTag I dest (F.instrs B.id) r (f, n))
  returns : ∀ B ∈ F.graph.blocks, P.exit F B = .ret → ∃ o vals, F.exitArgs B = o :: vals ∧ F.graph.inputs.getLast? = some o
  /-- the last parameter of a function that returns keeps its value -/
  keeps : P.Returns F → ∀ o, F.graph.inputs.getLast? = some o → ∀ B ∈ F.graph.blocks,
    (∀ i ∈ F.instrs B.id, o ∉ i.outArgs) ∧ o ∉ F.exitOuts B ∧ ∀ p ∈ B.phis, p.out ≠ o

/-- The code of a block does what the block does, on the layouts of the block: from the values of the stack `src` it makes the
values that the block gives to the arguments of the split instruction and to the rest of the stack `tgt`, leaves alone what
is below, and possibly leaves values that nobody needs in between. This is what C51 says of every accepted schedule. -/
def BlockCompiled (I : Interp V σ) (instrs : List Ins) (split : Option Ins) (src tgt : List String) (junk : Bool)
    (k : Code V σ) : Prop :=
  ∀ (env : String → V) (w : σ) (slot : Var → V) (rest : List V), ∃ slot' extra,
    Run k.tab k.sem k.ids ⟨(substDuplicates src).map (I.read env) ++ rest, slot, w⟩
      ⟨(beforeSplit split tgt).map (I.read (blockRun I instrs env w).1) ++ extra ++ rest, slot', (blockRun I instrs env w).2⟩ ∧
    (junk = false → extra = [])

/-- A component is compiled: layouts have been found, and every block that has one has code for them. The renamed copies in the
stacks have different names (see C18); results of the split instruction are not in the stack that the block starts from. -/
structure Compiled (P : Prog) (I : Interp V σ) (code : String → String → Option (Code V σ)) (f : String) (F : Fn)
    (st : DState) : Prop where
  layouts : drive F.graph = .ok st
  code : ∀ B ∈ F.graph.blocks, ∀ src tgt, (B.id, src, tgt) ∈ st.specs → ∃ k, code f B.id = some k ∧ k.last = P.last F B ∧
    BlockCompiled I (F.instrs B.id) (F.split B.id) src tgt (F.graph.canJunk B.id) k
  copies : ∀ B ∈ F.graph.blocks, ∀ src tgt, (B.id, src, tgt) ∈ st.specs → (substDuplicates src).Nodup
  fresh : ∀ B ∈ F.graph.blocks, ∀ src tgt, (B.id, src, tgt) ∈ st.specs → ∀ v ∈ F.exitOuts B, v ∉ src

end
end Grey.Program
