/-
Meaning of the documents, independent of the parser, and what the parser expects of them.

In the documents the arguments of an operation are listed from the last to the first; parameters, results and returned values are listed from the
first to the last; of the two targets of a conditional jump the first one is taken if the condition is zero.
-/
import Verif.Parser.Model
namespace Grey.Parser
open List Grey.Cfg Grey.Inline

/-- An activation of the main code or of a function: the block, the instructions of the block still to be executed, and the values of the
variables. -/
structure JFrame (V : Type) where
  comp : Option String
  block : String
  rest : List JInstr
  env : String → V

/-- The running activation, the activations that wait for a call to return, each with the variables that take the results, and the world. -/
structure JConf (V W : Type) where
  cur : JFrame V
  stack : List (JFrame V × List String)
  world : W

/-- The blocks of the main code or of a function. -/
def JObj.blocksOf (J : JObj) : Option String → Option (List JBlock)
  | none => some J.blocks
  | some f => (J.functions.lookup f).map (·.blocks)

/-- The phi functions of a block, and its other instructions. -/
def jphis (b : JBlock) : List JInstr := b.instrs.filter fun i => i.op == "PhiFunction"
def jcode (b : JBlock) : List JInstr := b.instrs.filter fun i => i.op != "PhiFunction"

/-- The values of the variables when a block is entered: coming from its `k`-th entry, each phi function takes its `k`-th argument, all at the same
time. -/
def jenter {V : Type} (b : JBlock) (prev : Option String) (env : String → V) : Option (String → V) :=
  if jphis b = [] then some env
  else prev.bind fun p => (b.entries.idxOf? p).map fun k =>
    assign env ((jphis b).filterMap fun i => match i.outs, i.ins[k]? with
      | [x], some a => some (x, env a)
      | _, _ => none)

section
variable {V W : Type}

/-- Going to the block `t`, coming from `prev`. -/
def jgoto (blocks : List JBlock) (comp : Option String) (prev : Option String) (t : String) (env : String → V)
    (stack : List (JFrame V × List String)) (w : W) : Out (JConf V W) W :=
  match blocks.find? fun b => b.id == t with
  | none => .stuck
  | some b =>
    match jenter b prev env with
    | none => .stuck
    | some e => .goto ⟨⟨comp, t, jcode b, e⟩, stack, w⟩

/-- The exit of a block. -/
def jexit (sem : Sem V W) (blocks : List JBlock) (ex : JExit) (c : JConf V W) : Out (JConf V W) W :=
  let go := fun t => jgoto blocks c.cur.comp (some c.cur.block) t c.cur.env c.stack c.world
  if ex.type = "Jump" then
    match ex.targets with
    | t :: _ => go t
    | [] => .stuck
  else if ex.type = "ConditionalJump" then
    match ex.targets, ex.cond with
    | t0 :: t1 :: _, some x => if sem.truth (c.cur.env x) then go t1 else go t0
    | _, _ => .stuck
  else if ex.type = "FunctionReturn" then
    match ex.returnValues, c.stack with
    | some vs, (fr, outs) :: st =>
      if vs.length = outs.length then .goto ⟨{ fr with env := assign fr.env (outs.zip (vs.map c.cur.env)) }, st, c.world⟩ else .stuck
    | _, _ => .stuck
  else if ex.type = "MainExit" ∨ ex.type = "Terminated" then .halt c.world
  else .stuck

/-- An instruction: a call, or an operation, which ends the execution or has a value for each result. -/
def jinstr (sem : Sem V W) (base : String → V) (J : JObj) (i : JInstr) (is : List JInstr) (c : JConf V W) : Out (JConf V W) W :=
  let args := i.ins.reverse.map c.cur.env
  match J.functions.lookup i.op with
  | some F =>
    if args.length = F.arguments.length then
      jgoto F.blocks (some i.op) none F.entry (assign base (F.arguments.zip args)) (({ c.cur with rest := is }, i.outs) :: c.stack) c.world
    else .stuck
  | none =>
    let r := sem.op i.op args c.world
    if r.2.2 then
      if r.1.length = i.outs.length then .goto ⟨{ c.cur with rest := is, env := assign c.cur.env (i.outs.zip r.1) }, c.stack, r.2.1⟩
      else .stuck
    else .halt r.2.1

/-- One step. -/
def jstep (sem : Sem V W) (base : String → V) (J : JObj) (c : JConf V W) : Out (JConf V W) W :=
  match c.cur.rest with
  | i :: is => jinstr sem base J i is c
  | [] =>
    match J.blocksOf c.cur.comp with
    | none => .stuck
    | some blocks =>
      match blocks.find? fun b => b.id == c.cur.block with
      | none => .stuck
      | some b => jexit sem blocks b.exit c

/-- The executions of a document that is started in the world `w`, from a pseudo configuration before the start: the main code begins with its first
block. -/
def jrun (sem : Sem V W) (base : String → V) (J : JObj) (w : W) : Option (JConf V W) → Out (Option (JConf V W)) W
  | none =>
    match J.blocks with
    | [] => .stuck
    | b :: _ => (jgoto J.blocks none none b.id base [] w).map some
  | some c => (jstep sem base J c).map some

end

/-! ### Documents -/

/-- The kinds of exits. -/
def exitTypes : List String := ["Jump", "ConditionalJump", "FunctionReturn", "MainExit", "Terminated"]

/-- A block as solc writes it: one of the five kinds of exits, with the targets, the condition and the values it needs; `functionReturn` is not an
operation; literal assignments have an argument and a result; the type of a block is not that of an exit. -/
structure BlockOk (b : JBlock) : Prop where
  exit : b.exit.type ∈ exitTypes
  jump : b.exit.type = "Jump" → b.exit.targets ≠ []
  cond : b.exit.type = "ConditionalJump" → 2 ≤ b.exit.targets.length ∧ b.exit.cond ≠ none
  ret : b.exit.type = "FunctionReturn" → b.exit.returnValues ≠ none
  type : b.type ≠ "FunctionReturn"
  ops : ∀ i ∈ b.instrs, i.op ≠ "functionReturn"
  lits : ∀ i ∈ b.instrs, i.op = "LiteralAssignment" → i.ins ≠ [] ∧ i.outs ≠ []

/-- A list of blocks: names are unique, and targets of exits exist. -/
structure BlocksOk (blocks : List JBlock) : Prop where
  ids : (blocks.map (·.id)).Nodup
  block : ∀ b ∈ blocks, BlockOk b
  targets : ∀ b ∈ blocks, ∀ t ∈ b.exit.targets, ∃ b' ∈ blocks, b'.id = t

/-- A document: its lists of blocks are as above, the keys of the dictionary of functions are distinct, no function is called like a return, and the
entry of a function is its first block. -/
structure DocOk (J : JObj) : Prop where
  main : BlocksOk J.blocks
  fns : ∀ f F, (f, F) ∈ J.functions → BlocksOk F.blocks
  keys : (J.functions.map (·.1)).Nodup
  names : ∀ f F, (f, F) ∈ J.functions → f ≠ "functionReturn"
  entry : ∀ f F, (f, F) ∈ J.functions → F.blocks.head?.map (·.id) = some F.entry

/-- What the order of results needs: an instruction with several results has an underscore in its name. -/
def Underscores (J : JObj) : Prop :=
  ∀ c blocks, J.blocksOf c = some blocks → ∀ b ∈ blocks, ∀ i ∈ b.instrs, 2 ≤ i.outs.length → '_' ∈ i.op.toList

end Grey.Parser
