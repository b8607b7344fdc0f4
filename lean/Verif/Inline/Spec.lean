/-
Meaning of objects with functions, independent of the code that inlines functions: a machine with a frame per activation, which
executes one instruction (or leaves one block) per step; and strict static single assignment form. Blocks, phi functions and
operations mean what they mean in Verif/Cfg/Spec.lean.
-/
import Verif.Cfg.Spec
import Verif.Cfg.Rename
namespace Grey.Inline
open List Grey.Cfg

/-- An object (src/parser/cfg_object.py): the main code and the functions by name. -/
structure Obj where
  main : BlockList
  fns : String → Option Component

/-- The components of an object: `none` is the main code. -/
def Obj.comp (O : Obj) : Option String → Option Component
  | none => some ⟨[], O.main⟩
  | some f => O.fns f

/-- The phi functions of a block, and its other instructions. -/
def phis (b : Block) : List Instr := b.instrs.filter isPhi
def code (b : Block) : List Instr := b.instrs.filter fun i => !isPhi i

/-! ### The machine -/

/-- An activation of a component: the block it is in, the instructions of the block still to be executed, and the values of its
variables. -/
structure Frame (V : Type) where
  comp : Option String
  block : String
  rest : List Instr
  env : String → V

/-- The running activation, the activations that wait for a call to return, each with the variables that take the results, and the
world. -/
structure Conf (V W : Type) where
  cur : Frame V
  stack : List (Frame V × List String)
  world : W

/-- Going to the block `t`, coming from `prev`. -/
def goto {V W : Type} (G : BlockList) (comp : Option String) (prev : Option String) (t : String) (env : String → V)
    (stack : List (Frame V × List String)) (w : W) : Out (Conf V W) W :=
  match G.get t with
  | none => .stuck
  | some B =>
    match enter B prev env with
    | none => .stuck
    | some e => .goto ⟨⟨comp, t, code B, e⟩, stack, w⟩

/-- The end of a block: no successor ends the execution, one is taken, and of two the condition decides. -/
def leaveBlock {V W : Type} (sem : Sem V W) (G : BlockList) (B : Block) (c : Conf V W) : Out (Conf V W) W :=
  match B.jumpTo, B.fallsTo with
  | none, none => .halt c.world
  | some t, none => goto G c.cur.comp (some c.cur.block) t c.cur.env c.stack c.world
  | none, some t => goto G c.cur.comp (some c.cur.block) t c.cur.env c.stack c.world
  | some t, some e =>
    match B.cond with
    | some x => goto G c.cur.comp (some c.cur.block) (if sem.truth (c.cur.env x) then t else e) c.cur.env c.stack c.world
    | none => .stuck

/-- A call: the variables of the new activation are those of `base` (which gives the constants their values), except for the
parameters. The last argument listed is the first parameter. -/
def callFn {V W : Type} (base : String → V) (F : Component) (i : Instr) (is : List Instr) (c : Conf V W) : Out (Conf V W) W :=
  if i.ins.length = F.args.length then
    match F.body.start with
    | none => .stuck
    | some s => goto F.body (some i.op) none s (assign base (F.args.reverse.zip (i.ins.map c.cur.env)))
        (({ c.cur with rest := is }, i.outs) :: c.stack) c.world
  else .stuck

/-- A return: the values go to the variables which the call assigns. -/
def returnFn {V W : Type} (i : Instr) (c : Conf V W) : Out (Conf V W) W :=
  match c.stack with
  | [] => .stuck
  | (fr, outs) :: st =>
    if i.ins.length = outs.length then
      .goto ⟨{ fr with env := assign fr.env (outs.zip (i.ins.map c.cur.env)) }, st, c.world⟩
    else .stuck

/-- Any other operation: it ends the execution, or it has a value for each variable which the instruction assigns. -/
def operate {V W : Type} (sem : Sem V W) (i : Instr) (is : List Instr) (c : Conf V W) : Out (Conf V W) W :=
  let r := sem.op i.op (i.ins.map c.cur.env) c.world
  if r.2.2 then
    if r.1.length = i.outs.length then .goto ⟨{ c.cur with rest := is, env := assign c.cur.env (i.outs.zip r.1) }, c.stack, r.2.1⟩
    else .stuck
  else .halt r.2.1

/-- One step of the machine. -/
def step {V W : Type} (sem : Sem V W) (base : String → V) (O : Obj) (c : Conf V W) : Out (Conf V W) W :=
  match O.comp c.cur.comp with
  | none => .stuck
  | some C =>
    match c.cur.rest with
    | [] =>
      match C.body.get c.cur.block with
      | none => .stuck
      | some B => leaveBlock sem C.body B c
    | i :: is =>
      match O.fns i.op with
      | some F => callFn base F i is c
      | none => if i.op = "functionReturn" then returnFn i c else operate sem i is c

/-- The start of the main code. -/
def start {V W : Type} (base : String → V) (O : Obj) (w : W) : Out (Conf V W) W :=
  match O.main.start with
  | none => .stuck
  | some s => goto O.main none none s base [] w

/-- The executions of an object that is started in the world `w`, from a pseudo configuration before the start. -/
def run {V W : Type} (sem : Sem V W) (base : String → V) (O : Obj) (w : W) : Option (Conf V W) → Out (Option (Conf V W)) W
  | none => (start base O w).map some
  | some c => (step sem base O c).map some

/-- Two objects have the same executions: they end in the same worlds and get stuck alike, whatever the operations mean and in
whatever world they are started. (Hence they also run forever alike.) -/
def SameRuns (O O' : Obj) : Prop :=
  ∀ (V W : Type) (sem : Sem V W) (base : String → V) (w : W), SameBehaviour (run sem base O w) none (run sem base O' w) none

/-! ### Strict single assignment -/

/-- Some path from the entry of the component to the point of block `b` before the instructions `rest` defines none of the
variables `vs`. -/
inductive Clear (c : Component) (vs : List String) : String → List Instr → Prop
  | start {s : String} {S : Block} (hs : c.body.start = some s) (hS : c.body.get s = some S) (ha : ∀ v ∈ vs, v ∉ c.args)
      (hp : ∀ v ∈ vs, ∀ i ∈ phis S, v ∉ i.outs) : Clear c vs s (code S)
  | instr {b : String} {i : Instr} {is : List Instr} (h : Clear c vs b (i :: is)) (ho : ∀ v ∈ vs, v ∉ i.outs) : Clear c vs b is
  | edge {b t : String} {B T : Block} (h : Clear c vs b []) (hB : c.body.get b = some B) (ht : t ∈ B.succs)
      (hT : c.body.get t = some T) (hp : ∀ v ∈ vs, ∀ i ∈ phis T, v ∉ i.outs) : Clear c vs t (code T)

/-- Strict single assignment: no variable is defined twice, and no variable is used where some path has not defined it. Constants
are not variables. Phi functions have a result, and an argument for each entry; their arguments are used at the end of the block from
which the edge comes. -/
structure StrictSSA (c : Component) : Prop where
  once : c.defs.Nodup
  noConst : ∀ x ∈ c.defs, isConst x = false
  ins : ∀ b B i is, c.body.get b = some B → i :: is <:+ code B → ∀ x ∈ i.ins, isConst x = false → ¬ Clear c [x] b (i :: is)
  cond : ∀ b B x, c.body.get b = some B → B.cond = some x → isConst x = false → ¬ Clear c [x] b []
  shape : ∀ b B i, c.body.get b = some B → i ∈ phis B → i.ins.length = B.entries.length ∧ ∃ x, i.outs = [x]
  phis : ∀ b B i, c.body.get b = some B → i ∈ phis B → ∀ (k : Nat) (p x : String), B.entries[k]? = some p → i.ins[k]? = some x →
    isConst x = false → ¬ Clear c [x] p []

end Grey.Inline
