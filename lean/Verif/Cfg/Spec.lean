/-
Meaning of control-flow graphs, independent of the code that transforms them: an abstract machine which runs one block at a
time. Operations are uninterpreted: the theorems hold for every choice of their meaning, in particular for the one in
which the world is the list of all operations performed so far with their argument values.
-/
import Verif.Cfg.Model
namespace Grey.Cfg
open List

/-- Values of the variables (and constants) and the rest of the machine (memory, storage, logs, ...). -/
structure St (V W : Type) where
  env : String → V
  world : W

/-- An instruction either continues or ends the execution. -/
inductive Res (S : Type) where
  | next (s : S)
  | stop (s : S)

/-- The meaning of the operations: results, new world and whether the execution goes on; and the test of `jumpi`. -/
structure Sem (V W : Type) where
  op : String → List V → W → List V × W × Bool
  truth : V → Bool

/-- Assign the results to the output variables, in order. -/
def assign {V : Type} (env : String → V) : List (String × V) → String → V
  | [] => env
  | (x, v) :: r => assign (fun y => if y = x then v else env y) r

def execInstr {V W : Type} (sem : Sem V W) (i : Instr) (s : St V W) : Res (St V W) :=
  let r := sem.op i.op (i.ins.map s.env) s.world
  let s' := ⟨assign s.env (i.outs.zip r.1), r.2.1⟩
  if r.2.2 then .next s' else .stop s'

def execAll {V W : Type} (sem : Sem V W) : List Instr → St V W → Res (St V W)
  | [], s => .next s
  | i :: is, s =>
    match execInstr sem i s with
    | .next s' => execAll sem is s'
    | .stop s' => .stop s'

def isPhi (i : Instr) : Bool := i.op == "PhiFunction"

/-- All phi functions read the variables before any of them is assigned. `k` is the position of the edge taken. -/
def execPhis {V : Type} (env : String → V) (k : Nat) (phis : List Instr) : String → V :=
  assign env (phis.filterMap fun i => match i.outs, i.ins[k]? with
    | [x], some a => some (x, env a)
    | _, _ => none)

/-- Execute the phi functions when coming from `prev`; `entries` lists the sources of their arguments. Without phi functions
`prev` does not matter. -/
def enterWith {V : Type} (phis : List Instr) (entries : List String) (prev : Option String) (env : String → V) :
    Option (String → V) :=
  if phis = [] then some env
  else prev.bind fun p => (entries.idxOf? p).map fun k => execPhis env k phis

/-- Entering a block. -/
def enter {V : Type} (b : Block) (prev : Option String) (env : String → V) : Option (String → V) :=
  enterWith (b.instrs.filter isPhi) b.entries prev env

/-- Where the execution is: the block to be run next and the block it comes from. -/
structure Config (V W : Type) where
  prev : Option String
  cur : String
  st : St V W

/-- What running a block leads to. -/
inductive Out (C S : Type) where
  | goto (c : C)
  | halt (s : S)
  | stuck

def Out.map {C C' S : Type} (f : C → C') : Out C S → Out C' S
  | .goto c => .goto (f c)
  | .halt s => .halt s
  | .stuck => .stuck

/-- The end of a block: no successor ends the execution, one is taken, and of two the condition decides. -/
def leave {V W : Type} (sem : Sem V W) (b : Block) (s : St V W) : Out (Config V W) (St V W) :=
  match b.jumpTo, b.fallsTo with
  | none, none => .halt s
  | some t, none => .goto ⟨some b.id, t, s⟩
  | none, some t => .goto ⟨some b.id, t, s⟩
  | some t, some e =>
    match b.cond with
    | some c => if sem.truth (s.env c) then .goto ⟨some b.id, t, s⟩ else .goto ⟨some b.id, e, s⟩
    | none => .stuck

/-- Run one block. -/
def stepBlock {V W : Type} (sem : Sem V W) (G : BlockList) (c : Config V W) : Out (Config V W) (St V W) :=
  match G.get c.cur with
  | none => .stuck
  | some b =>
    match enter b c.prev c.st.env with
    | none => .stuck
    | some env =>
      match execAll sem (b.instrs.filter fun i => !isPhi i) ⟨env, c.st.world⟩ with
      | .stop s => .halt s
      | .next s => leave sem b s

/-- The execution from a configuration ends in the state `s`. -/
inductive Ends {C S : Type} (step : C → Out C S) : C → S → Prop
  | now {c s} : step c = .halt s → Ends step c s
  | later {c d s} : step c = .goto d → Ends step d s → Ends step c s

/-- The execution gets from one configuration to another. -/
inductive Gets {C S : Type} (step : C → Out C S) : C → C → Prop
  | refl (c) : Gets step c c
  | step {c d e} : step c = .goto d → Gets step d e → Gets step c e

/-- The execution gets stuck (an undefined block, or a phi function without a value for the edge taken). -/
inductive Wrong {C S : Type} (step : C → Out C S) : C → Prop
  | now {c} : step c = .stuck → Wrong step c
  | later {c d} : step c = .goto d → Wrong step d → Wrong step c

/-- Two programs, started in the given configurations, behave alike: they end in the same states, and get stuck alike
(hence they also run forever alike, executions being deterministic). -/
def SameBehaviour {C C' S : Type} (step : C → Out C S) (c : C) (step' : C' → Out C' S) (c' : C') : Prop :=
  (∀ s, Ends step c s ↔ Ends step' c' s) ∧ (Wrong step c ↔ Wrong step' c')

/-- Block names are unique; an edge is recorded at its target exactly if it exists, once; targets and recorded
predecessors exist. -/
structure Coherent (G : BlockList) : Prop where
  ids : (G.blocks.map (·.id)).Nodup
  edges : ∀ p q P Q, G.get p = some P → G.get q = some Q → (p ∈ Q.comesFrom ↔ q ∈ P.succs)
  preds : ∀ q Q, G.get q = some Q → ∀ x ∈ Q.comesFrom, ∃ P, G.get x = some P
  targets : ∀ p P, G.get p = some P → ∀ x ∈ P.succs, ∃ Q, G.get x = some Q
  once : ∀ q Q, G.get q = some Q → Q.comesFrom.Nodup

/-- No branch has the same target twice. -/
def NoDouble (G : BlockList) : Prop := ∀ x b, G.get x = some b → ∀ t, ¬ (b.jumpTo = some t ∧ b.fallsTo = some t)

/-- Well-formed programs: moreover the sources of phi arguments are predecessors, and the entry exists. -/
structure Sane (G : BlockList) : Prop where
  coherent : Coherent G
  noDouble : NoDouble G
  entries : ∀ q Q, G.get q = some Q → ∀ x ∈ Q.entries, x ∈ Q.comesFrom
  start : ∃ s S, G.start = some s ∧ G.get s = some S

/-- A configuration an execution can be in: the current block exists, and is a successor of the one it comes from. -/
def Valid {V W : Type} (G : BlockList) (c : Config V W) : Prop :=
  (∃ B, G.get c.cur = some B) ∧ ∀ p, c.prev = some p → c.cur ∈ G.succ p

/-- The configuration in which a program is started. -/
def init {V W : Type} (b : String) (s : St V W) : Config V W := ⟨none, b, s⟩

end Grey.Cfg
