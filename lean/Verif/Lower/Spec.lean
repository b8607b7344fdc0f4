/-
Specification for C61: what an operation of an object means if `I` says what the operations of the program mean, what the end of an
execution of the object is for the program, and which objects can be lowered.
-/
import Verif.Lower.Model
import Verif.Inline.Ok
namespace Grey.Lower
open List Grey.Cfg Grey.Inline Grey.Sfs

section
variable {V σ : Type}

/-- The results and the new world of an operation that does not end the execution: assignments and pushes of literals are what they are in
Verif/Sfs/BuildSpec.lean, all other operations are given by `I`. -/
def operation (I : Interp V σ) (name : String) (lits : Option (List String)) (args : List V) (w : σ) : List V × σ :=
  if name = "LiteralAssignment" then (args.take 1, w)
  else if name = "push" then (((lits.getD []).take 1).map fun c => I.num (constNumber c), w)
  else I.op (name.map Char.toUpper) (if name ∈ literalArgOps then lits else none) args w

/-- The operations that end the execution. -/
def haltOps : List String := ["return", "revert", "stop", "selfdestruct", "invalid"]

/-- The meaning of the operations of an object. The world remembers the operation that has ended the execution. -/
noncomputable def meaning (I : Interp V σ) (dec : String → String × Option (List String)) : Sem V (σ × Option (String × List V)) where
  op o args w :=
    if o ∈ haltOps then ([], (w.1, some (o, args)), false)
    else ((operation I (dec o).1 (dec o).2 args w.1).1, ((operation I (dec o).1 (dec o).2 args w.1).2, w.2), true)
  truth v := open Classical in decide (v ≠ I.num 0)

/-- Constants have their values, all variables are zero at the start of a component. -/
noncomputable def zeros (I : Interp V σ) : String → V := fun x => I.read (fun _ => I.num 0) x

/-- The end of the program that corresponds to the final world of the object: without an operation that ends the execution it stops. -/
def haltedOf (s : σ × Option (String × List V)) : Program.Halted V σ :=
  match s.2 with
  | some (o, args) => ⟨o.map Char.toUpper, args, s.1⟩
  | none => ⟨"STOP", [], s.1⟩

/-- Where the program starts. -/
def entry (I : Interp V σ) (main : String) (O : Obj) (w : σ) : Program.Config V σ :=
  ⟨main, O.main.start.getD "", fun _ => I.num 0, [], w⟩

/-- The program does what the object does when both start in the world `w`: it ends with `h` exactly if an execution of the object ends in a world
that corresponds to `h`, and it gets stuck exactly if the object does. (Hence it also runs forever exactly if the object does.) -/
def RunsLike (I : Interp V σ) (dec : String → String × Option (List String)) (P : Program.Prog) (start : Program.Config V σ) (O : Obj) (w : σ) : Prop :=
  (∀ h, (∃ tr, Program.Runs P I start tr (.inr h)) ↔ ∃ s, Ends (run (meaning I dec) (zeros I) O (w, none)) none s ∧ haltedOf s = h) ∧
  ((∃ tr c, Program.Runs P I start tr (.inl c) ∧ Program.step P I c = none) ↔ Wrong (run (meaning I dec) (zeros I) O (w, none)) none)

/-! ### What is assumed -/

/-- The name is not one of those that the lowering introduces (numbers of tags, places to return to), and not `bottom`. -/
def Plain (x : String) : Prop := (∀ n : Nat, x ≠ toString n) ∧ (∀ f : String, x ≠ "out_" ++ f) ∧ x ≠ "bottom"

/-- The function has a block that returns. -/
def Returns (F : Component) : Prop := ∃ x X, F.body.get x = some X ∧ X.jumpType = "FunctionReturn"

/-- The kind of a block says how it ends. Inlining leaves blocks of the type `sub_block` behind, which are joined with their successor
unless they end with another call. -/
def KindOk (O : Obj) (main : Bool) (X : Block) : Prop :=
  (X.jumpType = "unconditional" ∧ (∃ y, X.jumpTo = some y) ∧ X.fallsTo = none) ∨
  (X.jumpType = "conditional" ∧ (∃ y, X.jumpTo = some y) ∧ (∃ z, X.fallsTo = some z) ∧ ∃ c, X.cond = some c) ∨
  (X.jumpType = "FunctionReturn" ∧ main = false ∧ X.jumpTo = none ∧ X.fallsTo = none ∧ ∃ i, X.instrs.getLast? = some i ∧ i.op = "functionReturn") ∨
  (X.jumpType ∈ ["terminal", "mainExit"] ∧ X.jumpTo = none ∧ X.fallsTo = none) ∨
  (X.jumpType = "sub_block" ∧ X.jumpTo = none ∧ (∃ z, X.fallsTo = some z) ∧ ∃ i F, X.instrs.getLast? = some i ∧ O.fns i.op = some F)

/-- A block that can be lowered. -/
structure BlockOk (O : Obj) (X : Block) : Prop where
  phisFirst : X.instrs = phis X ++ code X
  phiShape : ∀ i ∈ phis X, i.ins.length = X.entries.length ∧ ∃ x, i.outs = [x]
  phiOuts : ((phis X).flatMap (·.outs)).Nodup
  phiEntries : phis X ≠ [] → ∀ p ∈ X.comesFrom, p ∈ X.entries
  /-- returns and the operations that end the execution are at the ends of blocks without successors -/
  onlyReturns : ∀ l i l', X.instrs = l ++ i :: l' → i.op = "functionReturn" → l' = [] ∧ X.jumpType = "FunctionReturn"
  ends : ∀ l i l', X.instrs = l ++ i :: l' → i.op ∈ haltOps → l' = [] ∧ X.jumpTo = none ∧ X.fallsTo = none
  /-- a call ends a block without successors exactly if the function never returns -/
  tails : ∀ l i l' F, X.instrs = l ++ i :: l' → O.fns i.op = some F → (¬ Returns F ↔ l' = [] ∧ X.jumpTo = none ∧ X.fallsTo = none)
  /-- `invalid` is not treated as an operation that ends the execution (see the findings in DESIGN.md); jumps are not there yet -/
  ops : ∀ i ∈ X.instrs, i.op ∉ ["JUMP", "JUMPI", "PUSH [tag]", "invalid"]
  /-- names -/
  plain : ∀ i ∈ X.instrs, ∀ x ∈ i.ins ++ i.outs, Plain x
  plainCond : ∀ x, X.cond = some x → Plain x
  vars : ∀ i ∈ X.instrs, ∀ x ∈ i.outs, Cfg.isConst x = false

/-- An object that can be lowered: `names` are its functions. -/
structure Lowerable (names : List String) (O : Obj) : Prop where
  nodup : names.Nodup
  fns : ∀ f, f ∈ names ↔ ∃ F, O.fns f = some F
  sane : ∀ c C, O.comp c = some C → Sane C.body
  noSelf : ∀ c C, O.comp c = some C → ∀ x X, C.body.get x = some X → x ∉ X.succs
  exits : ∀ c C, O.comp c = some C → ExactExits C.body
  /-- nothing jumps to the beginning through phi functions -/
  start : ∀ c C, O.comp c = some C → ∀ s S, C.body.start = some s → C.body.get s = some S → phis S = []
  blocks : ∀ c C, O.comp c = some C → ∀ x X, C.body.get x = some X → BlockOk O X ∧ KindOk O c.isNone X
  args : ∀ f F, O.fns f = some F → ∀ x ∈ F.args, Plain x ∧ Cfg.isConst x = false
  /-- no name of a block is another one with the letters of halves appended -/
  blockNames : ∀ c d C D, O.comp c = some C → O.comp d = some D → ∀ x y X Y, C.body.get x = some X → D.body.get y = some Y →
    ∀ w, Halves w → y.toList = x.toList ++ w → w = [] ∧ c = d
  /-- functions are not called like operations that the lowering and the program machine know -/
  names : ∀ f ∈ names, f ∉ ["PhiFunction", "functionReturn", "JUMP", "JUMPI", "PUSH [tag]"] ++ haltOps

/-- What `dec` and `I` have to do with the object: `dec` leaves alone the operations that the program machine knows and names of
functions; other operations have as many results as the instruction assigns; literal assignments assign constants. -/
structure OpsOk (names : List String) (dec : String → String × Option (List String)) (I : Interp V σ) (O : Obj) : Prop where
  known : ∀ o ∈ ["functionReturn", "JUMP", "JUMPI", "PUSH [tag]"] ++ haltOps ++ names, dec o = (o, none)
  other : ∀ c C x X i, O.comp c = some C → C.body.get x = some X → i ∈ code X → i.op ∉ ["functionReturn"] ++ haltOps ++ names →
    (dec i.op).1.map Char.toUpper ≠ "PUSH [TAG]" ∧ (∀ args w, args.length = i.ins.length → (operation I (dec i.op).1 (dec i.op).2 args w).1.length = i.outs.length) ∧
    ((dec i.op).1 = "LiteralAssignment" → ∀ x ∈ i.ins, Cfg.isConst x = true)
  tag : ∀ t w, (I.op "PUSH [TAG]" (some [t]) [] w).2 = w

end
end Grey.Lower
