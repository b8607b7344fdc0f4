/-
How an object and the object with jumps, tags and split blocks correspond, block by block.
-/
import Verif.Lower.Spec
namespace Grey.Lower
open List Grey.Cfg Grey.Inline

/-- The tag `t` is that of the first block of the function `f`. -/
def FnTag (H : Obj) (T : TagDict) (f : String) (t : Nat) : Prop :=
  ∃ F s, H.fns f = some F ∧ F.body.start = some s ∧ tagOf T s = some t

/-- The instructions that the block `B` has after the lowering. `ret` is the variable with the place to return to. If `raw` holds, there can
be calls in the block that are still to be split off. -/
inductive Deco (names : List String) (H : Obj) (T : TagDict) (ret : Option String) (raw : Prop) (B : Block) : List Instr → Prop
  | exit (hty : B.jumpType ∈ ["terminal", "mainExit"]) (hj : B.jumpTo = none) (hf : B.fallsTo = none)
      (hc : raw ∨ ∀ i ∈ B.instrs, i.op ∉ names) : Deco names H T ret raw B B.instrs
  | jump (y : String) (t : Nat) (hty : B.jumpType = "unconditional") (hj : B.jumpTo = some y) (hf : B.fallsTo = none) (ht : tagOf T y = some t)
      (hc : raw ∨ ∀ i ∈ B.instrs, i.op ∉ names) : Deco names H T ret raw B (B.instrs ++ [pushTag t, ⟨"JUMP", [toString t], []⟩])
  | branch (y z c : String) (t : Nat) (hty : B.jumpType = "conditional") (hj : B.jumpTo = some y) (hf : B.fallsTo = some z)
      (hcond : B.cond = some c) (ht : tagOf T y = some t) (hc : raw ∨ ∀ i ∈ B.instrs, i.op ∉ names) :
      Deco names H T ret raw B (B.instrs ++ [pushTag t, ⟨"JUMPI", [toString t, c], []⟩])
  | ret (o : String) (l : List Instr) (i : Instr) (hty : B.jumpType = "FunctionReturn") (hj : B.jumpTo = none) (hf : B.fallsTo = none)
      (hl : B.instrs = l ++ [i]) (hi : i.op = "functionReturn") (ho : ret = some o) (hc : raw ∨ ∀ i ∈ l, i.op ∉ names) :
      Deco names H T ret raw B (l ++ [{ i with ins := o :: i.ins }])
  | sub (l : List Instr) (i : Instr) (n : String) (hty : B.jumpType = "sub_block") (hl : B.instrs = l ++ [i]) (hi : i.op ∈ names) (hj : B.jumpTo = none)
      (hf : B.fallsTo = some n) (hraw : raw) : Deco names H T ret raw B B.instrs
  | call (l : List Instr) (i : Instr) (n : String) (ft rt : Nat) (ts : List Nat) (hts : ts = [ft, rt] ∨ ts = [rt, ft]) (hty : B.jumpType = "sub_block") (hl : B.instrs = l ++ [i]) (hi : i.op ∈ names)
      (hn : ∀ j ∈ l, j.op ∉ names) (hj : B.jumpTo = none) (hf : B.fallsTo = some n) (hrt : tagOf T n = some rt) (hft : FnTag H T i.op ft)
      (hraw : ¬ raw) :
      Deco names H T ret raw B (afterPhis (ts.map pushTag) (l ++ [tagCall ft (some rt) i]))
  | tail (l : List Instr) (i : Instr) (ft : Nat) (hty : B.jumpType ∈ ["terminal", "mainExit"]) (hl : B.instrs = l ++ [i]) (hi : i.op ∈ names)
      (hn : ∀ j ∈ l, j.op ∉ names) (hj : B.jumpTo = none) (hf : B.fallsTo = none) (hft : FnTag H T i.op ft)
      (hraw : ¬ raw) :
      Deco names H T ret raw B (afterPhis [pushTag ft] (l ++ [tagCall ft none i]))

/-- `C'` is the component `C` with jumps and tags. -/
structure DecoComp (names : List String) (H : Obj) (T : TagDict) (ret : Option String) (raw : String → Prop) (C C' : Component) : Prop where
  args : C'.args = ret.toList ++ C.args
  start : C'.body.start = C.body.start
  ids : (C'.body.blocks.map (·.id)).Nodup
  none : ∀ x, C.body.get x = none → C'.body.get x = none
  some : ∀ x X, C.body.get x = some X → ∃ D, C'.body.get x = some { X with instrs := D } ∧ Deco names H T ret (raw x) X D

/-- `O'` is the object `H` with jumps and tags. -/
structure Decorated (names : List String) (R : Option String → Option String) (T : TagDict) (raw : Option String → String → Prop)
    (H O' : Obj) : Prop where
  none : ∀ c, H.comp c = none → O'.comp c = none
  some : ∀ c C, H.comp c = some C → ∃ C', O'.comp c = some C' ∧ DecoComp names H T (R c) (raw c) C C'

/-- What is known about a block of the object while it is split; `R` is the variable for the place to return to. -/
structure PartOk (R : Option String → Option String) (names : List String) (X : Block) : Prop where
  phisFirst : X.instrs = phis X ++ code X
  phiShape : ∀ i ∈ phis X, i.ins.length = X.entries.length ∧ ∃ x, i.outs = [x]
  phiOuts : ((phis X).flatMap (·.outs)).Nodup
  phiEntries : phis X ≠ [] → ∀ p ∈ X.comesFrom, p ∈ X.entries
  onlyReturns : ∀ l i l', X.instrs = l ++ i :: l' → i.op = "functionReturn" → l' = [] ∧ X.jumpType = "FunctionReturn"
  ends : ∀ l i l', X.instrs = l ++ i :: l' → i.op ∈ haltOps → l' = [] ∧ X.jumpTo = none ∧ X.fallsTo = none
  tails : ∀ l i l', X.instrs = l ++ i :: l' → i.op ∈ names → (R (some i.op) = none ↔ l' = [] ∧ X.jumpTo = none ∧ X.fallsTo = none)
  ops : ∀ i ∈ X.instrs, i.op ∉ ["JUMP", "JUMPI", "PUSH [tag]", "invalid"]
  plain : ∀ i ∈ X.instrs, ∀ x ∈ i.ins ++ i.outs, Plain x
  plainCond : ∀ x, X.cond = some x → Plain x
  vars : ∀ i ∈ X.instrs, ∀ x ∈ i.outs, Cfg.isConst x = false

/-- What is known about the object while it is split. -/
structure PartsOk (names : List String) (R : Option String → Option String) (H : Obj) : Prop where
  fns : ∀ f, f ∈ names ↔ ∃ F, H.fns f = some F
  sane : ∀ c C, H.comp c = some C → Sane C.body
  noSelf : ∀ c C, H.comp c = some C → ∀ x X, C.body.get x = some X → x ∉ X.succs
  start : ∀ c C, H.comp c = some C → ∀ s S, C.body.start = some s → C.body.get s = some S → phis S = []
  blocks : ∀ c C, H.comp c = some C → ∀ x X, C.body.get x = some X → PartOk R names X
  args : ∀ f F, H.fns f = some F → ∀ x ∈ F.args, Plain x ∧ Cfg.isConst x = false
  blockNames : ∀ c d C D, H.comp c = some C → H.comp d = some D → ∀ x y X Y, C.body.get x = some X → D.body.get y = some Y →
    ∀ w, Halves w → y.toList = x.toList ++ w → w = [] ∧ c = d
  names : ∀ f ∈ names, f ∉ ["PhiFunction", "functionReturn", "JUMP", "JUMPI", "PUSH [tag]"] ++ haltOps
  ret : R none = none ∧ ∀ f, R (some f) = none ∨ R (some f) = some ("out_" ++ f)

end Grey.Lower
