/-
Model of the liveness analysis:
  src/liveness/liveness_state.py     (_ssa_liveness_definitions, _block_id_to_phi_uses, LivenessBlockInfoSSA)
  src/liveness/liveness_analysis.py  (LivenessAnalysisInfoSSA)
  src/analysis/fixpoint_analysis.py  (BackwardsAnalysis)
Python sets of variables are lists, used only through membership. Block ids and variables are strings.
-/
namespace Grey.Liveness

/-- The fields of `CFGInstruction` that the analysis reads (src/parser/cfg_instruction.py:120-127). -/
structure Instr where
  op : String
  ins : List String
  outs : List String
  deriving DecidableEq, Repr

/-- The fields of `CFGBlock` that the analysis reads (src/parser/cfg_block.py:70-110). -/
structure Block where
  instrs : List Instr
  succs : List String
  comesFrom : List String
  entries : List String
  deriving DecidableEq, Repr

/-- `element.startswith("0x")`. -/
def isLit (s : String) : Bool := "0x".toList.isPrefixOf s.toList

def Instr.isPhi (i : Instr) : Bool := i.op == "PhiFunction"

/-- The sets built by `_ssa_liveness_definitions` that are used afterwards. -/
structure Sets where
  defs : List String
  upward : List String
  phiDefs : List String
  deriving DecidableEq, Repr

/-- One iteration of the loop of `_ssa_liveness_definitions` (src/liveness/liveness_state.py:72-87). -/
def setsStep (s : Sets) (i : Instr) : Sets :=
  if i.isPhi then { s with phiDefs := s.phiDefs ++ i.outs }
  else
    { s with
      upward := s.upward ++ i.ins.filter fun x => !isLit x && decide (x ∉ s.defs ++ s.phiDefs)
      defs := s.defs ++ i.outs }

/-- `_ssa_liveness_definitions` (src/liveness/liveness_state.py:63-95). -/
def ssaSets (l : List Instr) : Sets := l.foldl setsStep ⟨[], [], []⟩

/-- The `while` loop of `_block_id_to_phi_uses` (src/liveness/liveness_state.py:128-133) over the leading phi
functions. `none`: `IndexError`. -/
def phiUsesLoop (k : Nat) : List Instr → Option (List String × List String)
  | [] => some ([], [])
  | i :: l =>
    if i.isPhi then
      (i.ins[k]?).bind fun arg => (phiUsesLoop k l).map fun r =>
        (if isLit arg then r.1 else arg :: r.1, i.outs ++ r.2)
    else some ([], [])

/-- `_block_id_to_phi_uses` (src/liveness/liveness_state.py:117-135). `none`: `ValueError` of `index`. -/
def blockPhiUses (b : String) (succ : Block) : Option (List String × List String) :=
  (succ.entries.idxOf? b).bind fun k => phiUsesLoop k succ.instrs

/-- The loop over the successors in `LivenessBlockInfoSSA.__init__` (src/liveness/liveness_state.py:155-161). -/
def succPhis (cfg : String → Block) (b : String) : List String → Option (List String × List String)
  | [] => some ([], [])
  | s :: ss =>
    (if (cfg s).entries.length > 0 then blockPhiUses b (cfg s) else some ([], [])).bind fun r =>
      (succPhis cfg b ss).map fun r' => (r.1 ++ r'.1, r.2 ++ r'.2)

/-- `LivenessBlockInfoSSA` (src/liveness/liveness_state.py:138-161). -/
structure Info where
  comesFrom : List String
  upward : List String
  defs : List String
  phiDefs : List String
  phiUses : List String
  predPhiDefs : List String
  deriving DecidableEq, Repr

def blockInfo (cfg : String → Block) (b : String) : Option Info :=
  (succPhis cfg b (cfg b).succs).map fun r =>
    let s := ssaSets (cfg b).instrs
    ⟨(cfg b).comesFrom, s.upward, s.defs, s.phiDefs, r.1, r.2⟩

/-- `propagate_information` (src/liveness/liveness_analysis.py:34-44). -/
def transfer (i : Info) (out : List String) : List String :=
  i.upward ++ i.phiDefs ++ out.filter fun x => decide (x ∉ i.defs)

/-- `propagate_state` (src/liveness/liveness_analysis.py:46-49). -/
def propagate (i : Info) (out cur : List String) : List String :=
  out ++ i.phiUses ++ cur.filter fun x => decide (x ∉ i.predPhiDefs)

/-- `leq` (src/liveness/liveness_state.py:53-54). -/
def leq (a b : List String) : Bool := a.all fun x => decide (x ∈ b)

/-- The state of `BackwardsAnalysis`: per analysed block the `_out` and `_in` states (src/analysis/fixpoint_analysis.py:30-33),
and the list `pending`, with its end (the side of `pop` and `append`) first. -/
structure St where
  info : String → Option (List String × Option (List String))
  pending : List String

/-- `BackwardsAnalysis.__init__` (src/analysis/fixpoint_analysis.py:103-111); the constructor ignores the state it is given
(src/liveness/liveness_analysis.py:30-32). -/
def start (initial : List String) : St :=
  ⟨fun b => if b ∈ initial then some ([], none) else none, initial.reverse⟩

def setInfo (f : String → Option (List String × Option (List String))) (b : String)
    (x : List String × Option (List String)) : String → Option (List String × Option (List String)) :=
  fun c => if c = b then some x else f c

/-- One predecessor in `process_jumps` (src/analysis/fixpoint_analysis.py:139-153). -/
def jumpStep (V : String → Info) (cur : List String) (st : St) (p : String) : St :=
  match st.info p with
  | none => ⟨setInfo st.info p (propagate (V p) [] cur, none), p :: st.pending⟩
  | some (out, inn) =>
    if !leq cur out then ⟨setInfo st.info p (propagate (V p) out cur, inn), p :: st.pending⟩ else st

/-- One iteration of the loop of `analyze` (src/analysis/fixpoint_analysis.py:114-127) on the popped block. `none`: `KeyError`
(it does not happen: pending blocks have been created). -/
def iterate (V : String → Info) (b : String) (st : St) : Option St :=
  (st.info b).map fun x =>
    let inn := transfer (V b) x.1
    (V b).comesFrom.foldl (jumpStep V inn) ⟨setInfo st.info b (x.1, some inn), st.pending⟩

/-- `analyze` with a bound on the number of iterations; `none`: still running. -/
def analyze (V : String → Info) : Nat → St → Option St
  | 0, st => if st.pending = [] then some st else none
  | f + 1, st =>
    match st.pending with
    | [] => some st
    | b :: rest => (iterate V b ⟨st.info, rest⟩).bind (analyze V f)

/-- `liveness_analysis_from_vertices` on the information of `construct_analysis_info_from_cfgblocklist`
(src/liveness/liveness_analysis.py:68-109), from the blocks `initial` (the terminal blocks). `none`: still running after
`fuel` iterations, or an exception while extracting the information of one of the `blocks`. -/
def run (cfg : String → Block) (blocks initial : List String) (fuel : Nat) : Option St :=
  if blocks.all fun b => (blockInfo cfg b).isSome then
    analyze (fun b => (blockInfo cfg b).getD ⟨[], [], [], [], [], []⟩) fuel (start initial)
  else none

end Grey.Liveness
