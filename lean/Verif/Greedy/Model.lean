import Verif.SymExec.Model
import Verif.Permute.Model

/-!
# The greedy scheduler

`src/greedy/greedy_previous_param.py`, the scheduler `cfg_block_spec_ids` calls
(src/greedy/ids_from_spec.py:31): from the values on the input stack of a block to a sequence of
instructions that produces its output stack.

All of the code that emits instructions is modelled.  The questions that only guide its choices (`Heur`
below) and the plan it starts from (`Plan`: the order of the writes, how often every value is needed) are
parameters; the theorems hold for all answers to these questions and for all plans.

A stack is a list with its top first.  An exception (a failed `assert`, a missing key, an index outside of
a list) is `none`.  Loops and recursions without an evident bound have fuel; `none` is the answer as well
if it does not suffice.

Python collects the emitted instructions in lists that are appended to each other in the order of
execution; here they are part of the state.
-/

namespace Grey.Greedy
open SymExec

/-! ### Names of instructions (greedy_previous_param.py:16-63) -/

/-- `WRITE_OPERATIONS` (greedy_previous_param.py:17-19). -/
def writeOps : List String :=
  ["SSTORE", "TSTORE", "MSTORE8", "MSTORE", "MCOPY", "CALLDATACOPY", "CODECOPY", "RETURNDATACOPY", "CALL",
   "DELEGATECALL", "STATICCALL", "CALLCODE", "EXTCODECOPY", "ASSIGNIMMUTABLE", "LOG0", "LOG1", "LOG2", "LOG3", "LOG4",
   "CREATE", "CREATE2"]

/-- `MWRITE_OPERATIONS_OUTPUT` (greedy_previous_param.py:23). -/
def writeOpsOutput : List String := ["CALL", "DELEGATECALL", "STATICCALL", "CALLCODE", "CREATE", "CREATE2"]

/-- `MWRITE_OPERATIONS_NO_OUTPUT` (greedy_previous_param.py:24-25). -/
def writeOpsNoOutput : List String :=
  ["MSTORE8", "MSTORE", "MCOPY", "CALLDATACOPY", "CODECOPY", "RETURNDATACOPY", "EXTCODECOPY", "ASSIGNIMMUTABLE",
   "LOG0", "LOG1", "LOG2", "LOG3", "LOG4"]

/-- `delete_extension` (greedy_previous_param.py:30-34). -/
def deleteExtension (name : String) : String := String.ofList (name.toList.takeWhile (· ≠ '_'))

/-- `is_write` (greedy_previous_param.py:37-39). -/
def isWrite (name : String) : Bool := writeOps.contains (deleteExtension name)

/-- `is_mwrite_output` (greedy_previous_param.py:61-63). -/
def isWriteOutput (name : String) : Bool := writeOpsOutput.contains (deleteExtension name)

/-- `is_mwrite_no_output` (greedy_previous_param.py:56-58). -/
def isWriteNoOutput (name : String) : Bool := writeOpsNoOutput.contains (deleteExtension name)

/-! ### The state -/

/-- What the scheduler emits: `'POP'`, `'SWAP' + str(k)`, `'DUP' + str(k)`, `'VGET(' + v + ')'`,
`'VSET(' + v + ')'`, or the instruction of the specification with its `disasm` and its `id`. -/
inductive Item
  | pop
  | swap (k : Nat)
  | dup (k : Nat)
  | vget (v : String)
  | vset (v : String)
  | op (u : UInstr)
  deriving Repr, DecidableEq

/-- What is fixed for a run: the instructions, the input stack and the output stack (greedy_previous_param.py:526-528)
and `reach` (greedy_previous_param.py:1847). -/
structure Prog where
  tab : List UInstr
  src : List String
  fin : List String
  reach : Nat

/-- The state: the stack, how often values are still needed (`cneeded_in_stack_map`, a dictionary), the positions of the
final stack that are done (`solved`), how many values on top of the stack are arguments of the instruction that is being
computed (`_dup_stack_ini`), `_dependences_to_do` and `_dependences_done`, the ids of the instructions whose list `inpt_sk` is
reversed at the moment (lines 1133 and 1137 reverse it in place), and the instructions so far. -/
structure St where
  stack : List String
  needed : List (String × Int)
  solved : List Int
  dup : Int
  todo : List String
  done : List String
  flips : List String
  ids : List Item
  deriving Repr

/-- Questions without effect that guide the choices. -/
structure Heur where
  /-- the opcode of an instruction: its `disasm`, with the tag appended for some pushes (greedy_previous_param.py:783) -/
  text : UInstr → String
  /-- `op not in self._dup_pushes or size <= 1` (greedy_previous_param.py:1729-1730) -/
  small : String → Bool
  /-- `'value' in self._var_instr_map[o]` (greedy_previous_param.py:777) -/
  hasValue : String → Bool
  /-- `'value' in … and isinstance(…['value'], int)` (greedy_previous_param.py:901-902) -/
  intValue : String → Bool
  /-- `needs_in_stack_too_far` (greedy_previous_param.py:1067-1075) -/
  tooFar : St → String → Nat
  /-- `stack_too_long` (greedy_previous_param.py:1044-1065) -/
  tooLong : St → List String → Bool
  /-- `needed_one(n, o, …)` (greedy_previous_param.py:294-296) -/
  neededOne : St → String → String → Int
  /-- `computed` (greedy_previous_param.py:332-347) -/
  computed : String → String → Bool
  /-- `_func_dep_map`, the empty list for a missing key (greedy_previous_param.py:575-583) -/
  funcDeps : String → List String

/-- `d[k]` -/
def look (d : List (String × Int)) (k : String) : Option Int := d.lookup k

/-- `d.pop(k, None)` -/
def drop (d : List (String × Int)) (k : String) : List (String × Int) := d.filter fun p => p.1 ≠ k

/-- `d[k] = v` -/
def put (d : List (String × Int)) (k : String) (v : Int) : List (String × Int) :=
  if (look d k).isSome then d.map fun p => if p.1 = k then (k, v) else p else d ++ [(k, v)]

/-- `_var_instr_map[o]` (greedy_previous_param.py:534-537): of several instructions with the same output, the last one. -/
def varInstr (P : Prog) (o : String) : Option UInstr := P.tab.reverse.find? fun u => u.outpt = [o]

/-- `_opid_instr_map[i]` (greedy_previous_param.py:538-540). -/
def opInstr (P : Prog) (i : String) : Option UInstr := P.tab.reverse.find? fun u => u.id = i

/-- `inpt_sk` of an instruction, as it is at the moment. -/
def inputs (flips : List String) (u : UInstr) : List String := if u.id ∈ flips then u.inpt.reverse else u.inpt

/-- The distance between the ends of both stacks: the position of the final stack that position `i` of the stack is at is
`i + off`. -/
def off (P : Prog) (s : St) : Int := P.fin.length - s.stack.length

/-- `small_zeroary` (greedy_previous_param.py:1729-1730). -/
def smallZeroary (P : Prog) (h : Heur) (o : String) : Bool :=
  match varInstr P o with
  | none => false
  | some u => u.inpt.isEmpty && h.small o

/-- `if o in self._dependences_to_do: …remove(o); …add(o)` (greedy_previous_param.py:823-825 and alike). -/
def settle (o : String) (s : St) : St :=
  if o ∈ s.todo then { s with todo := s.todo.filter (· ≠ o), done := o :: s.done } else s

/-! ### Cleaning (greedy_previous_param.py:1077-1099) -/

/-- The inner loop of `clean_stack` (greedy_previous_param.py:1083-1087) from position `i`. -/
def cleanScan (P : Prog) (s : St) : Nat → Nat → Nat
  | 0, i => i
  | n + 1, i =>
    if i < s.stack.length ∧ i ≤ P.reach ∧ off P s + i ∉ s.solved then
      if ∃ v ∈ s.stack[i]?, look s.needed v = some 0 ∧ P.fin.count v < s.stack.count v then i
      else cleanScan P s n (i + 1)
    else i

/-- The outer loop of `clean_stack` (greedy_previous_param.py:1082-1098). -/
def cleanLoop (P : Prog) : Nat → Nat → St → St
  | 0, _, s => s
  | n + 1, i, s =>
    if i < s.stack.length ∧ (P.reach : Int) - 6 ≤ s.stack.length ∧ i ≤ P.reach then
      let i := cleanScan P s s.stack.length i
      if 0 < i ∧ i < s.stack.length ∧ i ≤ P.reach ∧ off P s + i ∉ s.solved then
        cleanLoop P n i { s with
          stack := (Permute.swapTop s.stack i).tail
          needed := drop s.needed (s.stack.getD i "")
          ids := s.ids ++ [.swap i, .pop] }
      else s
    else s

/-- `clean_stack` (greedy_previous_param.py:1077-1099). Every round of the outer loop removes a value or is the last one. -/
def cleanStack (P : Prog) (h : Heur) (o : String) (s : St) : St :=
  if (h.tooFar s o : Int) ≤ P.reach - 2 then s else cleanLoop P (s.stack.length + 1) 0 s

/-! ### Computing a value (greedy_previous_param.py:760-996) -/

/-- `must_reverse` (greedy_previous_param.py:760-771). -/
def mustReverse (P : Prog) (h : Heur) (o : String) (inpts : List String) (s : St) : Bool :=
  match varInstr P o with
  | none => true
  | some u =>
    if !u.commutative then true
    else
      let a := inpts.getD 0 ""
      let b := inpts.getD 1 ""
      if P.reach ≤ h.tooFar s a then false
      else if smallZeroary P h a then true
      else if smallZeroary P h b then false
      else true

/-- A small instruction without arguments is executed again (greedy_previous_param.py:777-831); the branch for integers
(lines 813-819) does not apply to the names of variables. -/
def pushSmall (h : Heur) (u : UInstr) (o : String) (s : St) : Option St :=
  let t : St := { s with stack := o :: s.stack, dup := s.dup + 1, ids := s.ids ++ [Item.op u] }
  if infixOf "PUSH".toList u.disasm.toList && h.hasValue o then some t
  else
    let t := settle o t
    match look t.needed o with
    | none => some t
    | some n => if 1 ≤ n then some { t with needed := put t.needed o (n - 1) } else none

/-- `DUP` (greedy_previous_param.py:881-893). The loop of lines 885-889 asks for the keys of the dictionary only, so its rounds are
independent of each other. -/
def dupTop (h : Heur) (o : String) (s : St) : Option St :=
  let t : St := { s with stack := o :: s.stack, dup := s.dup + 1, ids := s.ids ++ [Item.dup (s.stack.idxOf o + 1)] }
  match look s.needed o with
  | some n => if 1 ≤ n then some { t with needed := put s.needed o (n - 1) } else none
  | none =>
    if s.needed.all (fun p => decide (0 < p.2 → h.neededOne s p.1 o ≤ p.2)) then
      some { t with needed := s.needed.map fun p => if 0 < p.2 then (p.1, p.2 - h.neededOne s p.1 o) else p }
    else none

/-- `for i in range(1, pos + 1): if tstack[0] != tstack[i]: …` (greedy_previous_param.py:869-873). -/
def rotate (stack : List String) : Nat → List Item × List String
  | 0 => ([], stack)
  | n + 1 =>
    let r := rotate stack n
    if r.2[0]? ≠ r.2[n + 1]? then (r.1 ++ [.swap (n + 1)], Permute.swapTop r.2 (n + 1)) else r

/-- A value that is on the stack within reach (greedy_previous_param.py:842-893). -/
def fromStack (P : Prog) (h : Heur) (maxSwap : Nat) (o : String) (s : St) : Option St :=
  if look s.needed o = some 1 ∧ (o ∉ P.src ∨ P.fin.count o < s.stack.count o) then
    match (if (s.stack.idxOf o : Int) < s.dup then
        ((s.stack.drop s.dup.toNat).findIdx? (· == o)).map (· + s.dup.toNat) else some (s.stack.idxOf o)) with
    | none => none
    | some pos =>
      if off P s ∉ s.solved ∧ off P s + pos ∉ s.solved then
        if s.dup = 0 then
          if pos = 0 then some { s with dup := s.dup + 1 }
          else some { s with
            stack := Permute.swapTop s.stack pos
            needed := drop s.needed o
            dup := s.dup + 1
            ids := s.ids ++ [.swap pos] }
        else if s.solved.any (fun i => decide (0 ≤ i ∧ i ≤ off P s + pos)) then dupTop h o s
        else if P.reach < maxSwap then none
        else if pos ≤ maxSwap then
          if s.solved.any (fun i => decide (off P s ≤ i ∧ i < off P s + pos)) then none
          else some { s with
            stack := (rotate s.stack pos).2
            needed := drop s.needed o
            dup := s.dup + 1
            ids := s.ids ++ (rotate s.stack pos).1 }
        else dupTop h o s
      else dupTop h o s
  else dupTop h o s

/-- `compute_with_stack` (greedy_previous_param.py:989-996). -/
def computeAll (rec : String → St → Option St) : List String → St → Option St
  | [], s => some s
  | o :: os, s => (rec o s).bind (computeAll rec os)

/-- The instruction of a value that has to be computed (greedy_previous_param.py:896-931): a write is known by its id, everything else by
its output. An integer has no position 0 (lines 904 and 914 raise `TypeError`). -/
def instrOf (P : Prog) (h : Heur) (o : String) : Option UInstr :=
  if isWrite o then opInstr P o
  else
    match varInstr P o with
    | none => none
    | some u => if infixOf "PUSH".toList u.disasm.toList && h.intValue o then none else some u

/-- `o in self._var_instr_map and self._var_instr_map[o]['commutative']`. -/
def isComm (P : Prog) (o : String) : Bool :=
  match varInstr P o with
  | none => false
  | some u => u.commutative

/-- Executing the instruction (greedy_previous_param.py:974-978). -/
def execute (u : UInstr) (n : Nat) (s : St) : St :=
  { s with
    stack := u.outpt ++ s.stack.drop n
    dup := s.dup - n + u.outpt.length
    ids := s.ids ++ [.op u] }

/-- A value that has to be computed (greedy_previous_param.py:894-987). -/
def build (P : Prog) (h : Heur) (rec : String → St → Option St) (o : String) (s : St) : Option St :=
  if o ∈ P.src then none
  else
    match instrOf P h o with
    | none => none
    | some u =>
      let inpts := inputs s.flips u
      let op1 := s.stack.getD 0 ""
      let op2 := s.stack.getD 1 ""
      if inpts.length = 2 ∧ 2 ≤ s.stack.length ∧ s.dup = 0 ∧ off P s ∉ s.solved ∧ off P s + 1 ∉ s.solved ∧
          (inpts = [op1, op2] ∨ (isComm P o = true ∧ inpts = [op2, op1])) ∧
          look s.needed op1 = some 1 ∧ look s.needed op2 = some 1 then
        let nd := if P.fin.count op1 < s.stack.count op1 then drop s.needed op1 else s.needed
        let nd := if P.fin.count op2 < s.stack.count op2 then drop nd op2 else nd
        some { s with
          stack := u.outpt ++ s.stack.drop inpts.length
          needed := nd
          dup := s.dup + 1
          ids := s.ids ++ [.op u] }
      else if inpts.length = 2 ∧ 1 ≤ s.stack.length ∧ s.dup = 0 ∧ off P s ∉ s.solved ∧
          isComm P o = true ∧ inpts.getD 0 "" = op1 ∧ look s.needed op1 = some 1 then
        let nd := if P.fin.count op1 < s.stack.count op1 then drop s.needed op1 else s.needed
        (rec (inpts.getD 1 "") { s with needed := nd, dup := s.dup + 1 }).map (execute u inpts.length)
      else
        let args := if mustReverse P h o inpts s then inpts.reverse else inpts
        match computeAll rec args s with
        | none => none
        | some t =>
          if args.reverse.isPrefixOf t.stack then
            let t := execute u args.length t
            if (look t.needed o).isSome ∧ o ∉ t.stack.tail then none else some t
          else none

/-- `compute_one_with_stack` (greedy_previous_param.py:773-987), with `rec` for its recursive calls. The result of `clean_stack` is not
used (line 834), but it changes the dictionary. -/
def oneStep (P : Prog) (h : Heur) (maxSwap : Nat) (rec : String → St → Option St) (o : String) (s : St) : Option St :=
  match varInstr P o with
  | some u => if smallZeroary P h o && !s.done.contains o then pushSmall h u o s else rest
  | none => rest
where
  rest : Option St :=
    let s :=
      if (look s.needed o).isSome ∧ o ∉ s.stack.take P.reach ∧ s.dup = 0 then
        { s with needed := (cleanStack P h o s).needed } else s
    match look s.needed o with
    | some n =>
      if o ∉ s.stack.take P.reach then
        if 1 ≤ n then
          some { s with
            stack := o :: s.stack
            needed := put s.needed o (n - 1)
            dup := s.dup + 1
            ids := s.ids ++ [.vget o] }
        else none
      else fromStack P h maxSwap o s
    | none => if o ∈ s.stack.take P.reach then fromStack P h maxSwap o s else build P h rec o s

/-- `compute_one_with_stack` with the given depth of recursion. -/
def computeOne (P : Prog) (h : Heur) (maxSwap : Nat) : Nat → String → St → Option St
  | 0 => fun _ _ => none
  | n + 1 => oneStep P h maxSwap (computeOne P h maxSwap n)

/-! ### Computing the values another one depends on (greedy_previous_param.py:1101-1208) -/

/-- `pre_compute_list` (greedy_previous_param.py:1101-1122): the dictionary of needed values and the list `lord`. -/
def preList (P : Prog) (h : Heur) (s : St) :
    Nat → String → List (String × Int) × List String → Option (List (String × Int) × List String)
  | 0, _, _ => none
  | n + 1, o, a =>
    if o ∈ s.stack then some a
    else if o ∈ P.src then none
    else if o ∈ a.2 then some a
    else
      match (if isWrite o then opInstr P o else varInstr P o) with
      | none => none
      | some u =>
        (((inputs s.flips u).foldlM (fun a i => preList P h s n i a) a).bind fun a =>
          (h.funcDeps o).foldlM (fun a d =>
            if d ∈ s.done then some a
            else preList P h s n d (if d ∉ a.2 ∧ look a.1 d = none then (put a.1 d 1, a.2) else a)) a).map fun a =>
              if o ∉ a.2 ∧ ∃ c ∈ look a.1 o, 0 < c then (a.1, a.2 ++ [o]) else a

/-- One round of the loop of `compute_pre_list` (greedy_previous_param.py:1127-1152). The list `inpt_sk` of the instruction is reversed in
place, at the end once more than at the beginning. Simplification: while the arguments are computed the model has it as it was before;
no argument of an instruction depends on this instruction. -/
def preOne (P : Prog) (h : Heur) (rec : String → St → Option St) (o : String) (s : St) : Option St :=
  let s := cleanStack P h o s
  match varInstr P o with
  | none => none
  | some u =>
    let inpts := inputs s.flips u
    let rev := mustReverse P h o inpts s
    let args := if rev then inpts.reverse else inpts
    match computeAll rec args { s with dup := 0 } with
    | none => none
    | some t =>
      if args.reverse.isPrefixOf t.stack then
        some (settle o { t with
          stack := u.outpt ++ t.stack.drop args.length
          flips := if rev then t.flips else if u.id ∈ t.flips then t.flips.filter (· ≠ u.id) else u.id :: t.flips
          ids := t.ids ++ [.op u] })
      else none

/-- `compute_pre_list` (greedy_previous_param.py:1124-1153). -/
def preAll (P : Prog) (h : Heur) (rec : String → St → Option St) : List String → St → Option St
  | [], s => some s
  | o :: os, s => (preOne P h rec o s).bind (preAll P h rec os)

/-- "Finally computing" (greedy_previous_param.py:1170-1179 and 1196-1205). -/
def finalOne (P : Prog) (h : Heur) (rec : String → St → Option St) (o : String) (s : St) : Option St :=
  (rec o { cleanStack P h o s with dup := 0 }).map (settle o)

/-- `compute_memory_op` (greedy_previous_param.py:1155-1183). -/
def computeMem (P : Prog) (h : Heur) (maxSwap n : Nat) (o : String) (s : St) : Option St :=
  match preList P h s n o (s.needed, []) with
  | none => none
  | some (nd, lord) =>
    match preAll P h (computeOne P h maxSwap n) lord { s with needed := nd } with
    | none => none
    | some t =>
      if !isWrite o then if lord.getLast? = some o then some t else none
      else finalOne P h (computeOne P h maxSwap n) o t

/-- `compute_regular_op` (greedy_previous_param.py:1185-1208). -/
def computeReg (P : Prog) (h : Heur) (maxSwap n : Nat) (o : String) (s : St) : Option St :=
  match preList P h s n o (s.needed, []) with
  | none => none
  | some (nd, lord) =>
    match preAll P h (computeOne P h maxSwap n) lord { s with needed := nd } with
    | none => none
    | some t => if o ∈ lord then some t else finalOne P h (computeOne P h maxSwap n) o t

/-! ### The main loop (greedy_previous_param.py:998-1383) -/

/-- The answers of `choose_element`: `(0, -1-k)`, `(1, pos)` and `(2, 0)`. -/
inductive Choice
  | place (k : Nat)
  | make (pos : Nat)
  | finish
  deriving Repr, DecidableEq

/-- A value of the final stack that is not there often enough (greedy_previous_param.py:1021-1022, 1026-1027). -/
def missing (P : Prog) (s : St) (pos : Nat) : Bool :=
  decide ((pos : Int) ∉ s.solved ∧ ∃ v ∈ P.fin[pos]?, s.stack.count v < P.fin.count v)

/-- `choose_element` (greedy_previous_param.py:998-1042). -/
def chooseElement (P : Prog) (h : Heur) (s : St) : Option Choice :=
  let first :=
    if 0 < s.stack.length ∧ off P s ∉ s.solved then
      (List.range (min P.fin.length s.stack.length)).find? fun (k : Nat) =>
        decide ((P.fin.length - 1 - k : Int) ∉ s.solved ∧ P.fin[P.fin.length - 1 - k]? = s.stack[0]? ∧
          s.stack.length - 1 - k ≤ P.reach)
    else none
  match first with
  | some k => some (.place k)
  | none =>
    match (List.range P.fin.length).reverse.find? (missing P s) with
    | some pos =>
      let ns := h.tooFar s (P.fin.getD pos "")
      match (List.range pos).reverse.find? (fun (p : Nat) => decide (0 ≤ (s.stack.length : Int) + p - P.fin.length) && missing P s p &&
          decide (ns ≤ h.tooFar s (P.fin.getD p "") ∧ (P.reach : Int) - 1 ≤ h.tooFar s (P.fin.getD p "") ∧
            h.tooFar s (P.fin.getD p "") ≤ P.reach)) with
      | some p => some (.make p)
      | none => some (.make pos)
    | none => if P.fin.all (fun e => decide (P.fin.count e ≤ s.stack.count e)) then some .finish else none

/-- `while len(cstack) > 0 and (…): …pop(0)` (greedy_previous_param.py:1237-1244 and 1359-1367), at most `n` times. -/
def popLoop (P : Prog) : Nat → St → St
  | 0, s => s
  | n + 1, s =>
    match s.stack with
    | [] => s
    | v :: st =>
      if (look s.needed v = none ∨ look s.needed v = some 0) ∧ P.fin.count v < s.stack.count v ∧ off P s ∉ s.solved then
        popLoop P n { s with stack := st, ids := s.ids ++ [.pop] }
      else s

/-- The loop of lines 1270-1278 from the end of the list, `l` being reversed: the first instruction `o` depends on.  The answer is its
position from the end; `none` is an exception. -/
def lastUse (P : Prog) (h : Heur) (o : String) : List String → Nat → Option (Option Nat)
  | [], _ => some none
  | i :: l, k =>
    if isWriteNoOutput i then lastUse P h o l (k + 1)
    else
      match (if isWriteOutput i then (opInstr P i).bind (fun u => if u.outpt.length = 1 then u.outpt[0]? else none) else some i) with
      | none => none
      | some v => if h.computed v o then some (some k) else lastUse P h o l (k + 1)

/-- The state of the main loop: also the writes that are left (`instr`) and `final_no_store`. -/
structure Loop where
  st : St
  instr : List String
  rest : List String

/-- Computing a list of writes (greedy_previous_param.py:1301-1309). -/
def computeMems (P : Prog) (h : Heur) (maxSwap n : Nat) : List String → St → Option St
  | [], s => some s
  | o :: os, s => (computeMem P h maxSwap n o { s with dup := 0 }).bind (computeMems P h maxSwap n os)

/-- The same with values being popped (greedy_previous_param.py:1350-1369). -/
def computeMemsPop (P : Prog) (h : Heur) (maxSwap n : Nat) : List String → St → Option St
  | [], s => some s
  | o :: os, s =>
    (computeMem P h maxSwap n o { s with dup := 0 }).bind fun t => computeMemsPop P h maxSwap n os (popLoop P t.stack.length t)

/-- Case 0 (greedy_previous_param.py:1251-1266). -/
def placeCase (P : Prog) (k : Nat) (s : St) : Option St :=
  let i := s.stack.length - 1 - k
  if s.stack[0]? = s.stack[i]? then
    if (P.fin.length - 1 - k : Int) ∈ s.solved then none
    else some { s with solved := s.solved ++ [(P.fin.length - 1 - k : Int)] }
  else if 0 < i ∧ i ≤ P.reach then
    some { s with stack := Permute.swapTop s.stack i, ids := s.ids ++ [.swap i] }
  else none

/-- The last part of case 1: placing the value (greedy_previous_param.py:1328-1344). -/
def placeNew (P : Prog) (o : String) (pos : Nat) (s : St) : Option St :=
  let p : Int := s.stack.length + pos - P.fin.length
  let s? :=
    if (p < 0 ∨ P.reach < p) ∧ (look s.needed o = none ∨ look s.needed o = some 0) then
      (s.stack[0]?).map fun v => { s with needed := put s.needed v 1 }
    else some s
  s?.map fun s =>
    if 0 < p ∧ p ≤ P.reach then
      { s with stack := Permute.swapTop s.stack p.toNat, solved := s.solved ++ [(pos : Int)], ids := s.ids ++ [.swap p.toNat] }
    else s

/-- Case 1 (greedy_previous_param.py:1267-1344). -/
def makeCase (P : Prog) (h : Heur) (maxSwap n : Nat) (pos : Nat) (c : Loop) : Option Loop :=
  match P.fin[pos]? with
  | none => none
  | some o =>
    match lastUse P h o c.instr.reverse 0 with
    | none => none
    | some k =>
      let j := c.rest.any fun v => h.computed v o
      -- the writes before, the writes after, `final_no_store`, `before_store`
      let (pre, post, rest, before) :=
        if j then (c.instr, [], [], false)
        else
          match k with
          | none => ([], c.instr, c.rest, false)
          | some k =>
            let i := c.instr.length - 1 - k
            if c.instr[i]? = some o then
              let post := c.instr.drop (i + 1)
              (c.instr.take i, post, if post.isEmpty then [] else c.rest, (c.instr.drop i).any isWrite)
            else
              let post := c.instr.drop (i + 1)
              (c.instr.take (i + 1), post, if post.isEmpty then [] else c.rest, false)
      match computeMems P h maxSwap n pre c.st with
      | none => none
      | some s =>
        match (if before then computeMem P h maxSwap n o { s with dup := 0 } else computeReg P h maxSwap n o { s with dup := 0 }) with
        | none => none
        | some s => (placeNew P o pos s).map fun s => ⟨s, post, rest⟩

/-- One round of the loop of `compute` (greedy_previous_param.py:1231-1373). The answer tells as well whether it was the last one. -/
def mainRound (P : Prog) (h : Heur) (maxSwap n : Nat) (c : Loop) : Option (Bool × Loop) :=
  let s := popLoop P c.st.stack.length c.st
  let r : Option (Bool × Loop) :=
    if c.instr.head?.any isWrite ∨ h.tooLong s c.instr = true then
      match c.instr with
      | [] => none
      | o :: os =>
        match computeMem P h maxSwap n o { s with dup := 0 } with
        | none => none
        | some t =>
          if isWrite o then
            match opInstr P o with
            | none => none
            | some u => if u.outpt.length ≤ 1 then some (false, ⟨t, os, c.rest⟩) else none
          else some (false, ⟨t, os, c.rest⟩)
    else
      match chooseElement P h s with
      | none => none
      | some (.place k) => (placeCase P k s).map fun t => (false, ⟨t, c.instr, c.rest⟩)
      | some (.make pos) => (makeCase P h maxSwap n pos ⟨s, c.instr, c.rest⟩).map fun c => (false, c)
      | some .finish =>
        if c.instr.isEmpty ∨ c.instr.getLast?.any isWrite then
          (computeMemsPop P h maxSwap n c.instr s).map fun t => (c.instr.isEmpty, ⟨t, [], c.rest⟩)
        else none
  r.map fun x => (x.1, { x.2 with st := { x.2.st with solved := Permute.addSolved P.fin x.2.st.stack x.2.st.solved } })

/-- The loop of `compute` (greedy_previous_param.py:1231-1373). -/
def mainLoop (P : Prog) (h : Heur) (maxSwap n : Nat) : Nat → Loop → Option Loop
  | 0, _ => none
  | f + 1, c =>
    match mainRound P h maxSwap n c with
    | none => none
    | some (true, c) => some c
    | some (false, c) => mainLoop P h maxSwap n f c

/-- The instructions of the last phase. -/
def ofIns : Permute.Ins → Item
  | .pop => .pop
  | .swap k => .swap k.toNat
  | .vset v => .vset v
  | .vget v => .vget v

/-- `compute` (greedy_previous_param.py:1210-1383): all instructions, and the reversed lists of arguments. -/
def compute (P : Prog) (h : Heur) (maxSwap n : Nat) (c : Loop) : Option (List Item × List String) :=
  match mainLoop P h maxSwap n n c with
  | none => none
  | some c =>
    match Permute.permute P.fin P.reach n c.st.stack c.st.solved with
    | some (some l) => some (c.st.ids ++ l.map ofIns, c.st.flips)
    | _ => none

/-! ### Before the main loop (greedy_previous_param.py:713-758) -/

/-- Where the top of the stack belongs (greedy_previous_param.py:726-732), as a position of the stack. -/
def topPlace (P : Prog) (s : St) : Option Int :=
  match s.stack with
  | [] => none
  | v :: _ =>
    let f := if P.fin.length < s.stack.length then P.fin else P.fin.drop (P.fin.length - s.stack.length)
    if v ∈ f then some ((s.stack.length : Int) + (f.idxOf v - f.length)) else none

/-- The first loop of `precompute` (greedy_previous_param.py:716-745). -/
def preLoop (P : Prog) : Nat → St → Option St
  | 0, _ => none
  | n + 1, s =>
    match s.stack with
    | [] => some s
    | v :: st =>
      if look s.needed v = none ∨ look s.needed v = some 0 then
        preLoop P n { s with stack := st, needed := drop s.needed v, ids := s.ids ++ [.pop] }
      else
        match topPlace P s with
        | none => some s
        | some p =>
          if p < 0 then none
          else if P.reach < p ∨ p = 0 ∨ s.stack[p.toNat]? = some v then some s
          else preLoop P n { s with stack := Permute.swapTop s.stack p.toNat, ids := s.ids ++ [.swap p.toNat] }

/-- The second loop of `precompute` (greedy_previous_param.py:746-757), with both stacks reversed; `j` is the position in the final stack. -/
def markSolved : List String → List String → Int → List (String × Int) × List Int → Option (List (String × Int) × List Int)
  | v :: st, w :: fin, j, a =>
    if v = w then
      match look a.1 v with
      | none => markSolved st fin (j - 1) (a.1, a.2 ++ [j])
      | some c =>
        if 0 < c then markSolved st fin (j - 1) (if c = 1 then drop a.1 v else put a.1 v (c - 1), a.2 ++ [j])
        else none
    else markSolved st fin (j - 1) a
  | _, _, _, a => some a

/-- `precompute` (greedy_previous_param.py:713-758). -/
def precompute (P : Prog) (n : Nat) (s : St) : Option St :=
  match preLoop P n s with
  | none => none
  | some s =>
    (markSolved s.stack.reverse P.fin.reverse (P.fin.length - 1) (s.needed, [])).map fun a => { s with needed := a.1, solved := a.2 }

/-! ### All of it (greedy_previous_param.py:1839-1937) -/

/-- What `target` (greedy_previous_param.py:1604-1724) and the constructor (lines 523-585) give: the writes in their order, the
values that have to be computed after them, how often values are needed, and the values others depend on. -/
structure Plan where
  instr : List String
  rest : List String
  needed : List (String × Int)
  todo : List String

/-- One try (greedy_previous_param.py:1855-1868 and 1881-1894). -/
def try1 (P : Prog) (h : Heur) (maxSwap n : Nat) (p : Plan) (flips : List String) : Option (List Item × List String) :=
  match precompute P n ⟨P.src, p.needed, [], 0, p.todo, [], flips, []⟩ with
  | none => none
  | some s => compute P h maxSwap n ⟨s, p.instr, p.rest⟩

/-- The opcode and the id of an instruction. -/
def Item.render (h : Heur) : Item → String × String
  | .pop => ("POP", "POP")
  | .swap k => ("SWAP" ++ toString k, "SWAP" ++ toString k)
  | .dup k => ("DUP" ++ toString k, "DUP" ++ toString k)
  | .vget v => ("VGET(" ++ v ++ ")", "VGET(" ++ v ++ ")")
  | .vset v => ("VSET(" ++ v ++ ")", "VSET(" ++ v ++ ")")
  | .op u => (h.text u, u.id)

/-- `check_dependencies` (greedy_previous_param.py:1593-1602): the last positions are in order, if there are any. -/
def checkDependencies (deps : List (String × String)) (ids : List String) : Bool :=
  deps.all fun d =>
    match (positions d.1 0 ids).getLast?, (positions d.2 0 ids).getLast? with
    | some i, some j => decide (i < j)
    | _, _ => true

/-- `check_dup_swap` (greedy_previous_param.py:1827-1837). -/
def checkDupSwap (reach : Nat) (ids : List String) : Bool :=
  ids.all fun o =>
    if infixOf "SWAP".toList o.toList then (parseNat (o.toList.drop 4)).any fun n => decide (1 ≤ n ∧ n ≤ reach)
    else if infixOf "DUP".toList o.toList then (parseNat (o.toList.drop 3)).any fun n => decide (1 ≤ n ∧ n ≤ reach)
    else true

/-- `accept` (greedy_previous_param.py:1746-1758). -/
def accept (P : Prog) (h : Heur) (ids : List String) : Bool :=
  ids.all fun i =>
    match opInstr P i with
    | none => true
    | some u =>
      let v := if u.outpt.length = 1 then u.outpt.getD 0 "" else ""
      if u.inpt.isEmpty && !smallZeroary P h v then decide (ids.count i ≤ 1) else true

/-- `greedy_from_json` (greedy_previous_param.py:1839-1937), the opcodes and ids it returns; `none`: an exception. If the stack may have
other values below (`junk`, `extend_tgt`), there is a second try that leaves the input stack below the output stack; the constructor is
called twice, so the questions may have other answers, but the instructions are the same objects. The assertion of line 1876 holds
by construction. -/
def greedy (tab : List UInstr) (src tgt : List String) (deps : List (String × String)) (reach n : Nat) (junk : Bool)
    (h h' : Heur) (p p' : Plan) : Option (List (String × String)) :=
  let P : Prog := ⟨tab, src, tgt, reach⟩
  let P' : Prog := ⟨tab, src, tgt ++ src, reach⟩
  match try1 P h (min 2 reach) n p [] with
  | none => none
  | some (l, flips) =>
    let r := l.map (Item.render h)
    if checkDependencies deps (r.map Prod.snd) && checkDupSwap reach (r.map Prod.snd) then
      let r := Permute.removeUseless r
      if junk then
        match try1 P' h' 3 n p' flips with
        | none => none
        | some (l', _) =>
          let r' := l'.map (Item.render h')
          if checkDupSwap reach (r'.map Prod.snd) then
            let r' := Permute.removeUseless r'
            if accept P h (r.map Prod.snd) && accept P' h' (r'.map Prod.snd) && decide (r'.length < r.length) then some r' else some r
          else none
      else some r
    else none

end Grey.Greedy
