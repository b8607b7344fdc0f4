/-
Model of the block validator:
  src/analysis/symbolic_execution.py   (execute_instr_id)
  src/analysis/greedy_validation.py    (check_deps, ensure_*_are_unique, check_execution_from_ids)
-/
namespace Grey.SymExec

/-- Stack variables are Python strings (src/global_params/types.py, `var_id_T`). -/
abbrev Var := String

/-- The fields of an entry of `user_instrs` that the validator reads
(src/parser/cfg_instruction.py:11-30 builds them). -/
structure UInstr where
  id : String
  inpt : List Var
  outpt : List Var
  commutative : Bool
  storage : Bool
  disasm : String
  deriving DecidableEq, Repr

/-- The fields of a specification ("SFS") used by `check_execution_from_ids`
(src/analysis/greedy_validation.py:64-67). -/
structure Spec where
  userInstrs : List UInstr
  src : List Var
  tgt : List Var
  deps : List (String × String)
  deriving DecidableEq, Repr

/-- What an instruction id stands for (src/analysis/symbolic_execution.py:20-48). -/
inductive Op where
  | pop
  | swap (n : Nat)
  | dup (n : Nat)
  | get (v : Var)
  | set (v : Var)
  | instr (id : String)
  deriving DecidableEq, Repr

/-- `pat in s` for Python strings, on character lists. -/
def infixOf (pat : List Char) : List Char → Bool
  | [] => pat.isPrefixOf []
  | c :: cs => pat.isPrefixOf (c :: cs) || infixOf pat cs

/-- `int(s)` restricted to plain decimal digits; everything else is `ValueError` (`none`).
Simplification: Python also accepts surrounding blanks, a sign and underscores between digits. -/
def parseNat (l : List Char) : Option Nat :=
  if l ≠ [] ∧ l.all Char.isDigit = true then
    some (l.foldl (fun n c => 10 * n + (c.toNat - 48)) 0)
  else none

/-- Everything before the last `)` (the greedy group of the regular expressions), if there is one. -/
def beforeLastParen : List Char → Option (List Char)
  | [] => none
  | c :: cs =>
    match beforeLastParen cs with
    | some r => some (c :: r)
    | none => if c = ')' then some [] else none

/-- `re.compile('NAME\((.*)\)').match(s)`, returning group 1
(src/analysis/symbolic_execution.py:8-9). Simplification: no newlines in ids. -/
def matchCall (name : List Char) (s : List Char) : Option (List Char) :=
  if (name ++ ['(']).isPrefixOf s then beforeLastParen (s.drop (name.length + 1)) else none

/-- The `if/elif` chain of `execute_instr_id` on the text of the id
(src/analysis/symbolic_execution.py:20-48). `none`: `int(...)` raises `ValueError`. -/
def classify (s : String) : Option Op :=
  let l := s.toList
  if s = "POP" then some .pop
  else if infixOf "SWAP".toList l then (parseNat (l.drop 4)).map .swap
  else if infixOf "DUP".toList l then (parseNat (l.drop 3)).map .dup
  else match matchCall "VGET".toList l with
    | some v => some (.get (String.ofList v))
    | none =>
      match matchCall "VSET".toList l with
      | some v => some (.set (String.ofList v))
      | none => some (.instr s)

/-- Consuming the arguments of a non commutative instruction: `cstack[0] == input_var`, then `pop(0)`
(src/analysis/symbolic_execution.py:60-62). `none`: `AssertionError` or `IndexError`. -/
def consume : List Var → List Var → Option (List Var)
  | [], st => some st
  | _ :: _, [] => none
  | x :: xs, s :: st => if s = x then consume xs st else none

/-- Consuming the two arguments of a commutative instruction (src/analysis/symbolic_execution.py:50-56). -/
def consumeComm (inpt : List Var) (st : List Var) : Option (List Var) :=
  match inpt, st with
  | [a, b], s0 :: s1 :: st' => if (s0 = a ∧ s1 = b) ∨ (s0 = b ∧ s1 = a) then some st' else none
  | _, _ => none

/-- `execute_instr_id` (src/analysis/symbolic_execution.py:16-66) after the id has been classified.
The Python list `cstack` is mutated; here the new stack is returned. `none`: an exception. -/
def execOp (tab : List UInstr) : Op → List Var → Option (List Var)
  | .pop, [] => none
  | .pop, _ :: st => some st
  | .swap n, st =>
    match st[0]?, st[n]? with
    | some x, some y => some ((st.set 0 y).set n x)
    | _, _ => none
  | .dup n, st => if n = 0 then none else (st[n - 1]?).map (· :: st)
  | .get v, st => some (v :: st)
  | .set _, [] => none
  | .set v, x :: st => if v = x then some st else none
  | .instr i, st =>
    match tab.filter (fun u => u.id == i) with
    | [] => none
    | u :: _ =>
      (if u.commutative then consumeComm u.inpt st else consume u.inpt st).map (u.outpt ++ ·)

/-- `execute_instr_id` on the text of an id. -/
def execId (tab : List UInstr) (s : String) (st : List Var) : Option (List Var) :=
  (classify s).bind fun o => execOp tab o st

/-- The loop of `check_execution_from_ids` (src/analysis/greedy_validation.py:69-72). -/
def execIds (tab : List UInstr) : List String → List Var → Option (List Var)
  | [], st => some st
  | s :: ss, st => (execId tab s st).bind (execIds tab ss)

/-- `pos_by_id[x]` (src/analysis/greedy_validation.py:20-22): the increasing list of positions of `x`,
starting to count at `k`. -/
def positions (x : String) : Nat → List String → List Nat
  | _, [] => []
  | k, s :: ss => if s = x then k :: positions x (k + 1) ss else positions x (k + 1) ss

/-- `check_deps` (src/analysis/greedy_validation.py:16-26). `max`/`min` of an empty list raise
`ValueError` (`none`); `all` stops at the first `False`. -/
def checkDeps (ids : List String) : List (String × String) → Option Bool
  | [] => some true
  | d :: ds =>
    match (positions d.1 0 ids).max?, (positions d.2 0 ids).min? with
    | some M, some m => if M < m then checkDeps ids ds else some false
    | _, _ => none

/-- The last loop (src/analysis/greedy_validation.py:90-94): every instruction with `storage` whose
`disasm` does not contain "GAS" must occur exactly once. -/
def checkOnce (tab : List UInstr) (ids : List String) : Bool :=
  tab.all fun u =>
    if u.storage && !(infixOf "GAS".toList u.disasm.toList) then ids.count u.id == 1 else true

/-- `check_execution_from_ids` (src/analysis/greedy_validation.py:60-96). It either returns `True`
or raises; `false` stands for any exception or failed assertion. -/
def check (spec : Spec) (ids : List String) (allowsJunk : Bool) : Bool :=
  match execIds spec.userInstrs ids spec.src with
  | none => false
  | some cstack =>
    let cmp := if allowsJunk then cstack.take spec.tgt.length else cstack
    decide (cmp = spec.tgt)
      && (checkDeps ids spec.deps == some true)
      && checkOnce spec.userInstrs ids

/-- `ensure_ids_are_unique` (src/analysis/greedy_validation.py:29-37), the set `accesses` as a list. -/
def idsUniqueFrom : List String → List UInstr → Bool
  | _, [] => true
  | acc, u :: us => if u.id ∈ acc then false else idsUniqueFrom (u.id :: acc) us

def idsUnique (tab : List UInstr) : Bool := idsUniqueFrom [] tab

/-- The inner loop of `ensure_stack_vars_are_unique` (src/analysis/greedy_validation.py:44-48). -/
def varsUniqueStep : List Var → List Var → Option (List Var)
  | acc, [] => some acc
  | acc, v :: vs => if v ∈ acc then none else varsUniqueStep (v :: acc) vs

/-- `ensure_stack_vars_are_unique` (src/analysis/greedy_validation.py:40-49). -/
def varsUniqueFrom : List Var → List UInstr → Bool
  | _, [] => true
  | acc, u :: us =>
    match varsUniqueStep acc u.outpt with
    | none => false
    | some acc' => varsUniqueFrom acc' us

def varsUnique (tab : List UInstr) : Bool := varsUniqueFrom [] tab

end Grey.SymExec
