import Verif.Greedy.Model
import Mathlib.Data.List.Sort

/-!
# The order of the writes

`target` of the greedy scheduler (greedy_previous_param.py:1604-1724) and the functions it calls: from the dependencies between the
instructions of a block to the list of writes, and of values that have to be computed between them, that the main loop starts from.

Questions without effect are parameters (`Ask`). `none` is an exception, an assertion that fails, or a loop that does not terminate.
-/

namespace Grey.Greedy
open SymExec

/-- A dependency: the first instruction has to be executed before the second one. -/
abbrev Dep := String × String

/-- Questions about which value is needed for another one. -/
structure Ask where
  /-- `needed(p0, p1, …)` (greedy_previous_param.py:510-518) -/
  needs : String → String → Bool
  /-- `v in need_ops[o]` for the set of `all_needed(o, …)` (greedy_previous_param.py:317-329), as `allNeeded o v` -/
  allNeeded : String → String → Bool
  /-- `computed(v, o, …)` (greedy_previous_param.py:331-347) -/
  computed : String → String → Bool

/-! ### Levels (greedy_previous_param.py:95-118) -/

/-- `get_min_deps_map` (greedy_previous_param.py:95-118): round by round, the instructions whose predecessors are all gone. A round without
such an instruction is repeated forever. -/
def peel (deps : List Dep) : Nat → Nat → List String → Option (List (String × Nat))
  | _, _, [] => some []
  | 0, _, _ :: _ => none
  | n + 1, c, keys =>
    let ready := keys.filter fun e => keys.all fun k => decide ((k, e) ∉ deps)
    if ready.isEmpty then none
    else (peel deps n (c + 1) (keys.filter fun e => decide (e ∉ ready))).map (ready.map (fun e => (e, c)) ++ ·)

/-- `[e for p in deps for e in p]` (greedy_previous_param.py:156). -/
def depKeys (deps : List Dep) : List String := deps.flatMap fun p => [p.1, p.2]

/-- The levels of all instructions with dependencies. -/
def levels (deps : List Dep) : Option (List (String × Nat)) :=
  let keys := (depKeys deps).dedup
  peel deps keys.length 0 keys

/-- `pos[o]`: 0 if there are no dependencies (greedy_previous_param.py:157-167). -/
def posOf (lv : List (String × Nat)) (o : String) : Nat := (lv.lookup o).getD 0

/-- `get_max_pos_noSTORE` (greedy_previous_param.py:128-133). Successors have a positive level. -/
def maxPos (deps : List Dep) (lv : List (String × Nat)) (tmax : Nat) (o : String) : Nat :=
  (deps.filter fun p => p.1 = o).foldl (fun m p => min m (posOf lv p.2 - 1)) tmax

/-- `ops` (greedy_previous_param.py:156). -/
def allOps (elems : List String) (deps : List Dep) : List String := ((depKeys deps ++ elems).dedup).insertionSort (· ≤ ·)

/-- `maxpos` (greedy_previous_param.py:170). The condition of lines 173-174 compares a character with a number, so it never holds. -/
def topLevel (ops : List String) (lv : List (String × Nat)) : Nat := (ops.map (posOf lv)).foldl max 0

/-- `possops[i]` (greedy_previous_param.py:184-188): the writes of level `i`; the empty list if there is no entry. -/
def storesAt (ops : List String) (lv : List (String × Nat)) (i : Nat) : List String :=
  (ops.filter fun o => isWrite o && decide (posOf lv o = i)).reverse

/-- `poslops[i]` (greedy_previous_param.py:178-183): everything else, as late as possible. -/
def loadsAt (deps : List Dep) (ops : List String) (lv : List (String × Nat)) (i : Nat) : List String :=
  ops.filter fun o => !isWrite o && decide (maxPos deps lv (topLevel ops lv) o = i)

/-! ### Joining levels (greedy_previous_param.py:135-153) -/

/-- The inner loop (greedy_previous_param.py:146-148): the rest of the list and the next position. -/
def joinLoads (stores loads : Nat → List String) : Nat → Nat → List String × Nat
  | 0, i => ([], i)
  | n + 1, i =>
    if !(loads i).isEmpty && (stores i).isEmpty then
      let r := joinLoads stores loads n (i + 1)
      (loads i ++ r.1, r.2)
    else ([], i)

/-- `join_positions` (greedy_previous_param.py:135-153): for every position `j` the writes and the others, empty if there is no entry. There
are no levels from `n` on. -/
def joinLevels (stores loads : Nat → List String) (n : Nat) : Nat → Nat → List (List String × List String)
  | 0, _ => []
  | f + 1, i =>
    if (loads i).isEmpty && (stores i).isEmpty then []
    else if (loads i).isEmpty then (stores i, []) :: joinLevels stores loads n f (i + 1)
    else
      let r := joinLoads stores loads n (i + 1)
      (stores i, loads i ++ r.1) :: joinLevels stores loads n f r.2

/-! ### The order (greedy_previous_param.py:155-248) -/

/-- The positions with a list that is not empty (greedy_previous_param.py:194-197). -/
def entries (l : List (List String)) : List (Nat × List String) := l.zipIdx.filterMap fun p => if p.1.isEmpty then none else some (p.2, p.1)

/-- `ldep[so]` (greedy_previous_param.py:217-223). -/
def depLoads (deps : List Dep) (nostores : List String) (so : String) : List String := nostores.filter fun lo => decide ((lo, so) ∈ deps)

/-- `ldeps[so]` (greedy_previous_param.py:217-231), `none` for a missing key or position. -/
def extraLoads (P : Prog) (ask : Ask) (deps : List Dep) (nostores : List String) (so : String) : Option (List String) :=
  let ask (lo : String) : Option (String × Bool) :=
    match (opInstr P lo).bind (fun u => u.outpt[0]?), opInstr P so with
    | some vl, some u => some (lo, u.inpt.any (ask.needs vl))
    | _, _ => none
  ((depLoads deps nostores so).mapM ask).map fun l => (l.filter fun p => !p.2).map Prod.fst

/-- Lines 235-243: every write after what has to be executed before it. -/
def emitStores (deps : List Dep) (nostores : List String) : List String → List String → List String
  | [], _ => []
  | so :: l, done =>
    let new := (depLoads deps nostores so).filter fun lo => decide (lo ∉ done)
    new ++ so :: emitStores deps nostores l (done ++ new)

/-- Lines 215-243: the writes of one position, those with less to execute before first. -/
def orderStores (P : Prog) (ask : Ask) (deps : List Dep) (nostores stores : List String) : Option (List String) :=
  (stores.mapM fun so => (extraLoads P ask deps nostores so).map fun l => (so, l.length)).map fun l =>
    emitStores deps nostores (((l.insertionSort fun a b => a.1 ≤ b.1).insertionSort fun a b => a.2 ≤ b.2).map Prod.fst) []

/-- The main loop of `sort_with_deps` (greedy_previous_param.py:198-243): the order, and what is left of `poslops`. -/
def sortLoop (P : Prog) (ask : Ask) (deps : List Dep) :
    List (Nat × List String) → List (Nat × List String) → Nat → Option (List String × List (Nat × List String))
  | [], lops, _ => some ([], lops)
  | (j, st) :: sops, lops, cur =>
    if j = cur then
      (sortLoop P ask deps sops lops (if lops.head?.all (fun e => e.1 ≠ cur) then cur + 1 else cur)).map fun r => (st ++ r.1, r.2)
    else
      match lops with
      | [] => none
      | (k, nostores) :: lops =>
        if k = cur ∧ j = cur + 1 then
          match orderStores P ask deps nostores st with
          | none => none
          | some o =>
            (sortLoop P ask deps sops lops (if lops.head?.any (fun e => e.1 = cur + 1) then cur + 1 else cur + 2)).map fun r =>
              (o ++ r.1, r.2)
        else none

/-- `sort_with_deps` (greedy_previous_param.py:155-248): the order and `final_no_store`. Line 173 raises an exception for a name with fewer
than two characters. -/
def sortWithDeps (P : Prog) (ask : Ask) (elems : List String) (deps : List Dep) : Option (List String × List String) :=
  match levels deps with
  | none => none
  | some lv =>
    let ops := allOps elems deps
    if ops.any (fun o => decide (o.length < 2)) then none
    else
      let n := topLevel ops lv + 1
      let es := joinLevels (storesAt ops lv) (loadsAt deps ops lv) n n 0
      (sortLoop P ask deps (entries (es.map Prod.fst)) (entries (es.map Prod.snd)) 0).map fun r => (r.1, r.2.flatMap Prod.snd)

/-! ### From instructions to values (greedy_previous_param.py:350-502) -/

/-- `MWRITE_OPERATIONS` (greedy_previous_param.py:20-22). -/
def memWriteOps : List String :=
  ["MSTORE8", "MSTORE", "MCOPY", "CALLDATACOPY", "CODECOPY", "RETURNDATACOPY", "CALL", "DELEGATECALL", "STATICCALL", "CALLCODE",
   "EXTCODECOPY", "ASSIGNIMMUTABLE", "LOG0", "LOG1", "LOG2", "LOG3", "LOG4", "CREATE", "CREATE2"]

/-- `is_mwrite` (greedy_previous_param.py:42-44). -/
def isMemWrite (name : String) : Bool := memWriteOps.contains (deleteExtension name)

/-- `is_swrite` (greedy_previous_param.py:27, 46-48). -/
def isStoWrite (name : String) : Bool := ["SSTORE", "CALL", "DELEGATECALL", "STATICCALL"].contains (deleteExtension name)

/-- `is_twrite` (greedy_previous_param.py:28, 50-52). -/
def isTraWrite (name : String) : Bool := ["TSTORE", "CALL", "DELEGATECALL", "STATICCALL"].contains (deleteExtension name)

/-- `opid_instr_map[op]['outpt_sk'][0]` -/
def outOf (P : Prog) (o : String) : Option String := (opInstr P o).bind fun u => u.outpt[0]?

/-- Which writes end the scan after a load (greedy_previous_param.py:361-402). -/
def stopsAt (op : String) : String → Bool :=
  if infixOf "SLOAD".toList op.toList then isStoWrite
  else if infixOf "TLOAD".toList op.toList then isTraWrite
  else isMemWrite

/-- The name by which a later instruction is asked for (greedy_previous_param.py:369-372, 383-386, 397-400). -/
def lookName (P : Prog) (op o : String) : Option String :=
  if infixOf "SLOAD".toList op.toList ∨ infixOf "TLOAD".toList op.toList then
    (opInstr P o).bind fun u => if u.outpt.length = 1 then u.outpt[0]? else some o
  else if !isWrite o then outOf P o else some o

/-- The names of the instructions up to the next write (greedy_previous_param.py:368-402). -/
def lookAhead (P : Prog) (op : String) : List String → Option (List String)
  | [] => some []
  | o :: l =>
    match lookName P op o with
    | none => none
    | some v => if stopsAt op o then some [v] else (lookAhead P op l).map (v :: ·)

/-- `remove_nostores_and_rename` (greedy_previous_param.py:350-415), `final` being `final_ops`. -/
def renameOps (P : Prog) (ask : Ask) : List String → List String → Option (List String)
  | [], final => some final
  | op :: l, final =>
    if isWrite op then renameOps P ask l (if op ∈ final then final else final ++ [op])
    else
      match lookAhead P op l, outOf P op with
      | some chk, some vop => renameOps P ask l (if (final ++ chk).any (fun od => ask.allNeeded od vop) then final else final ++ [vop])
      | _, _ => none

/-- `while len(lops) > 0: op1 = lops.pop(0); if …: break` (greedy_previous_param.py:429-443). -/
def dropTo (f : String → Bool) : List String → List String
  | [] => []
  | o :: l => if f o then l else dropTo f l

/-- `needed_nostores` (greedy_previous_param.py:418-468): the values of loads that are needed after the next write. An
instruction without entry in the table is always an exception, in the code only if it is reached. -/
def neededLoads (P : Prog) (ask : Ask) (fin : List String) : List String → Option (List String)
  | [] => some []
  | op :: l =>
    if isWrite op then neededLoads P ask fin l
    else
      match outOf P op, (dropTo (stopsAt op) l).mapM fun o => if !isWrite o then outOf P o else some o with
      | some v, some names =>
        (neededLoads P ask fin l).map fun r =>
          (if names.any (fun o => ask.allNeeded o v) then [v] else []) ++ (if fin.any (fun o => ask.allNeeded o v) then [v] else []) ++ r
      | _, _ => none

/-- The choice of the next value (greedy_previous_param.py:475-483); `none` if the index runs out of the list. -/
def pickLoad (ask : Ask) (l : List String) : Nat → Nat → Option Nat
  | 0, _ => none
  | n + 1, i =>
    match l[i]? with
    | none => none
    | some v =>
      if ((List.range l.length).any fun j => decide (1 ≤ j ∧ j ≠ i) && (l[j]?).any (ask.computed v)) then pickLoad ask l n (i + 1)
      else some i

/-- Where the value is inserted (greedy_previous_param.py:485-501), `deps` being the dependencies of memory and storage; `none`: the value has
no instruction. -/
def insertLoad (P : Prog) (ask : Ask) (deps : List Dep) (op : String) : List String → Option (List String)
  | [] => some []
  | cur :: l =>
    if op = cur then some (cur :: l)
    else if ask.computed op cur then some (op :: cur :: l)
    else
      match varInstr P op with
      | none => none
      | some u =>
        if (u.id, cur) ∈ deps then some (op :: cur :: l)
        else if l.isEmpty then some [cur, op]
        else (insertLoad P ask deps op l).map (cur :: ·)

/-- `add_needed_nostores_in_stack` (greedy_previous_param.py:471-502). -/
def addLoads (P : Prog) (ask : Ask) (deps : List Dep) : Nat → List String → List String → Option (List String)
  | _, [], order => some order
  | 0, _ :: _, _ => none
  | n + 1, l, order =>
    match pickLoad ask l l.length 0 with
    | none => none
    | some i =>
      match insertLoad P ask deps (l.getD i "") order with
      | none => none
      | some order => addLoads P ask deps n (l.eraseIdx i) order

/-- `get_ops_id` (greedy_previous_param.py:72-76). -/
def opsId (tab : List UInstr) (ops : List String) : List String := (tab.filter fun u => ops.contains u.disasm).map (·.id)

/-- `target` (greedy_previous_param.py:1604-1657), what it returns: `mem`, `sto` and `tra` are the dependencies as the constructor extends them,
`all` is the list `dependencies`. The rest of the function computes how often values are needed (`Plan.needed`). -/
def target (P : Prog) (ask : Ask) (mem sto tra all : List Dep) : Option (List String × List String) :=
  let elems := opsId P.tab ["TSTORE"] ++ opsId P.tab ["SSTORE"] ++ opsId P.tab memWriteOps
  match sortWithDeps P ask elems (tra ++ sto ++ mem) with
  | none => none
  | some (order, final) =>
    if !checkDependencies all (order ++ final) then none
    else
      match final.mapM (outOf P), neededLoads P ask P.fin order, renameOps P ask order [] with
      | some rest, some forced, some order =>
        let forced := (forced.dedup).insertionSort (· ≤ ·)
        match addLoads P ask (mem ++ sto) forced.length forced order with
        | none => none
        | some order => if forced.all (fun o => decide (o ∈ order)) then some (order, rest) else none
      | _, _, _ => none

end Grey.Greedy
