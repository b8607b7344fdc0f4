/-!
# The end of the greedy scheduler

`src/greedy/greedy_previous_param.py`: bringing the stack into its final order
(`compute_permut_and_clean`, lines 1414-1591, with `get_register`, lines 1399-1406, and `unsolved`,
lines 1408-1412) and dropping instructions without effect (`remove_useless`, lines 1939-1963).

A stack is a list with its top first (line 1442 pops position 0).  Values are strings, the names
of the block's variables.  The list of solved positions `solved` and the position `lpos` hold
(possibly negative) integers.  An exception (a failed `assert`, an index outside of a list, a
`remove` of an element that is not there, lines 1406, 1425, 1428, 1434, 1481, 1526, 1532, 1562, 1573, 1577,
1589) is `Step.err`.
-/

namespace Grey.Permute

/-- The instructions `compute_permut_and_clean` emits (`'POP'`, `'SWAP' + str(i)`,
`'VSET(' + v + ')'`, `'VGET(' + v + ')'`). -/
inductive Ins
  | pop
  | swap (k : Int)
  | vset (v : String)
  | vget (v : String)
  deriving Repr, DecidableEq

/-- The variables of the loop of `compute_permut_and_clean` (greedy_previous_param.py:1416-1419).
`ids` is `popcodeids`; `popcodes` is equal to it throughout. -/
structure St where
  cstack : List String
  solved : List Int
  reg : List String
  lpos : Int
  ids : List Ins
  deriving Repr, DecidableEq

/-- Where one round of the loop leads to: another round, the end of the loop (`cstack == final` or
the `break` of line 1437) or an exception. -/
inductive Step
  | more (s : St)
  | done (s : St)
  | err
  deriving Repr, DecidableEq

/-- Python's `l[i]` for a possibly negative `i`. -/
def idx (l : List String) (i : Int) : Option String :=
  if 0 ≤ i then l[i.toNat]? else if 0 ≤ l.length + i then l[(l.length + i).toNat]? else none

/-- `get_register` (greedy_previous_param.py:1399-1406): the first register whose value is missing
at some unsolved position of the stack; `none` is the failed assertion of line 1406. -/
def getRegister (fin reg cstack : List String) (solved : List Int) : Option String :=
  reg.find? fun r => (List.range cstack.length).any fun i =>
    decide (cstack.length - fin.length ≤ i ∧ cstack[i]? ≠ some r ∧
      idx fin ((i : Int) - cstack.length) = some r ∧ (fin.length + i - cstack.length : Int) ∉ solved)

/-- `unsolved` (greedy_previous_param.py:1408-1412): is there a position `p ≤ q < p + reach` of the
final stack with value `v` that is not solved?  (Line 1448 calls it only if the position before `p`
is solved, so `p` is not negative.) -/
def unsolved (fin : List String) (v : String) (p : Int) (reach : Nat) (solved : List Int) : Bool :=
  (List.range reach).any fun k =>
    decide (p + k < fin.length ∧ p + k ∉ solved ∧ idx fin (p + k) = some v)

/-- `[c[k]] + c[1:k] + [c[0]] + c[k+1:]` (greedy_previous_param.py:1456 and alike), for
`1 ≤ k < len(c)`. -/
def swapTop (c : List String) (k : Nat) : List String :=
  match c, c[k]? with
  | a :: _, some b => (c.set 0 b).set k a
  | _, _ => c

/-- `if p in solved: solved.remove(p)`. -/
def unmark (solved : List Int) (p : Int) : List Int := solved.erase p

/-- `while len(final)+lpos >= 0 and len(cstack)+lpos >= 0 and cstack[lpos] == final[lpos]`
(greedy_previous_param.py:1438-1439). -/
def advance (fin cstack : List String) (lpos : Int) : Nat → Int
  | 0 => lpos
  | n + 1 =>
    if 0 ≤ fin.length + lpos ∧ 0 ≤ cstack.length + lpos ∧ idx cstack lpos = idx fin lpos then
      advance fin cstack (lpos - 1) n
    else lpos

/-- `while i >= 1 and len(final)-len(cstack)+i >= 0 and (… in solved or final[…] != cstack[0]): i -= 1`
(greedy_previous_param.py:1451-1453 and 1497-1499). -/
def lastPlace (fin cstack : List String) (solved : List Int) (top : String) : Nat → Nat
  | 0 => 0
  | i + 1 =>
    let p : Int := fin.length - cstack.length + (i + 1)
    if 0 ≤ p ∧ (p ∈ solved ∨ idx fin p ≠ some top) then lastPlace fin cstack solved top i else i + 1

/-- `j = 1; while j < len(cstack) and j <= reach and all.count(cstack[j]) == final.count(cstack[j]): j += 1`
(greedy_previous_param.py:1461-1465 and 1538-1541): the first reachable position with a value that is
not there as often as it is needed. -/
def garbageAt (fin allel cstack : List String) (reach : Nat) : Option Nat :=
  (List.range (reach + 1)).find? fun j =>
    decide (1 ≤ j ∧ ∃ v ∈ cstack[j]?, allel.count v ≠ fin.count v)

/-- `while i < len(cstack) and i <= reach and (… in solved or cstack[0] == cstack[i]): i += 1`, from
`max(1, len(cstack) - len(final))` (greedy_previous_param.py:1565-1568). -/
def unsolvedAt (fin cstack : List String) (solved : List Int) (reach : Nat) : Option Nat :=
  (List.range (reach + 1)).find? fun i =>
    decide (1 ≤ i ∧ cstack.length - fin.length ≤ i ∧ i < cstack.length ∧
      (fin.length - cstack.length + i : Int) ∉ solved ∧ cstack[0]? ≠ cstack[i]?)

/-- `spos = 1; while cstack[spos] != final[lpos]: spos += 1` (greedy_previous_param.py:1473-1475). -/
def findFrom (c : List String) (v : String) : Option Nat :=
  (List.range c.length).find? fun i => decide (1 ≤ i ∧ c[i]? = some v)

/-- Keeping the top of the stack in a register (greedy_previous_param.py:1487-1495, 1506-1514 and
1549-1558): `POP` if the register is set, `VSET` otherwise. -/
def save (s : St) : Step :=
  match s.cstack with
  | [] => .err
  | v :: c =>
    .more { s with
      cstack := c
      reg := s.reg ++ [v]
      ids := s.ids ++ [if v ∈ s.reg then .pop else .vset v] }

/-- Fetching a register (greedy_previous_param.py:1517-1525 and 1574-1582). -/
def fetch (fin : List String) (reach : Nat) (check : Bool) (s : St) : Step :=
  if (s.cstack.length : Int) + s.lpos < reach then
    match getRegister fin s.reg s.cstack s.solved with
    | none => .err
    | some r =>
      let c := r :: s.cstack
      if check ∧ (fin.length - c.length : Int) ∈ s.solved then .err
      else .more { s with cstack := c, reg := s.reg.erase r, ids := s.ids ++ [.vget r] }
  else .err

/-- The rest of the final stack from the registers (greedy_previous_param.py:1430-1437). `rest` are
the positions that are left, the last one first. -/
def getAll (s : St) : List String → Step
  | [] => .done s
  | r :: rest =>
    if r ∈ s.reg then
      getAll { s with cstack := r :: s.cstack, reg := s.reg.erase r, ids := s.ids ++ [.vget r] } rest
    else .err

/-- A swap of the top with position `k`, as long as `1 ≤ k < len(cstack)`. -/
def St.swapped (s : St) (k : Nat) : St :=
  { s with cstack := swapTop s.cstack k, ids := s.ids ++ [.swap k] }

/-- The position of the final stack the top of the stack is at. -/
def St.base (s : St) (fin : List String) : Int := fin.length - s.cstack.length

/-- The top of the stack is not at its place, nor is there garbage to swap it with
(greedy_previous_param.py:1470-1525). `i` is what the loop of lines 1451-1453 left. -/
def stuck (fin : List String) (reach : Nat) (top : String) (i : Nat) (s : St) : Step :=
  let low : Int := s.cstack.length + s.lpos
  match (if low ≤ reach then idx fin s.lpos else some top) with
  | none => .err
  | some want =>
    if low ≤ reach ∧ want ∈ s.cstack.take low.toNat then
      if top = want then .err
      else
        match findFrom s.cstack want with
        | none => .err
        | some spos =>
          let t := s.swapped spos
          .more { t with solved := unmark (unmark s.solved (s.base fin + spos)) (s.base fin) }
    else if reach ≤ low then
      let u : Int := s.cstack.length - fin.length - 1
      if i = 0 then save { s with solved := unmark s.solved (s.base fin) }
      else
        let k :=
          if 1 < u ∧ u < i then
            let k := lastPlace fin s.cstack s.solved top u.toNat
            if 1 ≤ k then k else i
          else i
        let t := s.swapped k
        save { t with solved := unmark (unmark s.solved (s.base fin + k)) (s.base fin) }
    else fetch fin reach true s

/-- The top of the stack is not marked as solved, or can be used elsewhere (greedy_previous_param.py:1448-1532). -/
def unsettled (fin : List String) (reach : Nat) (allel : List String) (top : String) (s : St) : Step :=
  let base := s.base fin
  let i := lastPlace fin s.cstack s.solved top (min reach (s.cstack.length - 1))
  if 1 ≤ i ∧ 0 ≤ base + i then
    let t := s.swapped i
    .more { t with solved := unmark (s.solved ++ [base + i]) base }
  else
    match garbageAt fin allel s.cstack reach with
    | some j => let t := s.swapped j; .more { t with solved := unmark s.solved base }
    | none => stuck fin reach top i s

/-- The top of the stack is solved (greedy_previous_param.py:1533-1588).  A `SWAP` of line 1557 with a position that is not
positive fails in `check_dup_swap` (lines 1829-1832), if not before, so it is an exception here. -/
def settled (fin : List String) (reach : Nat) (allel : List String) (top : String) (s : St) : Step :=
  let base := s.base fin
  match garbageAt fin allel s.cstack reach with
  | some j => let t := s.swapped j; .more { t with solved := unmark s.solved base }
  | none =>
    let low : Int := s.cstack.length + s.lpos
    if reach ≤ low then save { s with solved := unmark s.solved base }
    else
      match idx fin s.lpos with
      | none => .err
      | some want =>
        if want = top then
          if 1 ≤ low ∧ base ∈ s.solved then
            let t := s.swapped low.toNat
            .more { t with solved := s.solved.erase base ++ [fin.length + s.lpos] }
          else .err
        else
          match unsolvedAt fin s.cstack s.solved reach with
          | some i =>
            if base ∈ s.solved then
              let t := s.swapped i
              .more { t with solved := s.solved.erase base }
            else .err
          | none => fetch fin reach false s

/-- One round of the loop (greedy_previous_param.py:1420-1588). -/
def round (fin : List String) (reach : Nat) (s : St) : Step :=
  if s.cstack = fin then .done s
  else
    let allel := s.reg ++ s.cstack
    if allel.length < fin.length ∨ ∃ v ∈ fin, allel.count v < fin.count v then .err
    else if s.cstack.length ≤ fin.length ∧ s.cstack ≠ [] ∧ s.cstack = fin.drop (fin.length - s.cstack.length) then
      getAll s (fin.take (fin.length - s.cstack.length)).reverse
    else
      let s := { s with lpos := advance fin s.cstack s.lpos (fin.length + s.cstack.length) }
      match s.cstack with
      | [] => .err
      | top :: rest =>
        let base := s.base fin
        if fin.count top < allel.count top then
          .more { s with cstack := rest, ids := s.ids ++ [.pop] }
        else if s.cstack.length ≤ fin.length ∧ base ∉ s.solved ∧ idx fin base = some top ∧
            !unsolved fin top (base + 1) reach s.solved then
          .more { s with solved := s.solved ++ [base] }
        else if base ∉ s.solved ∨ unsolved fin top (base + 1) reach s.solved then unsettled fin reach allel top s
        else settled fin reach allel top s

/-- `compute_permut_and_clean` with at most `fuel` rounds; `none`: not ended yet. The last assertion
(greedy_previous_param.py:1589) wants the final stack and empty registers. -/
def run (fin : List String) (reach : Nat) : Nat → St → Option (Option (List Ins))
  | 0, _ => none
  | n + 1, s =>
    match round fin reach s with
    | .more t => run fin reach n t
    | .done t => some (if t.cstack = fin ∧ t.reg = [] then some t.ids else none)
    | .err => some none

/-- `compute_permut_and_clean` from its first line (greedy_previous_param.py:1414-1419). -/
def permute (fin : List String) (reach fuel : Nat) (cstack : List String) (solved : List Int) :
    Option (Option (List Ins)) :=
  run fin reach fuel ⟨cstack, solved, [], -1, []⟩

/-- `add_solved` (greedy_previous_param.py:1385-1389), which is called before (line 1373): the
positions, counted from the end, at which the stack is as wanted. -/
def addSolved (fin cstack : List String) (solved : List Int) : List Int :=
  (List.range (min cstack.length fin.length)).foldl (fun s (i : Nat) =>
    if cstack.reverse[i]? = fin.reverse[i]? ∧ (fin.length - 1 - i : Int) ∉ s then
      s ++ [(fin.length - 1 - i : Int)] else s) solved

/-! ### Dropping instructions -/

/-- `remove_useless` (greedy_previous_param.py:1939-1963). An instruction is a pair of its opcode and
its id; `fr` and `frid` are one list, the last instruction first, so that `fr[j]` is its head. The
list is empty only when the instructions so far cancelled out, and then the next one is taken as it
is (lines 1950-1954). -/
def dropFrom : List (String × String) → List (String × String) → List (String × String)
  | acc, [] => acc
  | [], r :: rs => dropFrom [r] rs
  | a :: acc, r :: rs =>
    if a.1 = "SWAP1" ∧ r.1 = "SWAP1" then dropFrom acc rs
    else if a.1 = "DUP1" ∧ r.1 = "SWAP1" then dropFrom (a :: acc) rs
    else dropFrom (r :: a :: acc) rs

def removeUseless (r : List (String × String)) : List (String × String) := (dropFrom [] r).reverse

end Grey.Permute
