import Mathlib.Data.List.Basic

/-!
# Estimation of the gas and bytes of the functions (src/cfg_methods/cost_computation.py)
-/

namespace Grey.Cost

/-- A gas amount; `none` is `np.inf`. -/
abbrev Gas := Option Nat

/-- `costs_T` (src/cfg_methods/cost_computation.py:15): gas and bytes. -/
abbrev Cost := Gas × Nat

/-- Addition of gas amounts, `inf` absorbing. -/
def gadd : Gas → Gas → Gas
  | some a, some b => some (a + b)
  | _, _ => none

/-- Addition of costs (src/cfg_methods/cost_computation.py:76-77, 97-98). -/
def cadd (a b : Cost) : Cost := (gadd a.1 b.1, a.2 + b.2)

/-- What the estimation reads of a `CFGInstruction`: its operation, its arguments, its results, and the properties
`gas_spent_op` and `bytes_required` (src/parser/cfg_instruction.py:408-424), here fields. -/
structure Ins where
  op : String
  inArgs : List String
  outArgs : List String
  gas : Nat
  bytes : Nat

/-- What the estimation reads of a `CFGFunction`: its arguments and the instructions of its blocks, in the order of the
dictionary of blocks. -/
structure Fun where
  args : List String
  blocks : List (List Ins)

/-- `function2costs` and `traversed_functions`. -/
structure St where
  tab : String → Option Cost
  trav : List String

/-- `function2costs[name] = c`. -/
def setTab (tab : String → Option Cost) (name : String) (c : Cost) : String → Option Cost :=
  fun x => if x = name then some c else tab x

/-- The loop over the arguments of an instruction (src/cfg_methods/cost_computation.py:102-112): gas, bytes, and the
set of introduced values left. `pushBytes` stands for `get_push_number_hex`. -/
def argLoop (pushBytes : String → Nat) : List String → List String → Nat × Nat × List String
  | [], prev => (0, 0, prev)
  | a :: as, prev =>
    if "0x".toList.isPrefixOf a.toList then
      let r := argLoop pushBytes as prev
      (r.1 + (if a = "0x00" then 2 else 3), r.2.1 + (if a = "0x00" then 1 else 1 + pushBytes a), r.2.2)
    else if a ∈ prev then argLoop pushBytes as (prev.filter (· ≠ a))
    else
      let r := argLoop pushBytes as prev
      (r.1 + 3, r.2.1 + 1, r.2.2)

/-- The loop over the results (src/cfg_methods/cost_computation.py:114-115). -/
def addOuts (prev outs : List String) : List String := outs.foldl (fun p o => if o ∈ p then p else o :: p) prev

variable (fd : String → Option Fun) (pushBytes : String → Nat)

/-- One iteration of the loop of `compute_gas_bytes_block` (src/cfg_methods/cost_computation.py:82-115). `call` is
`compute_gas_bytes_function`. -/
def costIns (call : String → St → Option (Cost × St)) (i : Ins) (st : St) (prev : List String) :
    Option (Cost × St × List String) :=
  let opCost : Option (Cost × St) :=
    match st.tab i.op with
    | some c => some (c, st)
    | none => if (fd i.op).isSome then call i.op st else some ((some i.gas, i.bytes), st)
  match opCost with
  | none => none
  | some (c, st') =>
    let a := argLoop pushBytes i.inArgs prev
    some (cadd c (some a.1, a.2.1), st', addOuts a.2.2 i.outArgs)

/-- `compute_gas_bytes_block` (src/cfg_methods/cost_computation.py:77-117). -/
def costBlock (call : String → St → Option (Cost × St)) :
    List Ins → St → List String → Option (Cost × St × List String)
  | [], st, prev => some ((some 0, 0), st, prev)
  | i :: is, st, prev =>
    match costIns fd pushBytes call i st prev with
    | none => none
    | some (c, st', prev') =>
      match costBlock call is st' prev' with
      | none => none
      | some (c', st'', prev'') => some (cadd c c', st'', prev'')

/-- `compute_gas_bytes_block_list` (src/cfg_methods/cost_computation.py:64-75). The set of introduced values is shared by
the blocks. -/
def costBlocks (call : String → St → Option (Cost × St)) :
    List (List Ins) → St → List String → Option (Cost × St × List String)
  | [], st, prev => some ((some 0, 0), st, prev)
  | b :: bs, st, prev =>
    match costBlock fd pushBytes call b st prev with
    | none => none
    | some (c, st', prev') =>
      match costBlocks call bs st' prev' with
      | none => none
      | some (c', st'', prev'') => some (cadd c c', st'', prev'')

/-- `compute_gas_bytes_function` (src/cfg_methods/cost_computation.py:42-61). The fuel bounds the depth of the recursion;
`none` is running out of it, or the `KeyError` on an unknown function. -/
def costFun : Nat → String → St → Option (Cost × St)
  | 0, _, _ => none
  | fuel + 1, name, st =>
    match st.tab name with
    | some c => some (c, st)
    | none =>
      if name ∈ st.trav then some ((none, 1), { st with tab := setTab st.tab name (none, 1) })
      else
        match fd name with
        | none => none
        | some f =>
          match costBlocks fd pushBytes (costFun fuel) f.blocks { st with trav := name :: st.trav }
              (addOuts [] f.args) with
          | none => none
          | some (c, st', _) => some (c, { st' with tab := setTab st'.tab name c })

/-- The loop over the functions of one object in `compute_gas_bytes` (src/cfg_methods/cost_computation.py:29-30): a fresh
set of traversed functions for each, a shared table of costs. -/
def costAll (fuel : Nat) : List String → (String → Option Cost) → Option (String → Option Cost)
  | [], tab => some tab
  | name :: names, tab =>
    match costFun fd pushBytes fuel name ⟨tab, []⟩ with
    | none => none
    | some (_, st) => costAll fuel names st.tab

end Grey.Cost
