import Verif.Permute.Model

/-!
# What the instructions for reordering the stack do

A machine with a stack of values (top first) and a register for every variable.
-/

namespace Grey.Permute

variable {W : Type}

/-- One instruction: `POP` needs a value, `SWAPk` exchanges the top with the value `k` below it and
needs `1 ≤ k ≤ reach`, `VSET(v)` moves the top into the register of `v`, `VGET(v)` pushes what was
put into this register. `none`: the instruction cannot be executed. -/
def exec (reach : Nat) : Ins → List W × (String → Option W) → Option (List W × (String → Option W))
  | .pop, (st, m) =>
    match st with
    | [] => none
    | _ :: st => some (st, m)
  | .swap k, (st, m) =>
    if 1 ≤ k ∧ k ≤ reach then
      match st[0]?, st[k.toNat]? with
      | some x, some y => some ((st.set 0 y).set k.toNat x, m)
      | _, _ => none
    else none
  | .vset v, (st, m) =>
    match st with
    | [] => none
    | x :: st => some (st, fun w => if w = v then some x else m w)
  | .vget v, (st, m) => (m v).map fun x => (x :: st, m)

/-- A sequence of instructions. -/
def execAll (reach : Nat) : List Ins → List W × (String → Option W) → Option (List W × (String → Option W))
  | [], s => some s
  | i :: is, s => (exec reach i s).bind (execAll reach is)

/-- The position `p` of the final stack is where the stack holds what it should hold: both are
counted from the bottom, the last position of the final stack being `len(final) - 1`. -/
def Right (fin cstack : List String) (p : Int) : Prop :=
  ∃ d : Nat, d < fin.length ∧ d < cstack.length ∧ p = fin.length - 1 - d ∧
    cstack.reverse[d]? = fin.reverse[d]?

end Grey.Permute
