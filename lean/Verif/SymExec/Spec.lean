/-
Specification for the block validator, independent of the model's functions: a stack machine in the
style of the EVM, with memory slots for spilled variables, whose remaining operations are interpreted
by an arbitrary function.
-/
import Verif.SymExec.Model
namespace Grey.SymExec

/-- A machine: operand stack (top first), the memory slot of each spilled variable, and the rest of the
world (memory, storage, logs, ...). -/
structure Machine (V σ : Type) where
  stack : List V
  slot : Var → V
  world : σ

/-- Meaning of the uninterpreted operations: arguments (top of stack first) and world to results
(top first) and new world. -/
abbrev Sem (V σ : Type) := UInstr → List V → σ → List V × σ

/-- One step of the machine. There is no step on an underflow. -/
inductive Step {V σ : Type} (tab : List UInstr) (sem : Sem V σ) : Op → Machine V σ → Machine V σ → Prop
  | pop (x s m w) : Step tab sem .pop ⟨x :: s, m, w⟩ ⟨s, m, w⟩
  | swap (n x a y b m w) (h : a.length + 1 = n) :
      Step tab sem (.swap n) ⟨x :: (a ++ y :: b), m, w⟩ ⟨y :: (a ++ x :: b), m, w⟩
  | dup (n a y b m w) (h : a.length + 1 = n) :
      Step tab sem (.dup n) ⟨a ++ y :: b, m, w⟩ ⟨y :: (a ++ y :: b), m, w⟩
  | get (v s m w) : Step tab sem (.get v) ⟨s, m, w⟩ ⟨m v :: s, m, w⟩
  | set (v x s m w) :
      Step tab sem (.set v) ⟨x :: s, m, w⟩ ⟨s, fun u => if u = v then x else m u, w⟩
  | instr (u args s m w) (hu : u ∈ tab) (ha : args.length = u.inpt.length) :
      Step tab sem (.instr u.id) ⟨args ++ s, m, w⟩ ⟨(sem u args w).1 ++ s, m, (sem u args w).2⟩

/-- Running a list of instruction ids. -/
inductive Run {V σ : Type} (tab : List UInstr) (sem : Sem V σ) :
    List String → Machine V σ → Machine V σ → Prop
  | nil (M) : Run tab sem [] M M
  | cons (s o ss M M' M'') (hc : classify s = some o) (h : Step tab sem o M M')
      (hs : Run tab sem ss M' M'') : Run tab sem (s :: ss) M M''

/-- The interpretation respects the `commutative` flags of the table. -/
def Sem.RespectsComm {V σ : Type} (sem : Sem V σ) (tab : List UInstr) : Prop :=
  ∀ u ∈ tab, ∀ a b w, u.commutative = true → sem u [a, b] w = sem u [b, a] w

/-- A read `VGET(v)` of the schedule is justified if the slot of `v` is right at the beginning or
`v` has been stored by an earlier `VSET(v)`. -/
def SlotsReady {V : Type} (val : Var → V) (slot : Var → V) (ids : List String) : Prop :=
  ∀ pre s post v, ids = pre ++ s :: post → classify s = some (.get v) →
    slot v = val v ∨ ∃ t ∈ pre, classify t = some (.set v)

/-- `x` occurs before `y` at some pair of positions. -/
def Before {α : Type} (l : List α) (x y : α) : Prop :=
  ∃ a b c, l = a ++ x :: b ++ y :: c

end Grey.SymExec
