/-
C52: components that meet the hypotheses, and components on which the claim fails without them.
-/
import Verif.Layout.DriverTheorems
namespace Grey.Layout
open List

/-- A loop: `E` enters the header `H`, which goes to the latch `L` or to the exit `X`; the header has the phi function
`i = φ(i0, i1)`. -/
def exLoop : Component where
  blocks := [⟨"E", [], [], [], some "H", none, "unconditional", "", [], []⟩,
    ⟨"H", ["E", "L"], ["E", "L"], [⟨"i", ["i0", "i1"]⟩], some "L", some "X", "conditional", "", [], ["t", "c"]⟩,
    ⟨"L", ["H"], [], [], some "H", none, "unconditional", "", [], []⟩,
    ⟨"X", ["H"], [], [], none, none, "terminal", "", [], []⟩]
  start := "E"
  inputs := ["n", "m"]
  main := false
  junk := true
  inLoop := fun b => b == "H" || b == "L"
  liveIn := fun b => if b = "E" then ["n"] else if b = "H" then ["i", "n"] else ["i", "n"]
  liveOut := fun b => if b = "E" then ["i0", "n"] else if b = "H" then ["i", "n"] else if b = "L" then ["i1", "n"] else []
  depth := fun _ _ => [0]
  level := fun b => if b = "E" then some 0 else if b = "H" then some 1 else if b = "L" ∨ b = "X" then some 2 else none
  domPath := fun p q => if p = q then some [p] else if p = "E" ∧ q = "L" then some ["E", "H", "L"] else none

example : WellFormed exLoop ∧ OneJoin exLoop ∧ Navigable exLoop := by
  refine ⟨?_, ?_, ?_⟩
  · constructor <;> decide +kernel
  · unfold OneJoin; decide +kernel
  · refine ⟨by decide +kernel, by decide +kernel, by decide +kernel, ?_⟩
    intro p q path h
    unfold exLoop at h
    simp only at h
    split at h
    · simp only [Option.some.injEq] at h; subst h; rename_i e; subst e; exact ⟨rfl, rfl⟩
    · split at h
      · simp only [Option.some.injEq] at h; subst h; rename_i e; rw [e.1, e.2]; exact ⟨rfl, rfl⟩
      · simp at h

/-- The construction succeeds; `E` leaves `i0`, the latch leaves `i1` where the header expects `i`. -/
example : (drive exLoop).toOption.map (·.specs) = some [("X", ["n", "i"], ["n", "i"]), ("L", ["n", "i"], ["n", "i1"]),
    ("H", ["n", "i"], ["n", "i"]), ("E", ["n", "m"], ["n", "i0"])] := by
  decide +kernel

/-- The specifications of a finished construction. -/
def specsOf (c : Component) : List (String × List String × List String) := ((drive c).toOption.map (·.specs)).getD []

/-- The loop leaves no junk (it belongs to a function), so its stacks have the same lengths along its edges, and the first block
starts with the parameters. -/
example : NoJunk exLoop ∧ (∃ S ∈ exLoop.blocks, S.comesFrom = [] ∧ S.id = exLoop.start) := by
  refine ⟨fun b => ?_, by decide +kernel⟩
  simp [Component.canJunk, exLoop]

/-- A function that calls another one with the result `r` and then returns it. -/
def exCallReturn : Component where
  blocks := [⟨"A", [], [], [], none, some "B", "sub_block", "", ["r"], ["t", "x", "u"]⟩,
    ⟨"B", ["A"], [], [], none, none, "FunctionReturn", "sub_block", [], ["o", "r"]⟩]
  start := "A"
  inputs := ["x", "o"]
  main := false
  junk := true
  inLoop := fun _ => false
  liveIn := fun b => if b = "A" then ["x", "o"] else ["r", "o"]
  liveOut := fun b => if b = "A" then ["r", "o"] else []
  depth := fun _ _ => [0]
  level := fun b => if b = "A" then some 0 else some 1
  domPath := fun _ _ => none

/-- It meets the hypotheses of the theorems on results and on returns: `A` leaves the result on top, `B` leaves nothing. -/
example : WellFormed exCallReturn ∧ OneJoin exCallReturn ∧ NoJunk exCallReturn ∧
    (∀ J ∈ exCallReturn.blocks, 1 < J.comesFrom.length → "A" ∉ J.comesFrom) ∧ exCallReturn.liveOut "B" = [] ∧
    specsOf exCallReturn = [("B", ["r", "o"], []), ("A", ["x", "o"], ["r", "o"])] := by
  refine ⟨?_, ?_, ?_, by decide +kernel, by decide +kernel, by decide +kernel⟩
  · constructor <;> decide +kernel
  · unfold OneJoin; decide +kernel
  · intro b; simp [Component.canJunk, exCallReturn]

/-- `P` precedes the joins `J` and `K`, `Q` only `J`, `R` only `K`; `J` has the phi function `j = φ(x, y)`. -/
def exTwoJoins : Component where
  blocks := [⟨"E", [], [], [], some "P", some "F", "conditional", "", [], []⟩,
    ⟨"F", ["E"], [], [], some "Q", some "R", "conditional", "", [], []⟩,
    ⟨"P", ["E"], [], [], some "J", some "K", "conditional", "", [], []⟩,
    ⟨"Q", ["F"], [], [], some "J", none, "unconditional", "", [], []⟩,
    ⟨"R", ["F"], [], [], some "K", none, "unconditional", "", [], []⟩,
    ⟨"J", ["P", "Q"], ["P", "Q"], [⟨"j", ["x", "y"]⟩], none, none, "terminal", "", [], ["j"]⟩,
    ⟨"K", ["P", "R"], [], [], none, none, "terminal", "", [], []⟩]
  start := "E"
  inputs := ["x", "y"]
  main := false
  junk := true
  inLoop := fun _ => false
  liveIn := fun b => if b = "J" then ["j"] else if b = "K" then ["y"] else ["x", "y"]
  liveOut := fun b => if b = "Q" then ["y"] else if b = "R" then ["y"] else if b = "J" ∨ b = "K" then [] else ["x", "y"]
  depth := fun _ _ => [0]
  level := fun b => if b = "E" then some 0 else if b = "Q" ∨ b = "R" then some 2 else some 1
  domPath := fun _ _ => none

/-- **C52 fails without the proviso that no block precedes two joins.** The graph is well-formed and the construction
succeeds, but `J` starts from the stack made for `K`: its live variable `j` is not on it, and `Q` does not leave `x`, which `J`
expects on top. -/
theorem two_joins_disagree : WellFormed exTwoJoins ∧ (∃ st, drive exTwoJoins = .ok st) ∧ "j" ∈ exTwoJoins.liveIn "J" ∧
    ("Q", ["x", "y"], ["bottom", "y"]) ∈ specsOf exTwoJoins ∧ ("J", ["x", "y"], ["x", "y"]) ∈ specsOf exTwoJoins ∧
    ¬ EdgeAgree [⟨"j", ["x", "y"]⟩] 1 ["bottom", "y"] ["x", "y"] := by
  refine ⟨?_, ?_, by decide +kernel, by decide +kernel, by decide +kernel, ?_⟩
  · constructor <;> decide +kernel
  · cases h : drive exTwoJoins with
    | ok st => exact ⟨st, rfl⟩
    | error e =>
      have : (drive exTwoJoins).toOption.isSome = true := by decide +kernel
      rw [h] at this
      simp [Except.toOption] at this
  · intro h
    obtain ⟨y, hy, hv⟩ := h.2 0 "x" rfl (fun n e => by
      have h' := congrArg String.toList e
      unfold pseudoName at h'
      rw [String.toList_append] at h'
      simp at h')
    simp only [length_cons, getElem?_cons_zero, Option.some.injEq] at hy
    subst hy
    have := hv String id (fun z => if z = "j" then "y" else z) ⟨by simp, by simp; intro x hx hx'; exact absurd hx'.symm hx⟩
    simp at this

/-- Both `P` and `Q` precede both joins. -/
def exSameJoins : Component where
  blocks := [⟨"E", [], [], [], some "P", some "Q", "conditional", "", [], []⟩,
    ⟨"P", ["E"], [], [], some "J", some "K", "conditional", "", [], []⟩,
    ⟨"Q", ["E"], [], [], some "J", some "K", "conditional", "", [], []⟩,
    ⟨"J", ["P", "Q"], [], [], none, none, "terminal", "", [], []⟩,
    ⟨"K", ["P", "Q"], [], [], none, none, "terminal", "", [], []⟩]
  start := "E"
  inputs := ["x", "y"]
  main := false
  junk := true
  inLoop := fun _ => false
  liveIn := fun _ => ["x", "y"]
  liveOut := fun b => if b = "J" ∨ b = "K" then [] else ["x", "y"]
  depth := fun _ _ => [0]
  level := fun b => if b = "E" then some 0 else some 1
  domPath := fun _ _ => none

/-- Without the proviso the construction can also fail with a `KeyError`: the input stack of `J` is never assigned. -/
theorem two_joins_missing_stack : WellFormed exSameJoins ∧ (match drive exSameJoins with | .error .key => True | _ => False) := by
  refine ⟨?_, ?_⟩
  · constructor <;> decide +kernel
  · have : (match drive exSameJoins with | .error .key => true | _ => false) = true := by decide +kernel
    cases h : drive exSameJoins with
    | ok st => rw [h] at this; simp at this
    | error e => cases e <;> rw [h] at this <;> simp at this ⊢

/-- The loop of `exLoop` with the exit at the latch: `w` is live at the end of the latch, but not into the header. -/
def exLatchExit : Component where
  blocks := [⟨"E", [], [], [], some "H", none, "unconditional", "", [], []⟩,
    ⟨"H", ["E", "L"], ["E", "L"], [⟨"i", ["i0", "i1"]⟩], some "L", none, "unconditional", "", [], []⟩,
    ⟨"L", ["H"], [], [], some "H", some "X", "conditional", "", [], ["t", "c"]⟩,
    ⟨"X", ["L"], [], [], none, none, "terminal", "", [], ["w"]⟩]
  start := "E"
  inputs := ["n", "m"]
  main := false
  junk := true
  inLoop := fun b => b == "H" || b == "L"
  liveIn := fun b => if b = "E" then ["n"] else if b = "X" then ["w"] else ["i", "n"]
  liveOut := fun b => if b = "E" then ["i0", "n"] else if b = "H" then ["i", "n"] else if b = "L" then ["i1", "n", "w"] else []
  depth := fun _ _ => [0]
  level := fun b => if b = "E" then some 0 else if b = "H" then some 1 else if b = "L" then some 2 else if b = "X" then some 3 else none
  domPath := fun p q => if p = q then some [p] else if p = "E" ∧ q = "L" then some ["E", "H", "L"] else none

/-- **The assertion does fail.** For a loop that is left from the latch, with a value computed in the loop and used after it, no
layouts are constructed: the assertion of `unify_stacks_dominant` fails. -/
theorem latch_exit_fails : WellFormed exLatchExit ∧ OneJoin exLatchExit ∧
    (match drive exLatchExit with | .error .assertion => True | _ => False) := by
  refine ⟨?_, ?_, ?_⟩
  · constructor <;> decide +kernel
  · unfold OneJoin; decide +kernel
  · have : (match drive exLatchExit with | .error .assertion => true | _ => false) = true := by decide +kernel
    cases h : drive exLatchExit with
    | ok st => rw [h] at this; simp at this
    | error e => cases e <;> rw [h] at this <;> simp at this ⊢

end Grey.Layout
