/-
Two ways in which a cell that the reparation has chosen holds another value when it is loaded: findings 33 and 34 of DESIGN.md. They are the reason for the conditions `released` and
`recursion` of C95.
-/
import Verif.Repair.Program
namespace Grey.RepairAll
open List Grey.Repair

/-! ### Specification -/

/-- The memory is followed along executed instructions, each with the number of the activation it belongs to: a cell contains the variable, and the activation, that was stored
in it last. `none` if a load finds something else than its own variable of its own activation. -/
def cellsAlong (colour : String → Option Nat) : List (Nat × RId) → (Nat → Option (Nat × String)) → Option (Nat → Option (Nat × String))
  | [], m => some m
  | (k, .get v) :: is, m => if (colour v).bind m = some (k, v) then cellsAlong colour is m else none
  | (k, .set v) :: is, m => cellsAlong colour is fun a => if colour v = some a then some (k, v) else m a
  | (k, .dupSet v _) :: is, m => cellsAlong colour is fun a => if colour v = some a then some (k, v) else m a
  | (_, .other _) :: is, m => cellsAlong colour is m

/-- The loads of the blocks with these names find their variables, if the blocks are executed one after the other from the beginning; `k` is the activation. -/
def FindsAll (names : List String) (f : DomForest) (colour : String → Option Nat) (path : List (Nat × String)) : Prop :=
  ((cellsAlong colour (path.flatMap fun p => ((((names.zip (scanned f)).lookup p.2).map (·.ids)).getD []).map (p.1, ·)) fun _ => none).isSome) = true

instance (names : List String) (f : DomForest) (colour : String → Option Nat) (path : List (Nat × String)) : Decidable (FindsAll names f colour path) :=
  inferInstanceAs (Decidable (_ = true))

/-! ### A variable that is needed again by the next iteration -/

/-- `v` comes from before the loop and is too deep in the body; `u` is computed in the body and is too deep when it is needed there. -/
def loopTab : List SymExec.UInstr := [⟨"ADD_0", ["v", "x1"], ["u"], true, false, "ADD"⟩, ⟨"SSTORE_0", ["u", "x2"], [], false, true, "SSTORE"⟩, ⟨"SLOAD_0", ["x3"], ["v"], false, false, "SLOAD"⟩]

def deepStack : List String := ["x1", "x2", "x3", "x4", "x5", "x6", "x7", "x8", "x9", "y1", "y2", "y3", "y4", "y5", "y6", "y7", "v"]

/-- The schedule of the body: load `v`, add, sixteen copies of values, load `u`, store. -/
def bodyIds : List String := ["VGET(v)", "ADD_0"] ++ replicate 15 "DUP16" ++ ["DUP1", "VGET(u)", "SSTORE_0"]

/-- Before the loop, the head and the body of the loop, with the reachability that the code computes; `v` is defined outside of the loop and `u` inside. -/
def beforeLoop : CBlock := ⟨"a", ["SLOAD_0"], [], (reachability 16 loopTab ["SLOAD_0"] ["x3", "x4"] none).getD fun _ => none, fun v => v == "v", [], [], []⟩
def headLoop : CBlock := ⟨"h", [], [], (reachability 16 loopTab [] deepStack none).getD fun _ => none, fun v => v == "u", [], [], []⟩
def bodyLoop : CBlock := ⟨"b", bodyIds, [], (reachability 16 loopTab bodyIds deepStack none).getD fun _ => none, fun v => v == "u", [], [], []⟩

def loopList : RList := ⟨beforeLoop, .node headLoop (.node bodyLoop .nil .nil) .nil, {}, fun _ => none, fun _ => loopTab, fun _ _ => []⟩

/-- The tree with the inserted stores. -/
def loopForest : DomForest := (insertTree (loaded loopList.tree).dedup loopList.tree (storeAll (sTree loopList.tree)).1).getD .nil

def loopColour : String → Option Nat := (treeScan loopList.web loopForest (numCells loopList.tree loopList.webs)).getD fun _ => none

theorem loopForest_inserted : Inserted loopList.tree (storeAll (sTree loopList.tree)).1 loopForest := by
  obtain ⟨f, hf⟩ := Option.isSome_iff_exists.1 (by decide +kernel : (insertTree (loaded loopList.tree).dedup loopList.tree (storeAll (sTree loopList.tree)).1).isSome = true)
  rw [show loopForest = f by unfold loopForest; rw [hf]; rfl]
  exact insertTree_inserted (nodup_dedup _) (stored_loaded _) hf

/-- **Finding 33.** The reparation can give the cell of a variable that is needed again by the next iteration of a loop to another variable: the scan ends with cells for this
component (a block before a loop that computes `v`, the head, and the body of the loop, which loads `v` and then stores and loads `u`), all loads find their variables in the first
iteration, and in the second iteration a load of `v` finds `u`. -/
theorem cell_reused_in_loop : ∃ (l : RList) (f : DomForest) (colour : String → Option Nat), Inserted l.tree (storeAll (sTree l.tree)).1 f ∧ treeScan l.web f (numCells l.tree l.webs) = some colour ∧
    (nodes l.tree).map (·.id) = ["a", "h", "b"] ∧ FindsAll ["a", "h", "b"] f colour [(0, "a"), (0, "h"), (0, "b")] ∧
    ¬ FindsAll ["a", "h", "b"] f colour [(0, "a"), (0, "h"), (0, "b"), (0, "h"), (0, "b")] := by
  refine ⟨loopList, loopForest, loopColour, loopForest_inserted, ?_, by decide +kernel, by decide +kernel, by decide +kernel⟩
  obtain ⟨c, hc⟩ := Option.isSome_iff_exists.1 (by decide +kernel : (treeScan loopList.web loopForest (numCells loopList.tree loopList.webs)).isSome = true)
  unfold loopColour
  rw [hc]
  rfl

/-! ### A variable that is kept across a call of the same function -/

def recTab : List SymExec.UInstr := [⟨"SLOAD_0", ["x3"], ["v"], false, false, "SLOAD"⟩, ⟨"SSTORE_0", ["v", "x1"], [], false, true, "SSTORE"⟩]

/-- The first block of a function computes `v` and calls the function; the second one needs `v`, which is too deep then. -/
def callBlock : CBlock := ⟨"a", ["SLOAD_0"], [], (reachability 16 recTab ["SLOAD_0"] ["x3", "x4"] none).getD fun _ => none, fun _ => true, [], [], []⟩
def afterCall : CBlock := ⟨"b", ["VGET(v)", "SSTORE_0"], [], (reachability 16 recTab ["VGET(v)", "SSTORE_0"] deepStack none).getD fun _ => none, fun _ => true, [], [], []⟩

def recList : RList := ⟨callBlock, .node afterCall .nil .nil, {}, fun _ => none, fun _ => recTab, fun _ _ => []⟩

def recForest : DomForest := (insertTree (loaded recList.tree).dedup recList.tree (storeAll (sTree recList.tree)).1).getD .nil

def recColour : String → Option Nat := (treeScan recList.web recForest (numCells recList.tree recList.webs)).getD fun _ => none

/-- **Finding 34.** The cells are fixed addresses, also in a function that calls itself: if the blocks of the called activation (1) are executed between the two blocks of the
calling one (0), the load after the call finds the variable of the called activation. -/
theorem cell_overwritten_by_recursion : ∃ (l : RList) (f : DomForest) (colour : String → Option Nat), Inserted l.tree (storeAll (sTree l.tree)).1 f ∧ treeScan l.web f (numCells l.tree l.webs) = some colour ∧
    (nodes l.tree).map (·.id) = ["a", "b"] ∧ FindsAll ["a", "b"] f colour [(0, "a"), (0, "b")] ∧
    ¬ FindsAll ["a", "b"] f colour [(0, "a"), (1, "a"), (1, "b"), (0, "b")] := by
  refine ⟨recList, recForest, recColour, ?_, ?_, by decide +kernel, by decide +kernel, by decide +kernel⟩
  · obtain ⟨f, hf⟩ := Option.isSome_iff_exists.1 (by decide +kernel : (insertTree (loaded recList.tree).dedup recList.tree (storeAll (sTree recList.tree)).1).isSome = true)
    rw [show recForest = f by unfold recForest; rw [hf]; rfl]
    exact insertTree_inserted (nodup_dedup _) (stored_loaded _) hf
  · obtain ⟨c, hc⟩ := Option.isSome_iff_exists.1 (by decide +kernel : (treeScan recList.web recForest (numCells recList.tree recList.webs)).isSome = true)
    unfold recColour
    rw [hc]
    rfl

end Grey.RepairAll
