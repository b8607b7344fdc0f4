/-
C99: the table with the numbers of functions and calls of the objects (src/analysis/solution_analysis.py:11-44, src/execution/main_execution.py:158-159).
-/
import Mathlib.Data.List.Forall2
namespace Grey.Frequency
open List

/-! ### Model -/

/-- A list of blocks: its name and, for each block, the operations of its instructions (src/parser/cfg_block_list.py:16-30, src/parser/cfg_block.py:70-82). -/
structure BlockList where
  name : String
  blocks : List (List String)
  deriving DecidableEq, Repr

/-- The objects of a graph in their order, each with its name, the names of its functions, its main blocks, the blocks of its functions, and the objects of the
graph below it (src/parser/cfg.py:22-40, src/parser/cfg_object.py:12-22). An object without a graph below it has none there, for which the code adds no rows, too. -/
inductive Objects where
  | nil
  | obj (name : String) (functions : List String) (main : BlockList) (bodies : List BlockList) (below rest : Objects)
  deriving DecidableEq, Repr

/-- A row of the table (src/analysis/solution_analysis.py:26-27), without the name of the contract, which is the same in all rows. -/
structure Row where
  object : String
  numFunctions : Nat
  numCalls : Nat
  deriving DecidableEq, Repr

/-- `block.instructions_without_phi_functions()` (src/parser/cfg_block.py:164-165). -/
def withoutPhis (b : List String) : List String := b.filter fun op => op != "PhiFunction"

/-- A `Counter`: the counted names, each as often as it has been counted. -/
abbrev Counter := List String

/-- The loop over the instructions of a block (src/analysis/solution_analysis.py:42-44). -/
def countBlock (functions : List String) (name : String) : List String → Counter → Counter
  | [], c => c
  | op :: ops, c => countBlock functions name ops (if op ∈ functions then name :: c else c)

/-- `generate_function2blocks_block_list` (src/analysis/solution_analysis.py:36-44). -/
def countList (functions : List String) (l : BlockList) (c : Counter) : Counter :=
  l.blocks.foldl (fun c b => countBlock functions l.name (withoutPhis b) c) c

/-- The loop over the objects in `function_frequency` (src/analysis/solution_analysis.py:18-33). The counter `c` is created once, before the loop
(line 16); the call for the graph below has its own. -/
def frequencyLoop : Objects → Counter → List Row
  | .nil, _ => []
  | .obj name functions main bodies below rest, c =>
    let c := bodies.foldl (fun c l => countList functions l c) (countList functions main c)
    ⟨name, functions.length, c.length⟩ :: (frequencyLoop below [] ++ frequencyLoop rest c)

/-- `function_frequency` (src/analysis/solution_analysis.py:11-33). -/
def functionFrequency (o : Objects) : List Row := frequencyLoop o []

/-! ### Specification -/

/-- The instructions of an object that call one of its functions. -/
def callsOf (functions : List String) (main : BlockList) (bodies : List BlockList) : List String :=
  ((main :: bodies).flatMap fun l => l.blocks.flatten).filter fun op => decide (op ≠ "PhiFunction" ∧ op ∈ functions)

/-- What the table should be: one row for each object, an object before those below it, with the number of its functions and of their calls in it. -/
def table : Objects → List Row
  | .nil => []
  | .obj name functions main bodies below rest => ⟨name, functions.length, (callsOf functions main bodies).length⟩ :: (table below ++ table rest)

/-- No object has a sibling after it in the same graph, unless nothing is called in it. -/
def Alone : Objects → Prop
  | .nil => True
  | .obj _ functions main bodies below rest => (callsOf functions main bodies = [] ∨ rest = .nil) ∧ Alone below ∧ Alone rest

/-! ### Proofs -/

theorem countBlock_length (functions : List String) (name : String) : ∀ (ops : List String) (c : Counter),
    (countBlock functions name ops c).length = (ops.filter fun op => decide (op ∈ functions)).length + c.length := by
  intro ops
  induction ops with
  | nil => intro c; simp [countBlock]
  | cons op ops ih =>
    intro c
    rw [countBlock, ih, filter_cons]
    by_cases h : op ∈ functions
    · simp only [h, if_true, decide_true, length_cons]; omega
    · simp only [h, if_false, decide_false, Bool.false_eq_true]

theorem countBlocks_length (functions : List String) (name : String) : ∀ (bs : List (List String)) (c : Counter),
    (bs.foldl (fun c b => countBlock functions name (withoutPhis b) c) c).length =
      (bs.flatten.filter fun op => decide (op ≠ "PhiFunction" ∧ op ∈ functions)).length + c.length := by
  intro bs
  induction bs with
  | nil => intro c; simp
  | cons b bs ih =>
    intro c
    rw [foldl_cons, ih, countBlock_length, flatten_cons, filter_append, length_append]
    have : (withoutPhis b).filter (fun op => decide (op ∈ functions)) = b.filter fun op => decide (op ≠ "PhiFunction" ∧ op ∈ functions) := by
      unfold withoutPhis
      rw [filter_filter]
      refine filter_congr fun op _ => ?_
      by_cases h1 : op = "PhiFunction" <;> by_cases h2 : op ∈ functions <;> simp [h1, h2]
    rw [this]
    omega

theorem countLists_length (functions : List String) : ∀ (ls : List BlockList) (c : Counter),
    (ls.foldl (fun c l => countList functions l c) c).length =
      ((ls.flatMap fun l => l.blocks.flatten).filter fun op => decide (op ≠ "PhiFunction" ∧ op ∈ functions)).length + c.length := by
  intro ls
  induction ls with
  | nil => intro c; simp
  | cons l ls ih =>
    intro c
    rw [foldl_cons, ih, countList, countBlocks_length, flatMap_cons, filter_append, length_append]
    omega

theorem object_length (functions : List String) (main : BlockList) (bodies : List BlockList) (c : Counter) :
    (bodies.foldl (fun c l => countList functions l c) (countList functions main c)).length = (callsOf functions main bodies).length + c.length :=
  countLists_length functions (main :: bodies) c

theorem loop_rows : ∀ (o : Objects) (c : Counter),
    Forall₂ (fun r r' => r.object = r'.object ∧ r.numFunctions = r'.numFunctions ∧ r'.numCalls ≤ r.numCalls) (frequencyLoop o c) (table o) := by
  intro o
  induction o with
  | nil => intro c; exact .nil
  | obj name functions main bodies below rest ih1 ih2 =>
    intro c
    refine .cons ⟨rfl, rfl, ?_⟩ (rel_append (ih1 []) (ih2 _))
    show (callsOf functions main bodies).length ≤ (bodies.foldl (fun c l => countList functions l c) (countList functions main c)).length
    rw [object_length]
    omega

/-- **C99.** The table has one row for each object, in order, with its name and the number of its functions, and at least as many calls as there are. -/
theorem table_rows (o : Objects) :
    Forall₂ (fun r r' => r.object = r'.object ∧ r.numFunctions = r'.numFunctions ∧ r'.numCalls ≤ r.numCalls) (functionFrequency o) (table o) := loop_rows o []

theorem loop_right : ∀ (o : Objects) (c : Counter), frequencyLoop o c = table o ↔ (o = .nil ∨ c = []) ∧ Alone o := by
  intro o
  induction o with
  | nil => intro c; simp [frequencyLoop, table, Alone]
  | obj name functions main bodies below rest ih1 ih2 =>
    intro c
    have hl := object_length functions main bodies c
    have hc : (callsOf functions main bodies).length + c.length = (callsOf functions main bodies).length ↔ c = [] := by
      rw [← length_eq_zero_iff]; omega
    have hn : bodies.foldl (fun c l => countList functions l c) (countList functions main c) = [] ↔ callsOf functions main bodies = [] ∧ c = [] := by
      rw [← length_eq_zero_iff, hl, ← length_eq_zero_iff, ← length_eq_zero_iff]; omega
    have ha : frequencyLoop below [] ++ frequencyLoop rest (bodies.foldl (fun c l => countList functions l c) (countList functions main c)) = table below ++ table rest ↔
        Alone below ∧ (rest = .nil ∨ callsOf functions main bodies = [] ∧ c = []) ∧ Alone rest := by
      rw [(show ∀ {a b c d : List Row}, a.length = c.length → (a ++ b = c ++ d ↔ a = c ∧ b = d) from fun h => ⟨fun e => append_inj e h, fun ⟨e1, e2⟩ => by rw [e1, e2]⟩)
        (loop_rows below []).length_eq, ih1, ih2, hn]
      simp
    rw [frequencyLoop, table, Alone]
    simp only [cons.injEq, Row.mk.injEq, true_and, hl, hc, ha, reduceCtorEq, false_or]
    constructor
    · rintro ⟨h1, h2, h3, h4⟩
      refine ⟨h1, ?_, h2, h4⟩
      rcases h3 with h | h
      · exact .inr h
      · exact .inl h.1
    · rintro ⟨h1, h2, h3, h4⟩
      refine ⟨h1, h3, ?_, h4⟩
      rcases h2 with h | h
      · exact .inr ⟨h, h1⟩
      · exact .inl h

/-- **C99.** The table is right exactly when no object in which something is called has a sibling after it. -/
theorem table_right_iff (o : Objects) : functionFrequency o = table o ↔ Alone o := by
  rw [functionFrequency, loop_right]
  simp

/-! ### Examples -/

/-- A contract with the object that it deploys: `f` is called once in the main blocks, once in `f`, and twice below. -/
def deployed : Objects :=
  .obj "C" ["f"] ⟨"C", [["add", "f"], ["PhiFunction", "sstore"]]⟩ [⟨"f", [["f"]]⟩] (.obj "C_deployed" ["g", "h"] ⟨"C_deployed", [["g", "h", "mul"]]⟩ [] .nil .nil) .nil

/-- It meets the condition of `table_right_iff`. -/
example : Alone deployed ∧ functionFrequency deployed = [⟨"C", 1, 2⟩, ⟨"C_deployed", 2, 2⟩] := by
  refine ⟨(table_right_iff _).1 (by decide), by decide⟩

/-- A contract that also creates another one: the calls of the first object below are counted again for the second, which has no functions at all. -/
theorem table_wrong : functionFrequency (.obj "C" ["f"] ⟨"C", [["f"]]⟩ []
      (.obj "C_deployed" ["g"] ⟨"C_deployed", [["g", "g"]]⟩ [] .nil (.obj "D" [] ⟨"D", [["add"]]⟩ [] .nil .nil)) .nil) =
    [⟨"C", 1, 1⟩, ⟨"C_deployed", 1, 2⟩, ⟨"D", 0, 2⟩] := by decide

end Grey.Frequency
