/-
The blocks in which values are stored (src/reparation/insert_placeholders.py:187-275): C46.
-/
import Mathlib.Data.List.Nodup
namespace Grey.Repair
open List

/-! ### Model -/

/-- The dominance tree, with siblings in order. -/
inductive DTree (α : Type) where
  | nil
  | node (a : α) (children rest : DTree α)

/-- What is read of a block: `get_count` (how many loads of each variable are not solved in the block), the keys of `reachable`, and
the result of `within_loop` for the block. Dictionaries and sets are functions: the order of their elements has no effect here. -/
structure SBlock where
  count : String → Nat
  reach : String → Bool
  inLoop : String → Bool

/-- src/reparation/insert_placeholders.py:208-223 -/
def totalCount : DTree SBlock → String → Nat
  | .nil, _ => 0
  | .node b ch rest, v => b.count v + totalCount ch v + totalCount rest v

/-- The results of the calls for the trees of a list of siblings: the trees with the variables stored in each block, `initial_get_counter`
afterwards, and the joined variables to introduce and counters. -/
structure SRes where
  tree : DTree (SBlock × (String → Bool))
  left : String → Nat
  vars : String → Bool
  count : String → Nat

/-- A variable all whose remaining loads are counted (`substract_zero`, src/reparation/insert_placeholders.py:187-205, called with the counter of the
block and of its children, 244-257). -/
def popped (r : SRes) (b : SBlock) (v : String) : Bool := decide (0 < r.count v + b.count v ∧ r.left v = r.count v + b.count v)

/-- src/reparation/insert_placeholders.py:230-275, for a list of siblings. -/
def storeTree : DTree SBlock → (String → Nat) → SRes
  | .nil, left => ⟨.nil, left, fun _ => false, fun _ => 0⟩
  | .node b ch rest, left =>
    let r := storeTree ch left
    let vars := fun v => r.vars v || popped r b v
    let stored := fun v => vars v && b.reach v && b.inLoop v
    let r' := storeTree rest (fun v => if popped r b v then 0 else r.left v)
    ⟨.node (b, stored) r.tree r'.tree, r'.left, fun v => (vars v && !stored v) || r'.vars v, fun v => (if popped r b v then 0 else r.count v + b.count v) + r'.count v⟩

/-- The whole tree (src/reparation/insert_placeholders.py:222-223): the stores of each block, and the variables that are never stored
(the code ignores them). -/
def storeAll (t : DTree SBlock) : DTree (SBlock × (String → Bool)) × (String → Bool) :=
  ((storeTree t (totalCount t)).tree, (storeTree t (totalCount t)).vars)

/-! ### Specification -/

/-- A block of a tree, with its ancestors from the root. -/
inductive Node {α : Type} : DTree α → List α → α → Prop where
  | here (a : α) (ch rest : DTree α) : Node (.node a ch rest) [] a
  | inside (a : α) (ch rest : DTree α) (anc : List α) (a' : α) : Node ch anc a' → Node (.node a ch rest) (a :: anc) a'
  | next (a : α) (ch rest : DTree α) (anc : List α) (a' : α) : Node rest anc a' → Node (.node a ch rest) anc a'

/-- The blocks of a tree, in order. -/
def nodes {α : Type} : DTree α → List α
  | .nil => []
  | .node a ch rest => a :: nodes ch ++ nodes rest

/-- The number of stores of a variable. -/
def numStores (t : DTree (SBlock × (String → Bool))) (v : String) : Nat := ((nodes t).filter fun a => a.2 v).length

/-! ### Proofs -/

/-- What happens with a variable in a list of siblings: nothing has been decided yet, or all its loads are there, and it is either
waiting to be stored or stored once, in a place that dominates all loads. -/
def Outcome (t : DTree SBlock) (left : String → Nat) (v : String) : Prop :=
  ((storeTree t left).left v = left v ∧ (storeTree t left).count v = totalCount t v ∧ (storeTree t left).vars v = false ∧
    numStores (storeTree t left).tree v = 0) ∨
  (left v = totalCount t v ∧ (storeTree t left).left v = 0 ∧ (storeTree t left).count v = 0 ∧
    (((storeTree t left).vars v = true ∧ numStores (storeTree t left).tree v = 0) ∨
     ((storeTree t left).vars v = false ∧ numStores (storeTree t left).tree v = 1 ∧
      ∀ anc a, Node (storeTree t left).tree anc a → 0 < a.1.count v → ∃ a' ∈ anc ++ [a], a'.2 v = true)))

theorem numStores_node (a : SBlock × (String → Bool)) (ch rest : DTree (SBlock × (String → Bool))) (v : String) :
    numStores (.node a ch rest) v = (if a.2 v then 1 else 0) + numStores ch v + numStores rest v := by
  unfold numStores
  rw [nodes, cons_append, filter_cons, filter_append]
  split
  · rw [length_cons, length_append]; omega
  · rw [length_append]; omega

theorem node_blocks {t : DTree SBlock} {left : String → Nat} {anc : List (SBlock × (String → Bool))} {a : SBlock × (String → Bool)}
    (h : Node (storeTree t left).tree anc a) {v : String} (hc : 0 < a.1.count v) : 0 < totalCount t v := by
  induction t generalizing left anc a with
  | nil => simp only [storeTree] at h; cases h
  | node b ch rest ih1 ih2 =>
    simp only [storeTree] at h
    rw [totalCount]
    cases h with
    | here => simp only at hc; omega
    | inside _ _ _ anc _ h => have := ih1 h hc; omega
    | next _ _ _ _ _ h => have := ih2 h hc; omega

theorem storeTree_zero (v : String) : ∀ (t : DTree SBlock) (left : String → Nat), totalCount t v = 0 →
    (storeTree t left).left v = left v ∧ (storeTree t left).count v = 0 ∧ (storeTree t left).vars v = false ∧ numStores (storeTree t left).tree v = 0 := by
  intro t
  induction t with
  | nil => intro left _; exact ⟨rfl, rfl, rfl, rfl⟩
  | node b ch rest ih1 ih2 =>
    intro left h
    rw [totalCount] at h
    obtain ⟨h1, h2, h3, h4⟩ := ih1 left (by omega)
    have hp : popped (storeTree ch left) b v = false := by
      rw [popped, decide_eq_false_iff_not]; omega
    simp only [storeTree]
    obtain ⟨g1, g2, g3, g4⟩ := ih2 (fun v => if popped (storeTree ch left) b v = true then 0 else (storeTree ch left).left v) (by omega)
    rw [g1, g2, g3, numStores_node, g4, h4, h2, h3]
    have hb : b.count v = 0 := by omega
    simp [hb, h1, hp, h3]

theorem storeTree_outcome (v : String) : ∀ (t : DTree SBlock) (left : String → Nat), totalCount t v ≤ left v → 0 < left v → Outcome t left v := by
  intro t
  induction t with
  | nil => intro left _ _; exact .inl ⟨rfl, rfl, rfl, rfl⟩
  | node b ch rest ih1 ih2 =>
    intro left hle hpos
    rw [totalCount] at hle
    -- the rest, when the variable is decided
    have hrest0 : totalCount rest v = 0 → ∀ left', (storeTree rest left').left v = left' v ∧ (storeTree rest left').count v = 0 ∧
        (storeTree rest left').vars v = false ∧ numStores (storeTree rest left').tree v = 0 := fun h left' => storeTree_zero v rest left' h
    have hnorest : totalCount rest v = 0 → ∀ left' anc a, Node (storeTree rest left').tree anc a → ¬ 0 < a.1.count v := by
      intro h left' anc a hn hc
      have := node_blocks hn hc
      omega
    rcases ih1 left (by omega) hpos with ⟨h1, h2, h3, h4⟩ | ⟨h0, h1, h2, h3⟩
    · -- not decided in the children
      by_cases hp : left v = totalCount ch v + b.count v
      · -- decided here
        have hdec : popped (storeTree ch left) b v = true := by
          rw [popped, decide_eq_true_eq, h1, h2]; omega
        have hr : totalCount rest v = 0 := by omega
        right
        simp only [storeTree]
        obtain ⟨g1, g2, g3, g4⟩ := hrest0 hr (fun v => if popped (storeTree ch left) b v = true then 0 else (storeTree ch left).left v)
        refine ⟨by rw [totalCount]; omega, by rw [g1]; simp only [hdec, if_true], by rw [g2]; simp only [hdec, if_true], ?_⟩
        rw [g3, numStores_node, g4, h4]
        simp only [hdec, Bool.or_true, Bool.true_and, Bool.or_false, Nat.add_zero]
        cases hs : (b.reach v && b.inLoop v) with
        | false => left; simp
        | true =>
          right
          refine ⟨by simp, by simp, ?_⟩
          intro anc a hn hc
          cases hn with
          | here =>
            refine ⟨_, by rw [nil_append]; exact mem_singleton.2 rfl, ?_⟩
            simp only [hdec, Bool.or_true, Bool.true_and]
            exact hs
          | inside _ _ _ anc _ hn =>
            refine ⟨_, by rw [cons_append]; exact mem_cons_self, ?_⟩
            simp only [hdec, Bool.or_true, Bool.true_and]
            exact hs
          | next _ _ _ _ _ hn => exact absurd hc (hnorest hr _ _ _ hn)
      · -- not decided here
        have hdec : popped (storeTree ch left) b v = false := by
          rw [popped, decide_eq_false_iff_not, h1, h2]; omega
        have hl : (fun v => if popped (storeTree ch left) b v = true then 0 else (storeTree ch left).left v) v = left v := by
          simp only [hdec]; simpa using h1
        have hout := ih2 (fun v => if popped (storeTree ch left) b v = true then 0 else (storeTree ch left).left v) (by have := hl; simp only at this ⊢; rw [this]; omega) (by have := hl; simp only at this ⊢; rw [this]; omega)
        unfold Outcome at hout
        rw [hl] at hout
        unfold Outcome
        simp only [storeTree]
        rw [numStores_node, h4, totalCount]
        simp only [hdec, h3, h2, Bool.or_self, Bool.false_and, Bool.false_or, Bool.false_eq_true, if_false, Nat.zero_add]
        rcases hout with ⟨g1, g2, g3, g4⟩ | ⟨g0, g1, g2, g3⟩
        · exact .inl ⟨g1, by rw [g2]; omega, g3, g4⟩
        · have hz : totalCount ch v = 0 ∧ b.count v = 0 := by omega
          refine .inr ⟨by omega, g1, by rw [g2]; omega, ?_⟩
          rcases g3 with g3 | ⟨g3, g4, g5⟩
          · exact .inl g3
          · refine .inr ⟨g3, g4, ?_⟩
            intro anc a hn hc
            cases hn with
            | here => simp only at hc; omega
            | inside _ _ _ anc _ hn => have := node_blocks hn hc; omega
            | next _ _ _ _ _ hn => exact g5 _ _ hn hc
    · -- decided in the children
      have hr : totalCount rest v = 0 := by omega
      have hb : b.count v = 0 := by omega
      have hdec : popped (storeTree ch left) b v = false := by
        rw [popped, decide_eq_false_iff_not, h2]; omega
      right
      simp only [storeTree]
      obtain ⟨g1, g2, g3, g4⟩ := hrest0 hr (fun v => if popped (storeTree ch left) b v = true then 0 else (storeTree ch left).left v)
      refine ⟨by rw [totalCount]; omega, by rw [g1]; simp only [hdec]; simpa using h1, by rw [g2]; simp only [hdec]; simp [h2, hb], ?_⟩
      rw [g3, numStores_node, g4]
      simp only [hdec, Bool.or_false, Nat.add_zero]
      rcases h3 with ⟨h3, h4⟩ | ⟨h3, h4, h5⟩
      · rw [h3, h4]
        simp only [Bool.true_and]
        cases hs : (b.reach v && b.inLoop v) with
        | false => left; simp
        | true =>
          right
          refine ⟨by simp, by simp, ?_⟩
          intro anc a hn hc
          cases hn with
          | here => simp only at hc; omega
          | inside _ _ _ anc _ hn =>
            refine ⟨_, by rw [cons_append]; exact mem_cons_self, ?_⟩
            simp only [h3, Bool.true_or, Bool.true_and]
            exact hs
          | next _ _ _ _ _ hn => exact absurd hc (hnorest hr _ _ _ hn)
      · rw [h3, h4]
        right
        refine ⟨by simp, by simp, ?_⟩
        intro anc a hn hc
        cases hn with
        | here => simp only at hc; omega
        | inside _ _ _ anc _ hn =>
          obtain ⟨a', ha', hs⟩ := h5 _ _ hn hc
          exact ⟨a', by rw [cons_append]; exact mem_cons_of_mem _ ha', hs⟩
        | next _ _ _ _ _ hn => exact absurd hc (hnorest hr _ _ _ hn)

/-- The tree of the results has the same blocks. -/
theorem storeTree_blocks : ∀ (t : DTree SBlock) (left : String → Nat), (nodes (storeTree t left).tree).map (·.1) = nodes t := by
  intro t
  induction t with
  | nil => intro left; rfl
  | node b ch rest ih1 ih2 =>
    intro left
    simp only [storeTree, nodes, cons_append, map_cons, map_append]
    rw [ih1, ih2]

theorem storeTree_reach {v : String} : ∀ (t : DTree SBlock) (left : String → Nat) (a : SBlock × (String → Bool)), a ∈ nodes (storeTree t left).tree →
    a.2 v = true → a.1.reach v = true ∧ a.1.inLoop v = true := by
  intro t
  induction t with
  | nil => intro left a ha; cases ha
  | node b ch rest ih1 ih2 =>
    intro left a ha hs
    simp only [storeTree, nodes, cons_append, mem_cons, mem_append] at ha
    rcases ha with rfl | ha | ha
    · simp only [Bool.and_eq_true] at hs
      exact ⟨hs.1.2, hs.2⟩
    · exact ih1 _ a ha hs
    · exact ih2 _ a ha hs

/-- **C46.** The blocks stay the same. A variable that is loaded somewhere is either one of those given up, and then it is not stored at all, or it is
stored exactly once, in a block that dominates all the blocks with unsolved loads of it. A variable that is never loaded is not stored. A variable
is only stored in a block where it can be reached on the stack and that is in the same loop as its definition. -/
theorem stores_dominate_loads (b : SBlock) (ch : DTree SBlock) (v : String) :
    (nodes (storeAll (.node b ch .nil)).1).map (·.1) = nodes (.node b ch .nil) ∧
    (0 < totalCount (.node b ch .nil) v →
      ((storeAll (.node b ch .nil)).2 v = true ∧ numStores (storeAll (.node b ch .nil)).1 v = 0) ∨
      ((storeAll (.node b ch .nil)).2 v = false ∧ numStores (storeAll (.node b ch .nil)).1 v = 1 ∧
        ∀ anc a, Node (storeAll (.node b ch .nil)).1 anc a → 0 < a.1.count v → ∃ a' ∈ anc ++ [a], a'.2 v = true)) ∧
    (totalCount (.node b ch .nil) v = 0 → numStores (storeAll (.node b ch .nil)).1 v = 0 ∧ (storeAll (.node b ch .nil)).2 v = false) ∧
    ∀ a ∈ nodes (storeAll (.node b ch .nil)).1, a.2 v = true → a.1.reach v = true ∧ a.1.inLoop v = true := by
  refine ⟨storeTree_blocks _ _, ?_, ?_, fun a ha hs => storeTree_reach _ _ a ha hs⟩
  · intro hpos
    rcases storeTree_outcome v (.node b ch .nil) (totalCount (.node b ch .nil)) (Nat.le_refl _) hpos with ⟨h1, h2, h3, h4⟩ | ⟨_, _, _, h⟩
    · exfalso
      -- at the root all loads have been seen
      have hn : 0 < totalCount ch v + b.count v := by rw [totalCount, totalCount] at hpos; omega
      have hle : totalCount ch v ≤ totalCount (.node b ch .nil) v := by rw [totalCount]; omega
      simp only [storeTree] at h1 h2
      rcases storeTree_outcome v ch (totalCount (.node b ch .nil)) hle hpos with ⟨g1, g2, _, _⟩ | ⟨g0, g1, g2, _⟩
      · have hdec : popped (storeTree ch (totalCount (.node b ch .nil))) b v = true := by
          rw [popped, decide_eq_true_eq, g1, g2, totalCount, totalCount]; omega
        simp only [hdec, if_true] at h1
        omega
      · rw [g1] at h1
        split at h1 <;> omega
    · exact h
  · intro h
    obtain ⟨_, _, h3, h4⟩ := storeTree_zero v _ (totalCount (.node b ch .nil)) h
    exact ⟨h4, h3⟩

/-! ### The theorem applies -/

def exBlk (l : List String) (reach : List String) (inLoop : List String) : SBlock := ⟨fun v => l.count v, fun v => reach.contains v, fun v => inLoop.contains v⟩

/-- `x` is loaded in two children, and stored in their parent; `y` is loaded in one child, where it can not be reached any more, its parent
is in a loop, and it is stored in the root; `z` is never reachable. -/
def exStore : DTree SBlock :=
  .node (exBlk [] ["x", "y"] ["x", "y", "z"])
    (.node (exBlk ["z"] ["x", "y"] ["x", "z"]) (.node (exBlk ["x", "y"] ["x"] ["x", "y", "z"]) .nil (.node (exBlk ["x", "x"] ["x"] ["x", "y", "z"]) .nil .nil)) .nil) .nil

example : (nodes (storeAll exStore).1).map (fun a => (a.2 "x", a.2 "y", a.2 "z")) =
    [(false, true, false), (true, false, false), (false, false, false), (false, false, false)] ∧
    (storeAll exStore).2 "z" = true ∧ (storeAll exStore).2 "x" = false := by decide +kernel

end Grey.Repair
