/-
The dominance tree of a component (src/graphs/algorithms.py:59-66, compute_dominance_tree), the levels of the blocks in it
(src/liveness/stack_layout_methods.py:71-75, compute_block_level) and the paths in it
(src/liveness/layout_generation.py:255-258): C83.

`networkx.immediate_dominators` and the paths of networkx are library functions: they are modelled by what their documentation says, not by the
library's algorithm. A graph is given by the successors of a node.
-/
import Verif.Graphs.Loops
import Verif.Common.Graph
import Mathlib.Data.List.Dedup
import Mathlib.Data.List.Chain
import Mathlib.Data.List.Perm.Subperm
namespace Grey.Graphs
open List

/-! ### Model -/

/-- The nodes that a path from the start reaches. -/
def reached (nodes : List String) (succ : String → List String) (s : String) : List String :=
  Graph.dfsAll succ (nodes.length + 1) [s] []

/-- Whether removing `a` cuts `b` off the start: `a` dominates `b`. -/
def cuts (nodes : List String) (succ : String → List String) (s a b : String) : Bool :=
  decide (s = a) || decide (b ∉ reached nodes (fun x => (succ x).filter fun y => decide (y ≠ a)) s)

/-- `networkx.immediate_dominators` (src/graphs/algorithms.py:63) at the key `b`: the dominator of `b`, other than `b`, that all others dominate.
`none` for the start, which has no edge into it in the tree (line 64), and for nodes that the start does not reach. -/
def idom (nodes : List String) (succ : String → List String) (s b : String) : Option String :=
  let R := reached nodes succ s
  if b ∈ R then
    R.find? fun d => decide (d ≠ b) && cuts nodes succ s d b && R.all fun e => decide (e = b) || !cuts nodes succ s e b || cuts nodes succ s e d
  else none

/-- The path from `a` to `b` in the dominance tree, found from its end. -/
def walkUp (up : String → Option String) (a : String) : Nat → String → Option (List String)
  | 0, _ => none
  | f + 1, b => if b = a then some [a] else (up b).bind fun d => (walkUp up a f d).map (· ++ [b])

/-- `nx.has_path` and `nx.shortest_path` in the dominance tree (src/liveness/layout_generation.py:255-258). A node that is not in the tree has no path
(the code raises an exception). -/
def domPath (nodes : List String) (succ : String → List String) (s a b : String) : Option (List String) :=
  if b ∈ reached nodes succ s then walkUp (idom nodes succ s) a (nodes.length + 1) b else none

/-- `compute_block_level` (src/liveness/stack_layout_methods.py:71-75): the number of edges from the start; `none`: no such key. -/
def level (nodes : List String) (succ : String → List String) (s b : String) : Option Nat :=
  (domPath nodes succ s s b).map fun p => p.length - 1

/-! ### Specification -/

/-- The start reaches `b`, and every path from the start to `b` goes through `a`. -/
def Dominates (succ : String → List String) (s a b : String) : Prop :=
  Graph.Reach succ s b ∧ ¬ PathAvoiding (fun x y => y ∈ succ x) a b s

/-- `d` is the immediate dominator of `b`: it dominates `b`, and all other dominators of `b` dominate it. -/
def IsIdom (succ : String → List String) (s d b : String) : Prop :=
  d ≠ b ∧ Dominates succ s d b ∧ ∀ e, e ≠ b → Dominates succ s e b → Dominates succ s e d

/-- A finite graph with a start. -/
structure Finite (nodes : List String) (succ : String → List String) (s : String) : Prop where
  start : s ∈ nodes
  closed : ∀ x ∈ nodes, ∀ y ∈ succ x, y ∈ nodes

/-! ### Dominance -/

section
variable {succ : String → List String} {s a b c : String}

theorem avoiding_split (h : PathAvoiding (fun x y => y ∈ succ x) a c s) (b : String) :
    PathAvoiding (fun x y => y ∈ succ x) b c s ∨ PathAvoiding (fun x y => y ∈ succ x) a b s := by
  induction h with
  | refl hne =>
    by_cases e : c = b
    · subst e; exact Or.inr (.refl hne)
    · exact Or.inl (.refl e)
  | step x y hx hxy _ ih =>
    rcases ih with ih | ih
    · by_cases e : x = b
      · subst e; exact Or.inr (.refl hx)
      · exact Or.inl (.step x y e hxy ih)
    · exact Or.inr (.step x y hx hxy ih)

theorem reach_of_avoiding (h : PathAvoiding (fun x y => y ∈ succ x) a c s) : Graph.Reach succ s c := by
  induction h with
  | refl _ => exact .refl
  | step x y _ hxy _ ih => exact .head hxy ih

theorem reach_split (h : Graph.Reach succ s b) (hab : a ≠ b) :
    PathAvoiding (fun x y => y ∈ succ x) a b s ∨ PathAvoiding (fun x y => y ∈ succ x) b a s := by
  induction h using Relation.ReflTransGen.head_induction_on with
  | refl => exact Or.inl (.refl (Ne.symm hab))
  | head hxy hyb ih =>
    rename_i x y
    by_cases e : x = a
    · subst e; exact Or.inr (.refl hab)
    · by_cases e' : x = b
      · subst e'; exact Or.inl (.refl (Ne.symm hab))
      · exact ih.imp (.step x y e hxy) (.step x y e' hxy)

theorem Dominates.refl (h : Graph.Reach succ s b) : Dominates succ s b b :=
  ⟨h, fun p => by
    have : ∀ x, PathAvoiding (fun x y => y ∈ succ x) b b x → False := fun x p => by
      induction p with
      | refl h => exact h rfl
      | step _ _ _ _ _ ih => exact ih
    exact this s p⟩

theorem Dominates.start (h : Graph.Reach succ s b) : Dominates succ s s b :=
  ⟨h, fun p => by cases p with
    | refl h => exact h rfl
    | step _ _ h => exact h rfl⟩

theorem Dominates.trans (h : Dominates succ s a b) (h' : Dominates succ s b c) : Dominates succ s a c :=
  ⟨h'.1, fun p => (avoiding_split p b).elim h'.2 h.2⟩

theorem Dominates.antisymm (h : Dominates succ s a b) (h' : Dominates succ s b a) : a = b := by
  by_contra hne
  exact (reach_split h.1 hne).elim h.2 h'.2

/-- A dominator is reached. -/
theorem Dominates.reached (h : Dominates succ s a b) : Graph.Reach succ s a := by
  by_cases e : a = b
  · exact e ▸ h.1
  · exact reach_of_avoiding ((reach_split h.1 e).resolve_left h.2)

/-- The dominators of a node are ordered. -/
theorem Dominates.total (h : Dominates succ s a b) (h' : Dominates succ s c b) : Dominates succ s a c ∨ Dominates succ s c a := by
  by_cases eab : a = b
  · subst eab; exact Or.inr h'
  by_cases ecb : c = b
  · subst ecb; exact Or.inl h
  by_cases eac : a = c
  · subst eac; exact Or.inl (.refl h.reached)
  -- the end of a path after the last of the two
  have key : ∀ x, Graph.Reach succ x b →
      (PathAvoiding (fun x y => y ∈ succ x) a b x ∧ PathAvoiding (fun x y => y ∈ succ x) c b x) ∨ PathAvoiding (fun x y => y ∈ succ x) c b a ∨
        PathAvoiding (fun x y => y ∈ succ x) a b c := by
    intro x hx
    induction hx using Relation.ReflTransGen.head_induction_on with
    | refl => exact Or.inl ⟨.refl (Ne.symm eab), .refl (Ne.symm ecb)⟩
    | head hxy hyb ih =>
      rename_i x y
      rcases ih with ⟨i1, i2⟩ | ih
      · by_cases e : x = a
        · subst e; exact Or.inr (Or.inl (.step x y eac hxy i2))
        · by_cases e' : x = c
          · subst e'; exact Or.inr (Or.inr (.step x y (Ne.symm eac) hxy i1))
          · exact Or.inl ⟨.step x y e hxy i1, .step x y e' hxy i2⟩
      · exact Or.inr ih
  have app : ∀ {v x y z : String}, PathAvoiding (fun x y => y ∈ succ x) v y x → PathAvoiding (fun x y => y ∈ succ x) v z y →
      PathAvoiding (fun x y => y ∈ succ x) v z x := by
    intro v x y z p q
    induction p with
    | refl _ => exact q
    | step x' y' hx hxy _ ih => exact .step x' y' hx hxy ih
  rcases key s h.1 with ⟨k, _⟩ | k | k
  · exact absurd k h.2
  · exact Or.inr ⟨h.reached, fun p => h'.2 (app p k)⟩
  · exact Or.inl ⟨h'.reached, fun p => h.2 (app p k)⟩

/-- Among finitely many dominators of a node there is one that all of them dominate. -/
theorem last_dominator : ∀ (l : List String), l ≠ [] → (∀ d ∈ l, Dominates succ s d b) → ∃ d ∈ l, ∀ e ∈ l, Dominates succ s e d
  | [], h, _ => absurd rfl h
  | [d], _, hd => ⟨d, by simp, fun e he => by rw [mem_singleton.1 he]; exact .refl (hd d (by simp)).reached⟩
  | d :: d' :: l, _, hd => by
    obtain ⟨m, hm, hall⟩ := last_dominator (d' :: l) (by simp) fun e he => hd e (mem_cons_of_mem _ he)
    rcases (hd d (by simp)).total (hd m (mem_cons_of_mem _ hm)) with h | h
    · refine ⟨m, mem_cons_of_mem _ hm, fun e he => ?_⟩
      rcases mem_cons.1 he with rfl | he
      · exact h
      · exact hall e he
    · refine ⟨d, by simp, fun e he => ?_⟩
      rcases mem_cons.1 he with rfl | he
      · exact .refl (hd e (by simp)).reached
      · exact (hall e he).trans h

end

/-! ### The functions -/

section
variable {nodes : List String} {succ : String → List String} {s : String} (fin : Finite nodes succ s)
include fin

theorem mem_reached (b : String) : b ∈ reached nodes succ s ↔ Graph.Reach succ s b := by
  unfold reached
  rw [Graph.dfsAll_exact (U := nodes) fin.closed (by simpa using fin.start) (Nat.lt_succ_self _)]
  simp

theorem reached_node {b : String} (h : Graph.Reach succ s b) : b ∈ nodes := by
  have : ∀ x, Graph.Reach succ s x → x ∈ nodes := fun x h => by
    induction h with
    | refl => exact fin.start
    | tail _ hxy ih => exact fin.closed _ ih _ hxy
  exact this b h

theorem cuts_iff {a b : String} (hb : Graph.Reach succ s b) : cuts nodes succ s a b = true ↔ Dominates succ s a b := by
  have fin' : Finite nodes (fun x => (succ x).filter fun y => decide (y ≠ a)) s :=
    ⟨fin.start, fun x hx y hy => fin.closed x hx y (mem_filter.1 hy).1⟩
  have h1 : ∀ x, x ≠ a → (Graph.Reach (fun x => (succ x).filter fun y => decide (y ≠ a)) x b ↔ PathAvoiding (fun x y => y ∈ succ x) a b x) := by
    intro x hx
    constructor
    · intro h
      induction h using Relation.ReflTransGen.head_induction_on with
      | refl => exact .refl hx
      | head hxy _ ih =>
        obtain ⟨m1, m2⟩ := mem_filter.1 hxy
        exact .step _ _ hx m1 (ih (by simpa using m2))
    · intro h
      induction h with
      | refl _ => exact .refl
      | step x y _ hxy p ih =>
        have hy : y ≠ a := by cases p <;> assumption
        exact .head (mem_filter.2 ⟨hxy, by simpa using hy⟩) (ih hy)
  unfold cuts
  rw [Bool.or_eq_true, decide_eq_true_eq, decide_eq_true_eq, mem_reached fin']
  constructor
  · rintro (h | h)
    · exact h ▸ .start hb
    · by_cases e : s = a
      · exact e ▸ .start hb
      · exact ⟨hb, fun p => h ((h1 s e).2 p)⟩
  · intro h
    by_cases e : s = a
    · exact Or.inl e
    · exact Or.inr fun p => h.2 ((h1 s e).1 p)

theorem idom_some {d b : String} (h : idom nodes succ s b = some d) : IsIdom succ s d b := by
  unfold idom at h
  simp only at h
  split at h
  · rename_i hb
    rw [mem_reached fin] at hb
    have hm := mem_of_find?_eq_some h
    have hp := find?_some h
    rw [mem_reached fin] at hm
    simp only [Bool.and_eq_true, decide_eq_true_eq, all_eq_true, Bool.or_eq_true, Bool.not_eq_true'] at hp
    obtain ⟨⟨p1, p2⟩, p3⟩ := hp
    refine ⟨p1, (cuts_iff fin hb).1 p2, fun e he hd => ?_⟩
    rcases p3 e ((mem_reached fin e).2 hd.reached) with (q | q) | q
    · exact absurd q he
    · rw [(cuts_iff fin hb).2 hd] at q; cases q
    · exact (cuts_iff fin hm).1 q
  · cases h

theorem idom_exists {b : String} (hb : Graph.Reach succ s b) (hs : b ≠ s) : ∃ d, idom nodes succ s b = some d := by
  classical
  have hR := (mem_reached fin b).2 hb
  obtain ⟨d, hd, hall⟩ := last_dominator (succ := succ) (s := s) (b := b)
    ((reached nodes succ s).filter fun e => decide (e ≠ b ∧ Dominates succ s e b)) (by
      refine ne_nil_of_mem (a := s) (mem_filter.2 ⟨(mem_reached fin s).2 .refl, ?_⟩)
      exact decide_eq_true ⟨Ne.symm hs, .start hb⟩) (fun e he => (of_decide_eq_true (mem_filter.1 he).2).2)
  obtain ⟨hd1, hd2⟩ := mem_filter.1 hd
  obtain ⟨hd3, hd4⟩ := of_decide_eq_true hd2
  unfold idom
  simp only
  rw [if_pos hR]
  refine Option.isSome_iff_exists.1 (find?_isSome.2 ⟨d, hd1, ?_⟩)
  simp only [Bool.and_eq_true, decide_eq_true_eq, all_eq_true, Bool.or_eq_true, Bool.not_eq_true']
  refine ⟨⟨hd3, (cuts_iff fin hb).2 hd4⟩, fun e he => ?_⟩
  by_cases h : e = b
  · exact Or.inl (Or.inl h)
  · by_cases h' : Dominates succ s e b
    · exact Or.inr ((cuts_iff fin hd4.reached).2 (hall e (mem_filter.2 ⟨he, decide_eq_true ⟨h, h'⟩⟩)))
    · refine Or.inl (Or.inr ?_)
      rw [Bool.eq_false_iff]
      exact fun q => h' ((cuts_iff fin hb).1 q)

open Classical in
/-- The strict dominators that are nodes. -/
noncomputable def strictDoms (nodes : List String) (succ : String → List String) (s b : String) : List String :=
  nodes.dedup.filter fun e => decide (e ≠ b ∧ Dominates succ s e b)

theorem mem_strictDoms {e b : String} : e ∈ strictDoms nodes succ s b ↔ e ≠ b ∧ Dominates succ s e b := by
  unfold strictDoms
  rw [mem_filter, mem_dedup]
  simp only [decide_eq_true_eq]
  exact ⟨fun h => h.2, fun h => ⟨reached_node fin h.2.reached, h⟩⟩

/-- The immediate dominator has one strict dominator less. -/
theorem strictDoms_length {d b : String} (h : IsIdom succ s d b) :
    (strictDoms nodes succ s d).length + 1 = (strictDoms nodes succ s b).length := by
  have hn : ∀ x, (strictDoms nodes succ s x).Nodup := fun x => (nodup_dedup _).filter _
  have hp : (d :: strictDoms nodes succ s d).Perm (strictDoms nodes succ s b) := by
    refine (perm_ext_iff_of_nodup (nodup_cons.2 ⟨fun hd => ((mem_strictDoms fin).1 hd).1 rfl, hn d⟩) (hn b)).2 fun e => ?_
    rw [mem_cons, mem_strictDoms fin, mem_strictDoms fin]
    constructor
    · rintro (rfl | ⟨h1, h2⟩)
      · exact ⟨h.1, h.2.1⟩
      · refine ⟨?_, h2.trans h.2.1⟩
        rintro rfl
        exact h1 (h2.antisymm h.2.1)
    · rintro ⟨h1, h2⟩
      by_cases e' : e = d
      · exact Or.inl e'
      · exact Or.inr ⟨e', h.2.2 e h1 h2⟩
  rw [← hp.length_eq]
  simp

omit fin in
theorem strictDoms_le (b : String) : (strictDoms nodes succ s b).length ≤ nodes.length :=
  Nat.le_trans (length_filter_le _ _) (dedup_sublist nodes).length_le

/-- What a path in the tree is. -/
theorem walkUp_some {a : String} : ∀ {f : Nat} {b : String} {l : List String}, walkUp (idom nodes succ s) a f b = some l →
    l.head? = some a ∧ l.getLast? = some b ∧ l.IsChain (IsIdom succ s) ∧ (Graph.Reach succ s b → Dominates succ s a b)
  | 0, b, l, h => by simp [walkUp] at h
  | f + 1, b, l, h => by
    rw [walkUp] at h
    split at h
    · rename_i e
      cases h; subst e
      exact ⟨rfl, rfl, by simp, .refl⟩
    · obtain ⟨d, hd, h⟩ := Option.bind_eq_some_iff.1 h
      obtain ⟨l', hl', rfl⟩ := Option.map_eq_some_iff.1 h
      obtain ⟨i1, i2, i3, i4⟩ := walkUp_some hl'
      have hi := idom_some fin hd
      refine ⟨by rw [head?_append, i1]; rfl, by simp, ?_, fun _ => (i4 hi.2.1.reached).trans hi.2.1⟩
      rw [isChain_append]
      refine ⟨i3, by simp, fun x hx y hy => ?_⟩
      rw [i2] at hx
      simp only [Option.mem_def, Option.some.injEq, head?_cons] at hx hy
      subst hx; subst hy
      exact hi

/-- Every dominator is on the way up. -/
theorem walkUp_exists {a : String} : ∀ {f : Nat} {b : String}, Dominates succ s a b → (strictDoms nodes succ s b).length < f →
    ∃ l, walkUp (idom nodes succ s) a f b = some l ∧
      l.length + (strictDoms nodes succ s a).length = (strictDoms nodes succ s b).length + 1
  | 0, b, _, h => by omega
  | f + 1, b, h, hf => by
    rw [walkUp]
    split
    · rename_i e; subst e; exact ⟨_, rfl, by simp; omega⟩
    · rename_i hne
      have hs : b ≠ s := by
        rintro rfl
        exact hne (Dominates.antisymm (.start h.reached) h)
      obtain ⟨d, hd⟩ := idom_exists fin h.1 hs
      have hi := idom_some fin hd
      have hlen := strictDoms_length fin hi
      obtain ⟨l, hl, hll⟩ := walkUp_exists (f := f) (hi.2.2 a (Ne.symm hne) h) (by omega)
      refine ⟨l ++ [b], by rw [hd, Option.bind_some, hl]; rfl, by rw [length_append, length_singleton]; omega⟩

/-! ### C83 -/

/-- **C83, paths.** There is a path from `a` to `b` in the dominance tree exactly if every path of the graph from the start to `b` goes through `a`; it
starts in `a`, ends in `b`, and each of its blocks is the immediate dominator of the next. -/
theorem dominance_paths (a b : String) (hb : Graph.Reach succ s b) :
    ((domPath nodes succ s a b).isSome ↔ Dominates succ s a b) ∧
    ∀ l, domPath nodes succ s a b = some l → l.head? = some a ∧ l.getLast? = some b ∧ l.IsChain (IsIdom succ s) := by
  have hR := (mem_reached fin b).2 hb
  unfold domPath
  rw [if_pos hR]
  refine ⟨⟨fun h => ?_, fun h => ?_⟩, fun l h => ?_⟩
  · obtain ⟨l, hl⟩ := Option.isSome_iff_exists.1 h
    exact (walkUp_some fin hl).2.2.2 hb
  · obtain ⟨l, hl, _⟩ := walkUp_exists fin h (Nat.lt_succ_of_le (strictDoms_le b))
    rw [hl]; rfl
  · obtain ⟨h1, h2, h3, _⟩ := walkUp_some fin h
    exact ⟨h1, h2, h3⟩

/-- **C83, levels.** Exactly the blocks that the start reaches have a level, and a block has a higher level than every other block that dominates
it. -/
theorem dominance_levels (b : String) :
    ((level nodes succ s b).isSome ↔ Graph.Reach succ s b) ∧
    ∀ a l, level nodes succ s b = some l → Dominates succ s a b → a ≠ b → ∃ k, level nodes succ s a = some k ∧ k < l := by
  have hlev : ∀ x, Graph.Reach succ s x → level nodes succ s x = some (strictDoms nodes succ s x).length := by
    intro x hx
    obtain ⟨l, hl, hlen⟩ := walkUp_exists fin (Dominates.start hx) (Nat.lt_succ_of_le (strictDoms_le x))
    have h0 : (strictDoms nodes succ s s).length = 0 := by
      rw [length_eq_zero_iff, eq_nil_iff_forall_not_mem]
      intro e he
      obtain ⟨h1, h2⟩ := (mem_strictDoms fin).1 he
      exact h1 (h2.antisymm (.start h2.reached))
    unfold level domPath
    rw [if_pos ((mem_reached fin x).2 hx), hl, Option.map_some]
    congr 1
    omega
  refine ⟨⟨fun h => ?_, fun h => by rw [hlev b h]; rfl⟩, ?_⟩
  · unfold level domPath at h
    by_contra hn
    rw [if_neg fun hm => hn ((mem_reached fin b).1 hm)] at h
    simp at h
  · intro a l hl hd hne
    rw [hlev b hd.1] at hl
    cases hl
    refine ⟨_, hlev a hd.reached, ?_⟩
    have hn : ∀ x, (strictDoms nodes succ s x).Nodup := fun x => (nodup_dedup _).filter _
    have hsub : (a :: strictDoms nodes succ s a) ⊆ strictDoms nodes succ s b := by
      intro e he
      rcases mem_cons.1 he with rfl | he
      · exact (mem_strictDoms fin).2 ⟨hne, hd⟩
      · obtain ⟨h1, h2⟩ := (mem_strictDoms fin).1 he
        refine (mem_strictDoms fin).2 ⟨?_, h2.trans hd⟩
        rintro rfl
        exact h1 (h2.antisymm hd)
    have := ((nodup_cons.2 ⟨fun h => ((mem_strictDoms fin).1 h).1 rfl, hn a⟩).subperm hsub).length_le
    simp only [length_cons] at this
    omega

end

/-! ### Example: a loop with a branch inside -/

/-- `E → H`, `H → A, X`, `A → B, C`, `B → D`, `C → D`, `D → H`. -/
def exDomSucc (x : String) : List String :=
  if x = "E" then ["H"] else if x = "H" then ["A", "X"] else if x = "A" then ["B", "C"] else if x = "B" ∨ x = "C" then ["D"]
  else if x = "D" then ["H"] else []

def exDomNodes : List String := ["E", "H", "A", "B", "C", "D", "X"]

example : Finite exDomNodes exDomSucc "E" := ⟨by decide +kernel, by decide +kernel⟩

example : idom exDomNodes exDomSucc "E" "D" = some "A" ∧ domPath exDomNodes exDomSucc "E" "H" "D" = some ["H", "A", "D"] ∧
    domPath exDomNodes exDomSucc "E" "B" "D" = none ∧ level exDomNodes exDomSucc "E" "D" = some 3 := by decide +kernel

/-- `A` dominates `D`, and `B` does not. -/
example : Dominates exDomSucc "E" "A" "D" ∧ ¬ Dominates exDomSucc "E" "B" "D" := by
  have fin : Finite exDomNodes exDomSucc "E" := ⟨by decide +kernel, by decide +kernel⟩
  have hD : Graph.Reach exDomSucc "E" "D" := (mem_reached fin "D").1 (by decide +kernel)
  exact ⟨((dominance_paths fin "A" "D" hD).1).1 (by decide +kernel), fun h => by
    have := ((dominance_paths fin "B" "D" hD).1).2 h
    revert this; decide +kernel⟩

end Grey.Graphs
