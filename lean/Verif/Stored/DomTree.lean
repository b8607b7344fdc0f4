/-
The tree of immediate dominators has the shape that the placement and the scan rely on: C95.
-/
import Verif.Stored.KeptPlaces
import Verif.Graphs.Dominance
namespace Grey.Kept
open List Grey.Repair Grey.Graphs

/-! ### Specification -/

/-- The tree with an edge from the immediate dominator of each node, except the start, to the node, with the children in any order (compute_dominance_tree,
src/graphs/algorithms.py:59-66; `idom` is C83). -/
structure DominanceTree (ns : List String) (succ : String → List String) (s : String) (t : DTree String) : Prop where
  once : (nodes t).Nodup
  all : ∀ b, b ∈ nodes t ↔ b ∈ reached ns succ s
  top : ∀ b, Node t [] b → b = s
  edge : ∀ anc d b, Node t (anc ++ [d]) b → idom ns succ s b = some d

/-- The names of the blocks of a component. -/
def blockIds (G : Layout.Component) : List String := G.blocks.map (·.id)

/-- The edges of a component (the graph of compute_dominance_tree, src/reparation/repair_unreachable.py:142-166). Successors that are not blocks, which the front end does not
make, are left out. -/
def edgesOf (G : Layout.Component) (b : String) : List String := (G.cfgSuccs b).filter fun s => (blockIds G).contains s

/-- The tree is the tree of dominators of the component. -/
def TreeOf (G : Layout.Component) (t : DTree String) : Prop := DominanceTree (blockIds G) (edgesOf G) G.start t

/-! ### Proofs -/

theorem node_mem {α : Type} {t : DTree α} {anc : List α} {b : α} (h : Node t anc b) : b ∈ nodes t := by
  induction h with
  | here => simp [nodes]
  | inside _ _ _ _ _ _ ih => simp [nodes, ih]
  | next _ _ _ _ _ _ ih => simp [nodes, ih]

theorem node_above {α : Type} {t : DTree α} {anc : List α} {b : α} (h : Node t anc b) : ∀ p d q, anc = p ++ d :: q → Node t p d := by
  induction h with
  | here b ch rest => intro p d q e; cases p <;> cases e
  | inside b ch rest anc n _ ih =>
    intro p d q e
    cases p with
    | nil => cases e; exact .here _ _ _
    | cons x p =>
      cases e
      exact .inside _ _ _ _ _ (ih p d q rfl)
  | next b ch rest anc n _ ih =>
    intro p d q e
    exact .next _ _ _ _ _ (ih p d q e)

section
variable {ns : List String} {succ : String → List String} {s : String} {t : DTree String} (fin : Finite ns succ s) (hT : DominanceTree ns succ s t)
include fin hT

theorem DominanceTree.reach {b : String} (h : b ∈ nodes t) : Graph.Reach succ s b := (mem_reached fin b).1 ((hT.all b).1 h)

theorem DominanceTree.start : Node t [] s := by
  obtain ⟨anc, h⟩ := node_of_mem ((hT.all s).2 ((mem_reached fin s).2 .refl))
  cases anc using List.reverseRecOn with
  | nil => exact h
  | append_singleton anc d =>
    have hi := idom_some fin (hT.edge _ _ _ h)
    exact absurd (hi.2.1.antisymm (.start hi.2.1.reached)) hi.1

/-- The dominators of a block are the blocks above it, and itself. -/
theorem DominanceTree.dominators {d : String} : ∀ (n : Nat) (anc : List String) (b : String), anc.length = n → Node t anc b → Dominates succ s d b → d ∈ anc ++ [b]
  | 0, anc, b, hn, h, hd => by
    obtain rfl := length_eq_zero_iff.1 hn
    obtain rfl := hT.top b h
    simp [hd.antisymm (.start hd.reached)]
  | n + 1, anc, b, hn, h, hd => by
    rw [mem_append]
    by_cases e : d = b
    · simp [e]
    · left
      cases anc using List.reverseRecOn with
      | nil => cases hn
      | append_singleton anc c =>
        have hi := idom_some fin (hT.edge _ _ _ h)
        exact DominanceTree.dominators n anc c (by simpa using hn) (node_above h anc c [] rfl) (hi.2.2 d e hd)

/-- What is above a block is above-or-equal to each of its predecessors. -/
theorem DominanceTree.above {B S : String} {ancB ancS : List String} (hB : Node t ancB B) (hS : Node t ancS S) (he : S ∈ succ B) : ancS <+: ancB ++ [B] := by
  cases ancS using List.reverseRecOn with
  | nil => exact nil_prefix
  | append_singleton l d =>
    have hi := idom_some fin (hT.edge _ _ _ hS)
    have hBn : B ∈ nodes t := (node_mem hB)
    have hd : Dominates succ s d B := by
      refine ⟨hT.reach fin hBn, fun hp => hi.2.1.2 ?_⟩
      clear hB hBn
      have key : ∀ x, PathAvoiding (fun x y => y ∈ succ x) d B x → PathAvoiding (fun x y => y ∈ succ x) d S x := by
        intro x hp
        induction hp with
        | refl hne => exact .step _ _ hne he (.refl (Ne.symm hi.1))
        | step x y hx hxy _ ih => exact .step x y hx hxy ih
      exact key s hp
    have hm := hT.dominators fin _ ancB B rfl hB hd
    have hl := node_above hS l d [] rfl
    obtain ⟨p, q, e⟩ := append_of_mem hm
    have hpd : Node t p d := by
      cases q using List.reverseRecOn with
      | nil =>
        have := List.append_inj' e rfl
        obtain ⟨rfl, e2⟩ := this
        cases e2
        exact hB
      | append_singleton q x =>
        rw [← cons_append, ← append_assoc] at e
        have := List.append_inj' e rfl
        exact node_above hB p d q this.1
    obtain rfl := Node.unique hT.once hl hpd
    exact ⟨q, by rw [e]; simp⟩

omit fin in
theorem DominanceTree.root (h : Node t [] s) : ∃ below, t = .node s below .nil := by
  cases t with
  | nil => cases h
  | node b ch rest =>
    obtain rfl := hT.top b (.here _ _ _)
    cases rest with
    | nil => exact ⟨ch, rfl⟩
    | node c ch' rest' =>
      exfalso
      obtain rfl := hT.top c (.next _ _ _ _ _ (.here _ _ _))
      have := hT.once
      simp [nodes] at this

end

/-! ### Components -/

section
variable {G : Layout.Component}

theorem block_of_mem (hid : (G.blocks.map (·.id)).Nodup) {B : Layout.LBlock} (hB : B ∈ G.blocks) : G.block B.id = some B := by
  unfold Layout.Component.block
  cases h : G.blocks.find? fun b => b.id == B.id with
  | none => exact absurd (find?_eq_none.1 h B hB) (by simp)
  | some C =>
    have h1 := find?_some h
    rw [inj_on_of_nodup_map hid (mem_of_find?_eq_some h) hB (by simpa using h1)]

theorem mem_edges (hid : (G.blocks.map (·.id)).Nodup) {B S : Layout.LBlock} (hB : B ∈ G.blocks) (hS : S ∈ G.blocks) (h : S.id ∈ B.succs) : S.id ∈ edgesOf G B.id := by
  unfold edgesOf blockIds
  rw [mem_filter, contains_iff_mem]
  refine ⟨?_, mem_map.2 ⟨S, hS, rfl⟩⟩
  unfold Layout.Component.cfgSuccs
  rw [block_of_mem hid hB]
  simpa using h

theorem finite_edges (h : ∃ S ∈ G.blocks, S.id = G.start) : Finite (blockIds G) (edgesOf G) G.start := by
  obtain ⟨S, hS, e⟩ := h
  refine ⟨mem_map.2 ⟨S, hS, e⟩, ?_⟩
  intro x _ y hy
  exact contains_iff_mem.1 (mem_filter.1 hy).2

theorem reach_edges (hid : (G.blocks.map (·.id)).Nodup) {b : String} (h : Layout.Reachable G b) : Graph.Reach (edgesOf G) G.start b := by
  induction h with
  | start => exact .refl
  | step _ hB hS he ih => exact ih.tail (mem_edges hid hB hS he)

end

theorem tree_blocks {G : Layout.Component} {t : DTree String} (hs : ∃ S ∈ G.blocks, S.id = G.start) (hT : TreeOf G t) {b : String} (hb : b ∈ nodes t) :
    ∃ B ∈ G.blocks, B.id = b := by
  have : b ∈ blockIds G := by
    have hr := hT.reach (finite_edges hs) hb
    cases hr with
    | refl => exact (finite_edges hs).start
    | tail _ h => exact contains_iff_mem.1 (mem_filter.1 h).2
  simpa [blockIds] using this

end Grey.Kept
