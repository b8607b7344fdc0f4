/-
The tree of dominators that the code builds (src/graphs/algorithms.py:58-66): C95.
-/
import Verif.Stored.DomTree
namespace Grey.Kept
open List Grey.Repair Grey.Graphs

deriving instance DecidableEq for Grey.Repair.DTree

/-! ### Model -/

/-- src/graphs/algorithms.py:64: the successors of `d` in the tree, in the order of the keys of the immediate dominators. -/
def domKids (ns : List String) (succ : String → List String) (s : String) (keys : List String) (d : String) : List String :=
  keys.filter fun b => decide (b ≠ s) && decide (idom ns succ s b = some d)

/-- The trees below the nodes `bs`, followed down at most `n` levels. -/
def growTree (kids : String → List String) : Nat → List String → DTree String
  | 0, _ => .nil
  | n + 1, bs => bs.foldr (fun b rest => .node b (growTree kids n (kids b)) rest) .nil

/-- `compute_dominance_tree` (src/graphs/algorithms.py:58-66), as the traversals of src/reparation/repair_unreachable.py and tree_scan.py see it:
from the start along successors. `keys` are the keys of `nx.immediate_dominators`, whose order is not specified. -/
def domTree (ns : List String) (succ : String → List String) (s : String) (keys : List String) : DTree String :=
  growTree (domKids ns succ s keys) (ns.length + 1) [s]

/-- The tree is the one that the code builds for the component, with the keys of the immediate dominators, which are the blocks that the start reaches, in some order. -/
def BuiltTree (G : Layout.Component) (t : DTree String) : Prop :=
  ∃ keys : List String, keys.Nodup ∧ (∀ b, b ∈ keys ↔ b ∈ reached (blockIds G) (edgesOf G) G.start) ∧ t = domTree (blockIds G) (edgesOf G) G.start keys

/-! ### Proofs -/

theorem nodes_grow {kids : String → List String} {n : Nat} (bs : List String) :
    nodes (growTree kids (n + 1) bs) = bs.flatMap fun b => b :: nodes (growTree kids n (kids b)) := by
  rw [growTree]
  induction bs with
  | nil => rfl
  | cons b bs ih => rw [foldr_cons, nodes, ih, flatMap_cons]

theorem grow_cons {kids : String → List String} {n : Nat} (b : String) (bs : List String) :
    growTree kids (n + 1) (b :: bs) = .node b (growTree kids n (kids b)) (growTree kids (n + 1) bs) := rfl

/-- The nodes at the top are those given, and a child is one of the children. -/
theorem node_grow {kids : String → List String} : ∀ (n : Nat) (bs anc : List String) (x : String), Node (growTree kids n bs) anc x →
    (anc = [] → x ∈ bs) ∧ ∀ l d, anc = l ++ [d] → x ∈ kids d
  | 0, bs, anc, x, h => by cases h
  | n + 1, [], anc, x, h => by cases h
  | n + 1, b :: bs, anc, x, h => by
    rw [grow_cons] at h
    cases h with
    | here => exact ⟨fun _ => mem_cons_self, fun l d e => by cases l <;> cases e⟩
    | inside _ _ _ anc' _ h =>
      obtain ⟨h1, h2⟩ := node_grow n (kids b) anc' x h
      refine ⟨fun e => (cons_ne_nil _ _ e).elim, fun l d e => ?_⟩
      cases l with
      | nil => cases e; exact h1 rfl
      | cons y l => cases e; exact h2 l d rfl
    | next _ _ _ _ _ h =>
      obtain ⟨h1, h2⟩ := node_grow (n + 1) bs anc x h
      exact ⟨fun e => mem_cons_of_mem _ (h1 e), h2⟩

section
variable {ns : List String} {succ : String → List String} {s : String} {keys : List String} (fin : Finite ns succ s)
include fin

theorem kid_idom {b d : String} (h : b ∈ domKids ns succ s keys d) : IsIdom succ s d b := by
  have := (mem_filter.1 h).2
  simp only [Bool.and_eq_true, decide_eq_true_eq] at this
  exact idom_some fin this.2

/-- Whatever is below a node is dominated by it. -/
theorem grow_dominated : ∀ (n : Nat) (bs : List String), (∀ b ∈ bs, Graph.Reach succ s b) → ∀ x ∈ nodes (growTree (domKids ns succ s keys) n bs),
    ∃ b ∈ bs, Dominates succ s b x
  | 0, bs, _, x, h => by cases h
  | n + 1, bs, hb, x, h => by
    rw [nodes_grow] at h
    obtain ⟨b, hbm, h⟩ := mem_flatMap.1 h
    rcases mem_cons.1 h with rfl | h
    · exact ⟨x, hbm, .refl (hb x hbm)⟩
    · obtain ⟨c, hc, hd⟩ := grow_dominated n _ (fun c hc => (kid_idom fin hc).2.1.1) x h
      exact ⟨b, hbm, (kid_idom fin hc).2.1.trans hd⟩

theorem kids_apart {a b d : String} (ha : a ∈ domKids ns succ s keys d) (hb : b ∈ domKids ns succ s keys d) (h : Dominates succ s a b) : a = b := by
  have h1 := kid_idom fin ha
  have h2 := kid_idom fin hb
  by_contra hne
  exact h1.1 (h1.2.1.antisymm (h2.2.2 a hne h))

theorem grow_once (hk : keys.Nodup) : ∀ (n : Nat) (bs : List String), bs.Nodup → (∀ b ∈ bs, Graph.Reach succ s b) →
    (∀ a ∈ bs, ∀ b ∈ bs, Dominates succ s a b → a = b) → (nodes (growTree (domKids ns succ s keys) n bs)).Nodup
  | 0, _, _, _, _ => .nil
  | n + 1, bs, hn, hr, ha => by
    have hkr : ∀ b, ∀ c ∈ domKids ns succ s keys b, Graph.Reach succ s c := fun b c hc => (kid_idom fin hc).2.1.1
    have hdom : ∀ b ∈ bs, ∀ x, x ∈ b :: nodes (growTree (domKids ns succ s keys) n (domKids ns succ s keys b)) → Dominates succ s b x := by
      intro b hb x hx
      rcases mem_cons.1 hx with rfl | hx
      · exact .refl (hr x hb)
      · obtain ⟨c, hc, hd⟩ := grow_dominated fin n _ (hkr b) x hx
        exact (kid_idom fin hc).2.1.trans hd
    rw [nodes_grow, nodup_flatMap]
    constructor
    · intro b _
      refine nodup_cons.2 ⟨fun hm => ?_, grow_once hk n _ (hk.filter _) (hkr b) fun a ha c hc => kids_apart fin ha hc⟩
      obtain ⟨c, hc, hd⟩ := grow_dominated fin n _ (hkr b) b hm
      have hi := kid_idom fin hc
      exact hi.1 (hi.2.1.antisymm hd)
    · refine hn.imp_of_mem ?_
      intro a b hma hmb hne x hxa hxb
      rcases (hdom a hma x hxa).total (hdom b hmb x hxb) with h | h
      · exact hne (ha a hma b hmb h)
      · exact hne (ha b hmb a hma h).symm

/-- Whatever a node dominates is below it. -/
theorem grow_all (hk : ∀ b, b ∈ keys ↔ Graph.Reach succ s b) : ∀ (n : Nat) (bs : List String) (b x : String), b ∈ bs →
    Dominates succ s b x → (strictDoms ns succ s x).length < (strictDoms ns succ s b).length + n → x ∈ nodes (growTree (domKids ns succ s keys) n bs) := by
  -- the node below `b` on the way to `x`
  have step : ∀ (m : Nat) (b x : String), (strictDoms ns succ s x).length = m → Dominates succ s b x → b ≠ x →
      ∃ c ∈ domKids ns succ s keys b, Dominates succ s c x := by
    intro m
    induction m using Nat.strongRecOn with
    | _ m ih =>
      intro b x hm hd hne
      have hxs : x ≠ s := by
        rintro rfl
        exact hne (hd.antisymm (.start hd.reached))
      obtain ⟨d, hdx⟩ := idom_exists fin hd.1 hxs
      have hi := idom_some fin hdx
      by_cases e : b = d
      · subst e
        exact ⟨x, mem_filter.2 ⟨(hk x).2 hd.1, by simp [hxs, hdx]⟩, .refl hd.1⟩
      · have hl := strictDoms_length fin hi
        obtain ⟨c, hc, hcd⟩ := ih _ (by omega) b d rfl (hi.2.2 b hne hd) e
        exact ⟨c, hc, hcd.trans hi.2.1⟩
  have mono : ∀ (m : Nat) (b x : String), (strictDoms ns succ s x).length = m → Dominates succ s b x →
      (strictDoms ns succ s b).length ≤ (strictDoms ns succ s x).length := by
    intro m b x _ hd
    refine (List.Nodup.subperm ((nodup_dedup _).filter _) ?_).length_le
    intro e he
    obtain ⟨h1, h2⟩ := (mem_strictDoms fin).1 he
    refine (mem_strictDoms fin).2 ⟨?_, h2.trans hd⟩
    rintro rfl
    exact h1 (h2.antisymm hd)
  intro n
  induction n with
  | zero =>
    intro bs b x _ hd hl
    have := mono _ b x rfl hd
    omega
  | succ n ih =>
    intro bs b x hb hd hl
    rw [nodes_grow]
    refine mem_flatMap.2 ⟨b, hb, ?_⟩
    by_cases e : b = x
    · simp [e]
    · obtain ⟨c, hc, hcx⟩ := step _ b x rfl hd e
      have hcl := strictDoms_length fin (kid_idom fin hc)
      exact mem_cons_of_mem _ (ih _ c x hc hcx (by omega))

/-- The tree that the code builds is the tree of immediate dominators. -/
theorem domTree_right (hn : keys.Nodup) (hk : ∀ b, b ∈ keys ↔ Graph.Reach succ s b) : DominanceTree ns succ s (domTree ns succ s keys) := by
  have hs : Graph.Reach succ s s := .refl
  have hself : ∀ a ∈ [s], ∀ b ∈ [s], Dominates succ s a b → a = b := by
    intro a ha b hb _
    rw [mem_singleton.1 ha, mem_singleton.1 hb]
  refine ⟨grow_once fin hn _ [s] (by simp) (by simpa using hs) hself, ?_, ?_, ?_⟩
  · intro b
    rw [mem_reached fin]
    constructor
    · intro hb
      obtain ⟨c, _, hd⟩ := grow_dominated fin _ [s] (by simpa using hs) b hb
      exact hd.1
    · intro hb
      have := strictDoms_le (nodes := ns) (succ := succ) (s := s) b
      exact grow_all fin hk _ [s] s b (by simp) (.start hb) (by omega)
  · intro b h
    exact mem_singleton.1 ((node_grow _ _ _ _ h).1 rfl)
  · intro anc d b h
    have hm := (node_grow _ _ _ _ h).2 anc d rfl
    have := (mem_filter.1 hm).2
    simp only [Bool.and_eq_true, decide_eq_true_eq] at this
    exact this.2

end

theorem BuiltTree.treeOf {G : Layout.Component} {t : DTree String} (hs : ∃ S ∈ G.blocks, S.id = G.start) (h : BuiltTree G t) : TreeOf G t := by
  obtain ⟨keys, h1, h2, rfl⟩ := h
  have fin := finite_edges hs
  exact domTree_right fin h1 fun b => (h2 b).trans (mem_reached fin b)

/-- There always is such a tree. -/
theorem builtTree_exists (G : Layout.Component) : ∃ t, BuiltTree G t :=
  ⟨_, (reached (blockIds G) (edgesOf G) G.start).dedup, nodup_dedup _, fun _ => mem_dedup, rfl⟩

/-- A loop with a branch in its body: `s` dominates `h`, which dominates `a`, `b`, `j` and `e`. -/
example : domTree ["s", "h", "a", "b", "j", "e"] (fun x => match x with
    | "s" => ["h"] | "h" => ["a", "e"] | "a" => ["b", "j"] | "b" => ["j"] | "j" => ["h"] | _ => []) "s" ["s", "h", "e", "a", "j", "b"] =
    .node "s" (.node "h" (.node "e" .nil (.node "a" (.node "j" .nil (.node "b" .nil .nil)) .nil)) .nil) .nil := by decide +kernel

end Grey.Kept
