/-
Back edges and natural loops (src/graphs/cfg.py): C35, C36.
A graph is given by its nodes, and the successors and predecessors of a node, in the order networkx lists them.
-/
import Verif.Common.Graph
import Mathlib.Tactic.ByContra
namespace Grey.Graphs
open List

/-! ### Model -/

/-- The loop of `find_natural_loop` (src/graphs/cfg.py:40-46); the first element of `work` is the end of the Python list, the side of `pop` and
`extend`. `none`: still running after the given number of iterations. -/
def loopFrom (pred : String → List String) : Nat → List String → List String → Option (List String)
  | _, [], nodes => some nodes
  | 0, _ :: _, _ => none
  | f + 1, n :: work, nodes => if n ∈ nodes then loopFrom pred f work nodes else loopFrom pred f ((pred n).reverse ++ work) (n :: nodes)

/-- `find_natural_loop` (src/graphs/cfg.py:35-46) of the edge from `u` to `v`. -/
def naturalLoop (pred : String → List String) (fuel : Nat) (u v : String) : Option (List String) := loopFrom pred fuel [u] [v]

/-- `visited` and `back_edges`, the newest first. -/
structure Dfs where
  visited : List String
  back : List (String × String)
  deriving DecidableEq, Repr

/-- The loop of `dfs` over the successors (src/graphs/cfg.py:22-26); `rec` is the recursive call. -/
def dfsSuccs (rec : String → Dfs → Option Dfs) (stack : List String) (u : String) : List String → Dfs → Option Dfs
  | [], s => some s
  | v :: vs, s =>
    if v ∉ s.visited then (rec v s).bind (dfsSuccs rec stack u vs)
    else if v ∈ stack then dfsSuccs rec stack u vs ⟨s.visited, (u, v) :: s.back⟩
    else dfsSuccs rec stack u vs s

/-- `dfs` (src/graphs/cfg.py:19-27). `rec_stack` is passed down: what the call adds is removed at its end. The fuel bounds the depth of
the recursion; `none`: it does not suffice. -/
def dfsNode (succ : String → List String) : Nat → List String → String → Dfs → Option Dfs
  | 0, _, _, _ => none
  | f + 1, stack, u, s => dfsSuccs (dfsNode succ f (u :: stack)) (u :: stack) u (succ u) ⟨u :: s.visited, s.back⟩

/-- The loop over the nodes (src/graphs/cfg.py:29-31). -/
def dfsRoots (succ : String → List String) (f : Nat) : List String → Dfs → Option Dfs
  | [], s => some s
  | n :: ns, s => if n ∉ s.visited then (dfsNode succ f [] n s).bind (dfsRoots succ f ns) else dfsRoots succ f ns s

/-- `find_back_edges` (src/graphs/cfg.py:10-32). The recursion is never deeper than the number of nodes. -/
def findBackEdges (nodes : List String) (succ : String → List String) : Option (List (String × String)) :=
  (dfsRoots succ nodes.length nodes ⟨[], []⟩).map fun s => s.back.reverse

/-- `compute_cfg_without_backward_edges` (src/graphs/cfg.py:85-89): the successors in the new graph. -/
def withoutBackEdges (succ : String → List String) (back : List (String × String)) (u : String) : List String :=
  (succ u).filter fun v => decide ((u, v) ∉ back)

/-! ### Specification -/

/-- There is a path from `x` to `u` on which `v` does not occur. -/
inductive PathAvoiding (E : String → String → Prop) (v u : String) : String → Prop
  | refl : u ≠ v → PathAvoiding E v u u
  | step (x y : String) : x ≠ v → E x y → PathAvoiding E v u y → PathAvoiding E v u x

/-- A path with at least one edge. -/
inductive Path (E : String → String → Prop) : String → String → Prop
  | edge (x y : String) : E x y → Path E x y
  | cons (x y z : String) : E x y → Path E y z → Path E x z

/-! ### Proofs: C35 -/

theorem loopFrom_sound {pred : String → List String} {u v : String} : ∀ (f : Nat) (work nodes L : List String),
    (∀ x ∈ work, x = v ∨ PathAvoiding (fun a b => a ∈ pred b) v u x) → (∀ x ∈ nodes, x = v ∨ PathAvoiding (fun a b => a ∈ pred b) v u x) → v ∈ nodes →
    loopFrom pred f work nodes = some L → ∀ x ∈ L, x = v ∨ PathAvoiding (fun a b => a ∈ pred b) v u x := by
  intro f
  induction f with
  | zero =>
    intro work nodes L _ h2 _ h
    cases work with
    | nil => rw [loopFrom] at h; cases h; exact h2
    | cons n work => rw [loopFrom] at h; cases h
  | succ f ih =>
    intro work nodes L h1 h2 hv h
    cases work with
    | nil => rw [loopFrom] at h; cases h; exact h2
    | cons n work =>
      rw [loopFrom] at h
      split at h
      · exact ih work nodes L (fun x hx => h1 x (mem_cons_of_mem _ hx)) h2 hv h
      · rename_i hn
        have hnv : n ≠ v := fun e => hn (e ▸ hv)
        have hnp : PathAvoiding (fun a b => a ∈ pred b) v u n := (h1 n mem_cons_self).resolve_left hnv
        refine ih _ _ L ?_ ?_ (mem_cons_of_mem _ hv) h
        · intro x hx
          rcases mem_append.1 hx with hx | hx
          · by_cases hxv : x = v
            · exact .inl hxv
            · exact .inr (.step x n hxv (mem_reverse.1 hx) hnp)
          · exact h1 x (mem_cons_of_mem _ hx)
        · intro x hx
          rcases mem_cons.1 hx with rfl | hx
          · exact .inr hnp
          · exact h2 x hx

theorem loopFrom_closed {pred : String → List String} {v : String} : ∀ (f : Nat) (work nodes L : List String),
    (∀ x ∈ nodes, x ≠ v → ∀ y ∈ pred x, y ∈ nodes ∨ y ∈ work) → loopFrom pred f work nodes = some L →
    (∀ x ∈ nodes, x ∈ L) ∧ (∀ x ∈ work, x ∈ L) ∧ ∀ x ∈ L, x ≠ v → ∀ y ∈ pred x, y ∈ L := by
  intro f
  induction f with
  | zero =>
    intro work nodes L h1 h
    cases work with
    | nil => rw [loopFrom] at h; cases h; exact ⟨fun _ h => h, by simp, fun x hx hv y hy => (h1 x hx hv y hy).resolve_right (by simp)⟩
    | cons n work => rw [loopFrom] at h; cases h
  | succ f ih =>
    intro work nodes L h1 h
    cases work with
    | nil => rw [loopFrom] at h; cases h; exact ⟨fun _ h => h, by simp, fun x hx hv y hy => (h1 x hx hv y hy).resolve_right (by simp)⟩
    | cons n work =>
      rw [loopFrom] at h
      split at h
      · rename_i hn
        obtain ⟨g1, g2, g3⟩ := ih work nodes L (fun x hx hv y hy => by
          rcases h1 x hx hv y hy with h | h
          · exact .inl h
          · rcases mem_cons.1 h with rfl | h
            · exact .inl hn
            · exact .inr h) h
        refine ⟨g1, fun x hx => ?_, g3⟩
        rcases mem_cons.1 hx with rfl | hx
        · exact g1 _ hn
        · exact g2 _ hx
      · obtain ⟨g1, g2, g3⟩ := ih _ _ L (fun x hx hv y hy => by
          rcases mem_cons.1 hx with rfl | hx
          · exact .inr (mem_append_left _ (mem_reverse.2 hy))
          · rcases h1 x hx hv y hy with h | h
            · exact .inl (mem_cons_of_mem _ h)
            · rcases mem_cons.1 h with rfl | h
              · exact .inl mem_cons_self
              · exact .inr (mem_append_right _ h)) h
        refine ⟨fun x hx => g1 x (mem_cons_of_mem _ hx), fun x hx => ?_, g3⟩
        rcases mem_cons.1 hx with rfl | hx
        · exact g1 _ mem_cons_self
        · exact g2 _ (mem_append_right _ hx)

theorem loopFrom_mono {pred : String → List String} : ∀ (f : Nat) (work nodes L : List String), loopFrom pred f work nodes = some L →
    ∀ g, f ≤ g → loopFrom pred g work nodes = some L := by
  intro f
  induction f with
  | zero =>
    intro work nodes L h g _
    cases work with
    | nil => rw [loopFrom] at h; rw [loopFrom]; exact h
    | cons n work => rw [loopFrom] at h; cases h
  | succ f ih =>
    intro work nodes L h g hg
    cases work with
    | nil => rw [loopFrom] at h; rw [loopFrom]; exact h
    | cons n work =>
      obtain ⟨g, rfl⟩ : ∃ g', g = g' + 1 := ⟨g - 1, by omega⟩
      rw [loopFrom] at h ⊢
      split at h
      · rename_i hn; rw [if_pos hn]; exact ih _ _ _ h _ (by omega)
      · rename_i hn; rw [if_neg hn]; exact ih _ _ _ h _ (by omega)

/-- The loop ends: each node is expanded once. -/
theorem loopFrom_ends {pred : String → List String} {U : List String} (hU : ∀ x ∈ U, ∀ y ∈ pred x, y ∈ U) :
    ∀ (n : Nat) (work nodes : List String), Graph.left U nodes = n → (∀ x ∈ work, x ∈ U) → ∃ f L, loopFrom pred f work nodes = some L := by
  intro n
  induction n using Nat.strongRecOn with
  | ind n ih =>
    intro work
    induction work with
    | nil => intro nodes _ _; exact ⟨0, nodes, rfl⟩
    | cons x work ihw =>
      intro nodes hn hw
      by_cases hx : x ∈ nodes
      · obtain ⟨f, L, h⟩ := ihw nodes hn (fun y hy => hw y (mem_cons_of_mem _ hy))
        exact ⟨f + 1, L, by rw [loopFrom, if_pos hx]; exact h⟩
      · have hxU := hw x mem_cons_self
        have hlt := Graph.left_cons_lt hxU hx
        obtain ⟨f, L, h⟩ := ih _ (hn ▸ hlt) ((pred x).reverse ++ work) (x :: nodes) rfl (by
          intro y hy
          rcases mem_append.1 hy with hy | hy
          · exact hU x hxU y (mem_reverse.1 hy)
          · exact hw y (mem_cons_of_mem _ hy))
        exact ⟨f + 1, L, by rw [loopFrom, if_neg hx]; exact h⟩

/-- **C35.** In every finite graph and for every edge from `u` to `v`, the computation of the natural loop ends, and its result consists of `v`
and exactly the nodes from which `u` can be reached without going through `v`. -/
theorem natural_loop_exact (pred : String → List String) (nodes : List String) (hclosed : ∀ x ∈ nodes, ∀ y ∈ pred x, y ∈ nodes)
    (u v : String) (hu : u ∈ nodes) :
    ∃ n L, (∀ fuel, n ≤ fuel → naturalLoop pred fuel u v = some L) ∧ ∀ x, x ∈ L ↔ x = v ∨ PathAvoiding (fun a b => a ∈ pred b) v u x := by
  obtain ⟨n, L, h⟩ := loopFrom_ends hclosed _ [u] [v] rfl (by simpa using hu)
  refine ⟨n, L, fun fuel hf => loopFrom_mono _ _ _ _ h fuel hf, ?_⟩
  intro x
  constructor
  · refine loopFrom_sound n [u] [v] L ?_ (by simp) (by simp) h x
    intro y hy
    obtain rfl := mem_singleton.1 hy
    by_cases hyv : y = v
    · exact .inl hyv
    · exact .inr (.refl hyv)
  · obtain ⟨h1, h2, h3⟩ := loopFrom_closed (v := v) n [u] [v] L (by
      intro x hx hv
      exact absurd (mem_singleton.1 hx) hv) h
    rintro (rfl | hp)
    · exact h1 _ (by simp)
    · induction hp with
      | refl _ => exact h2 _ (by simp)
      | step x y hx he hy ih =>
        by_cases hyv : y = v
        · exfalso
          cases hy with
          | refl h => exact h hyv
          | step _ _ h _ _ => exact h hyv
        · exact h3 y ih hyv x he

/-! ### Proofs: C36 -/

theorem Path.trans {E : String → String → Prop} {x y z : String} (h : Path E x y) (h' : Path E y z) : Path E x z := by
  induction h with
  | edge x y h => exact .cons _ _ _ h h'
  | cons x y _ h _ ih => exact .cons _ _ _ h (ih h')

/-- The edges that are left. -/
def Kept (succ : String → List String) (back : List (String × String)) (x y : String) : Prop := y ∈ succ x ∧ (x, y) ∉ back

theorem acc_mono {succ : String → List String} {b b' : List (String × String)} (h : ∀ p ∈ b, p ∈ b') {x : String}
    (hx : Acc (fun y x => Kept succ b x y) x) : Acc (fun y x => Kept succ b' x y) x := by
  induction hx with
  | intro x _ ih => exact .intro x fun y hy => ih y ⟨hy.1, fun hb => hy.2 (h _ hb)⟩

/-- The state of the search: the nodes of the path are visited, no infinite path leaves a finished node, and reported edges are on cycles. -/
structure DInv (succ : String → List String) (stack : List String) (s : Dfs) : Prop where
  onPath : ∀ x ∈ stack, x ∈ s.visited
  acc : ∀ x ∈ s.visited, x ∉ stack → Acc (fun y x => Kept succ s.back x y) x
  back : ∀ p ∈ s.back, p.2 ∈ succ p.1 ∧ (p.1 = p.2 ∨ Path (fun a b => b ∈ succ a) p.2 p.1)

/-- What a call changes. -/
structure DExt (s s' : Dfs) : Prop where
  visited : ∀ x ∈ s.visited, x ∈ s'.visited
  back : ∀ p ∈ s.back, p ∈ s'.back

theorem DExt.trans {s s' s'' : Dfs} (h : DExt s s') (h' : DExt s' s'') : DExt s s'' :=
  ⟨fun x hx => h'.visited x (h.visited x hx), fun p hp => h'.back p (h.back p hp)⟩

/-- Every node of the path reaches the first one. -/
def IsPath (succ : String → List String) (u : String) (stack : List String) : Prop := ∀ x ∈ stack, x = u ∨ Path (fun a b => b ∈ succ a) x u

/-- A complete search from a node. -/
def NodeOK (succ : String → List String) (f : Nat) : Prop :=
  ∀ (stack : List String) (u : String) (s s' : Dfs), dfsNode succ f stack u s = some s' → u ∉ s.visited → DInv succ stack s →
    IsPath succ u (u :: stack) → DInv succ stack s' ∧ DExt s s' ∧ u ∈ s'.visited

theorem succs_ok {succ : String → List String} {f : Nat} (hf : NodeOK succ f) {stack : List String} {u : String} (hus : u ∈ stack)
    (hp : IsPath succ u stack) : ∀ (vs : List String) (s s' : Dfs), (∀ v ∈ vs, v ∈ succ u) → dfsSuccs (dfsNode succ f stack) stack u vs s = some s' →
    DInv succ stack s → DInv succ stack s' ∧ DExt s s' ∧ ∀ v ∈ vs, (u, v) ∈ s'.back ∨ (v ∈ s'.visited ∧ v ∉ stack) := by
  intro vs
  induction vs with
  | nil => intro s s' _ h hi; rw [dfsSuccs] at h; cases h; exact ⟨hi, ⟨fun _ h => h, fun _ h => h⟩, by simp⟩
  | cons v vs ih =>
    intro s s' hv h hi
    rw [dfsSuccs] at h
    split at h
    · rename_i hvis
      obtain ⟨s1, h1, h2⟩ := Option.bind_eq_some_iff.1 h
      have hnot : v ∉ stack := fun hm => hvis (hi.onPath v hm)
      have hpv : IsPath succ v (v :: stack) := by
        intro x hx
        rcases mem_cons.1 hx with rfl | hx
        · exact .inl rfl
        · right
          rcases hp x hx with rfl | h
          · exact .edge _ _ (hv v mem_cons_self)
          · exact h.trans (.edge _ _ (hv v mem_cons_self))
      obtain ⟨i1, e1, m1⟩ := hf stack v s s1 h1 hvis hi hpv
      obtain ⟨i2, e2, m2⟩ := ih s1 s' (fun w hw => hv w (mem_cons_of_mem _ hw)) h2 i1
      refine ⟨i2, e1.trans e2, fun w hw => ?_⟩
      rcases mem_cons.1 hw with rfl | hw
      · exact .inr ⟨e2.visited _ m1, hnot⟩
      · exact m2 w hw
    · rename_i hvis
      have hvis : v ∈ s.visited := by by_contra hc; exact hvis hc
      split at h
      · rename_i hst
        have hi' : DInv succ stack ⟨s.visited, (u, v) :: s.back⟩ := by
          refine ⟨hi.onPath, fun x hx hn => acc_mono (fun p hp => mem_cons_of_mem _ hp) (hi.acc x hx hn), ?_⟩
          intro p hpb
          rcases mem_cons.1 hpb with rfl | hpb
          · refine ⟨hv v mem_cons_self, ?_⟩
            rcases hp v hst with h | h
            · exact .inl h.symm
            · exact .inr h
          · exact hi.back p hpb
        obtain ⟨i2, e2, m2⟩ := ih _ s' (fun w hw => hv w (mem_cons_of_mem _ hw)) h hi'
        refine ⟨i2, ⟨e2.visited, fun p hp => e2.back p (mem_cons_of_mem _ hp)⟩, fun w hw => ?_⟩
        rcases mem_cons.1 hw with rfl | hw
        · exact .inl (e2.back _ mem_cons_self)
        · exact m2 w hw
      · rename_i hst
        obtain ⟨i2, e2, m2⟩ := ih s s' (fun w hw => hv w (mem_cons_of_mem _ hw)) h hi
        refine ⟨i2, e2, fun w hw => ?_⟩
        rcases mem_cons.1 hw with rfl | hw
        · exact .inr ⟨e2.visited _ hvis, hst⟩
        · exact m2 w hw

theorem node_ok (succ : String → List String) : ∀ f, NodeOK succ f := by
  intro f
  induction f with
  | zero => intro stack u s s' h; rw [dfsNode] at h; cases h
  | succ f ih =>
    intro stack u s s' h hu hi hp
    rw [dfsNode] at h
    have hi' : DInv succ (u :: stack) ⟨u :: s.visited, s.back⟩ := by
      refine ⟨?_, ?_, hi.back⟩
      · intro x hx
        rcases mem_cons.1 hx with rfl | hx
        · exact mem_cons_self
        · exact mem_cons_of_mem _ (hi.onPath x hx)
      · intro x hx hn
        rcases mem_cons.1 hx with rfl | hx
        · exact absurd mem_cons_self hn
        · exact hi.acc x hx (fun hm => hn (mem_cons_of_mem _ hm))
    obtain ⟨i1, e1, m1⟩ := succs_ok ih mem_cons_self hp (succ u) _ s' (fun v hv => hv) h hi'
    refine ⟨⟨fun x hx => i1.onPath x (mem_cons_of_mem _ hx), ?_, i1.back⟩, ⟨fun x hx => e1.visited x (mem_cons_of_mem _ hx), e1.back⟩, e1.visited _ mem_cons_self⟩
    intro x hx hn
    by_cases hxu : x = u
    · subst hxu
      refine .intro _ fun y hy => ?_
      rcases m1 y hy.1 with hb | ⟨hb, hnst⟩
      · exact absurd hb hy.2
      · exact i1.acc y hb hnst
    · exact i1.acc x hx (fun hm => (mem_cons.1 hm).elim hxu hn)

/-- Enough fuel: the number of nodes not visited yet. -/
theorem dfs_total {succ : String → List String} {U : List String} (hU : ∀ x ∈ U, ∀ y ∈ succ x, y ∈ U) : ∀ (f : Nat),
    (∀ (stack : List String) (u : String) (s : Dfs), u ∈ U → u ∉ s.visited → Graph.left U s.visited ≤ f →
      ∃ s', dfsNode succ f stack u s = some s' ∧ ∀ x ∈ s.visited, x ∈ s'.visited) := by
  intro f
  induction f with
  | zero =>
    intro stack u s hu hn hl
    have := Graph.left_cons_lt hu hn
    omega
  | succ f ih =>
    intro stack u s hu hn hl
    rw [dfsNode]
    have hlt := Graph.left_cons_lt hu hn
    have gen : ∀ (vs : List String) (s : Dfs), (∀ v ∈ vs, v ∈ U) → Graph.left U s.visited ≤ f →
        ∃ s', dfsSuccs (dfsNode succ f (u :: stack)) (u :: stack) u vs s = some s' ∧ ∀ x ∈ s.visited, x ∈ s'.visited := by
      intro vs
      induction vs with
      | nil => intro s _ _; exact ⟨s, by rw [dfsSuccs], fun _ h => h⟩
      | cons v vs ihv =>
        intro s hv hl
        rw [dfsSuccs]
        split
        · rename_i hvis
          obtain ⟨s1, h1, e1⟩ := ih (u :: stack) v s (hv v mem_cons_self) hvis hl
          obtain ⟨s2, h2, e2⟩ := ihv s1 (fun w hw => hv w (mem_cons_of_mem _ hw)) (Nat.le_trans (Graph.left_mono e1) hl)
          exact ⟨s2, by rw [h1]; exact h2, fun x hx => e2 x (e1 x hx)⟩
        · split
          · exact ihv ⟨s.visited, (u, v) :: s.back⟩ (fun w hw => hv w (mem_cons_of_mem _ hw)) hl
          · exact ihv s (fun w hw => hv w (mem_cons_of_mem _ hw)) hl
    obtain ⟨s', h, e⟩ := gen (succ u) ⟨u :: s.visited, s.back⟩ (fun v hv => hU u hu v hv) (by simp only; omega)
    exact ⟨s', h, fun x hx => e x (mem_cons_of_mem _ hx)⟩

theorem roots_ok {succ : String → List String} {U : List String} (hU : ∀ x ∈ U, ∀ y ∈ succ x, y ∈ U) : ∀ (ns : List String) (s : Dfs),
    (∀ n ∈ ns, n ∈ U) → DInv succ [] s → ∃ s', dfsRoots succ U.length ns s = some s' ∧ DInv succ [] s' ∧ DExt s s' ∧ ∀ n ∈ ns, n ∈ s'.visited := by
  intro ns
  induction ns with
  | nil => intro s _ hi; exact ⟨s, rfl, hi, ⟨fun _ h => h, fun _ h => h⟩, by simp⟩
  | cons n ns ih =>
    intro s hn hi
    rw [dfsRoots]
    split
    · rename_i hvis
      have hlen : Graph.left U s.visited ≤ U.length := by unfold Graph.left; exact length_filter_le _ _
      obtain ⟨s1, h1, _⟩ := dfs_total hU U.length [] n s (hn n mem_cons_self) hvis hlen
      obtain ⟨i1, e1, m1⟩ := node_ok succ _ [] n s s1 h1 hvis hi (by intro x hx; exact .inl (mem_singleton.1 hx))
      obtain ⟨s2, h2, i2, e2, m2⟩ := ih s1 (fun w hw => hn w (mem_cons_of_mem _ hw)) i1
      refine ⟨s2, by rw [h1]; exact h2, i2, e1.trans e2, fun w hw => ?_⟩
      rcases mem_cons.1 hw with rfl | hw
      · exact e2.visited _ m1
      · exact m2 w hw
    · rename_i hvis
      have hvis : n ∈ s.visited := by by_contra hc; exact hvis hc
      obtain ⟨s2, h2, i2, e2, m2⟩ := ih s (fun w hw => hn w (mem_cons_of_mem _ hw)) hi
      refine ⟨s2, h2, i2, e2, fun w hw => ?_⟩
      rcases mem_cons.1 hw with rfl | hw
      · exact e2.visited _ hvis
      · exact m2 w hw

theorem acc_no_cycle {E : String → String → Prop} {x : String} (h : Acc (fun y x => E x y) x) : ¬ Path E x x := by
  induction h with
  | intro x _ ih =>
    intro hp
    cases hp with
    | edge _ _ he => exact ih x he (.edge _ _ he)
    | cons _ y _ he hp => exact ih y he (hp.trans (.edge _ _ he))

/-- **C36.** In every finite graph the search of the back edges ends. There is no cycle in the graph without them, and each of them is an edge
of the graph that lies on a cycle. -/
theorem back_edges_break_cycles (nodes : List String) (succ : String → List String) (hclosed : ∀ x ∈ nodes, ∀ y ∈ succ x, y ∈ nodes) :
    ∃ back, findBackEdges nodes succ = some back ∧
      (∀ x ∈ nodes, ¬ Path (fun a b => b ∈ withoutBackEdges succ back a) x x) ∧
      ∀ p ∈ back, p.2 ∈ succ p.1 ∧ (p.1 = p.2 ∨ Path (fun a b => b ∈ succ a) p.2 p.1) := by
  obtain ⟨s, h, hi, _, hv⟩ := roots_ok hclosed nodes ⟨[], []⟩ (fun n hn => hn) ⟨by simp, by simp, by simp⟩
  refine ⟨s.back.reverse, by rw [findBackEdges, h]; rfl, ?_, ?_⟩
  · intro x hx
    have hE : (fun a b => b ∈ withoutBackEdges succ s.back.reverse a) = Kept succ s.back := by
      funext a b
      simp [withoutBackEdges, Kept]
    rw [hE]
    exact acc_no_cycle (hi.acc x (hv x hx) (by simp))
  · intro p hp
    exact hi.back p (mem_reverse.1 hp)

/-! ### The theorems apply -/

/-- Two nested loops and a self loop. -/
def exSucc (x : String) : List String :=
  if x = "A" then ["B"] else if x = "B" then ["C", "F"] else if x = "C" then ["D"] else if x = "D" then ["C", "E"] else if x = "E" then ["B", "E"] else []
def exPred (x : String) : List String := ["A", "B", "C", "D", "E", "F"].filter fun y => decide (x ∈ exSucc y)

example : findBackEdges ["A", "B", "C", "D", "E", "F"] exSucc = some [("D", "C"), ("E", "B"), ("E", "E")] := by decide +kernel
example : (∀ x ∈ ["A", "B", "C", "D", "E", "F"], ∀ y ∈ exSucc x, y ∈ ["A", "B", "C", "D", "E", "F"]) ∧
    (∀ x ∈ ["A", "B", "C", "D", "E", "F"], ∀ y ∈ exPred x, y ∈ ["A", "B", "C", "D", "E", "F"]) := by decide +kernel
example : naturalLoop exPred 20 "E" "B" = some ["C", "D", "E", "B"] ∧ naturalLoop exPred 20 "D" "C" = some ["D", "C"] ∧
    naturalLoop exPred 20 "E" "E" = some ["E"] := by decide +kernel

end Grey.Graphs
