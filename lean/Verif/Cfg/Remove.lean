/-
C26: removing unreachable blocks.
-/
import Verif.Cfg.Combine
namespace Grey.Cfg
open List

theorem removeAll_spec : ∀ (xs : List String) (G : BlockList), (G.blocks.map (·.id)).Nodup → xs.Nodup →
    (∀ x ∈ xs, ∃ X, G.get x = some X) → (∀ x ∈ xs, G.start ≠ some x) →
    ∃ G', removeAll xs G = some G' ∧ G'.start = G.start ∧ (G'.blocks.map (·.id)).Nodup ∧
      G'.blocks = G.blocks.filter (fun b => decide (b.id ∉ xs)) ∧
      (G'.terminals = G.terminals.filter fun x => decide (x ∉ xs)) ∧ (G'.returns = G.returns.filter fun x => decide (x ∉ xs)) ∧
      ∀ x, G'.get x = if x ∈ xs then none else G.get x := by
  intro xs
  induction xs with
  | nil =>
    intro G h1 _ _ _
    refine ⟨G, rfl, rfl, h1, ?_, ?_, ?_, fun x => by simp⟩ <;> simp
  | cons a xs ih =>
    intro G h1 h2 h3 h4
    rw [nodup_cons] at h2
    obtain ⟨A, hA⟩ := h3 a mem_cons_self
    obtain ⟨G1, hr, hb, hs⟩ := remove_succeeds hA
    have hg := get_remove hr
    rw [if_neg (h4 a mem_cons_self)] at hs
    have hn : (G1.blocks.map (·.id)).Nodup := by
      rw [hb]; exact (filter_sublist.map _).nodup h1
    obtain ⟨G', hr', hs', hn', hb', ht', hrt', hg'⟩ := ih G1 hn h2.2 (by
      intro x hx
      obtain ⟨X, hX⟩ := h3 x (mem_cons_of_mem _ hx)
      refine ⟨X, ?_⟩
      rw [hg, if_neg (by rintro rfl; exact h2.1 hx), hX]) (by
      intro x hx; rw [hs]; exact h4 x (mem_cons_of_mem _ hx))
    have htr : G1.terminals = G.terminals.filter (fun x => x != a) ∧ G1.returns = G.returns.filter (fun x => x != a) := by
      unfold BlockList.removeBlock at hr
      split at hr
      · cases hr; exact ⟨rfl, rfl⟩
      · cases hr
    have hff : ∀ l : List String, (l.filter fun x => x != a).filter (fun x => decide (x ∉ xs)) =
        l.filter fun x => decide (x ∉ a :: xs) := by
      intro l
      rw [filter_filter]
      congr 1
      funext x
      by_cases hxa : x = a <;> by_cases hxs : x ∈ xs <;> simp [hxa, hxs]
    refine ⟨G', by unfold removeAll; rw [hr]; exact hr', hs'.trans hs, hn', ?_, ?_, ?_, ?_⟩
    · rw [hb', hb, filter_filter]
      congr 1
      funext x
      by_cases hxa : x.id = a <;> by_cases hxs : x.id ∈ xs <;> simp [hxa, hxs]
    · rw [ht', htr.1, hff]
    · rw [hrt', htr.2, hff]
    · intro x
      rw [hg', hg]
      by_cases hx : x ∈ xs
      · simp [hx]
      · by_cases hxa : x = a
        · simp [hxa]
        · simp [hxa, hx]

/-- Two block lists with the same blocks wherever an execution can get behave alike. -/
theorem same_of_get {G G' : BlockList} (good : String → Prop) (hget : ∀ x, good x → G'.get x = G.get x)
    (hsucc : ∀ x, good x → ∀ y ∈ G.succ x, good y) {V W : Type} (sem : Sem V W) (c : Config V W) (hc : good c.cur) :
    SameBehaviour (stepBlock sem G) c (stepBlock sem G') c ∧ ∀ d, Gets (stepBlock sem G) c d → Gets (stepBlock sem G') c d := by
  refine simulation id (fun c => good c.cur) ?_ ?_ hc
  · intro c d h hst
    unfold stepBlock at hst
    split at hst
    · cases hst
    · rename_i b hb
      split at hst
      · cases hst
      · split at hst
        · cases hst
        · rename_i env _ s _
          have : d.cur ∈ b.succs := by
            unfold leave at hst
            rw [mem_succs]
            split at hst
            · cases hst
            · rename_i h1 _; cases hst; exact Or.inl h1
            · rename_i _ h2; cases hst; exact Or.inr h2
            · rename_i h1 h2
              split at hst
              · split at hst <;> cases hst
                · exact Or.inl h1
                · exact Or.inr h2
              · cases hst
          refine hsucc c.cur h d.cur ?_
          unfold BlockList.succ
          rw [hb]; exact this
  · intro c h
    left
    have : stepBlock sem G' (id c) = stepBlock sem G c := by
      unfold stepBlock
      simp only [id_eq]
      rw [hget _ h]
    rw [this]
    cases stepBlock sem G c <;> rfl

/-- **C26.** In a graph with unique names whose targets exist, the removal keeps exactly the blocks that a path from the entry
leads to, each unchanged, with the same entry, and lists as terminal and returning blocks exactly those kept; the
program behaves as before. -/
theorem remove_unreachable {G : BlockList} (hG : Coherent G) {s : String} {S : Block} (hs : G.start = some s)
    (hS : G.get s = some S) :
    ∃ G', removeBlocks G = some G' ∧ G'.start = some s ∧
      (∀ b, b ∈ G'.blocks ↔ b ∈ G.blocks ∧ Graph.Reach G.succ s b.id) ∧
      (∀ x, x ∈ G'.terminals ↔ x ∈ G.terminals ∧ (Graph.Reach G.succ s x ∨ G.get x = none)) ∧
      (∀ x, x ∈ G'.returns ↔ x ∈ G.returns ∧ (Graph.Reach G.succ s x ∨ G.get x = none)) ∧
      (∀ x, Graph.Reach G.succ s x → G'.get x = G.get x) ∧ (∀ x, ¬ Graph.Reach G.succ s x → G'.get x = none) ∧
      ∀ (V W : Type) (sem : Sem V W) (st : St V W),
        SameBehaviour (stepBlock sem G) (init s st) (stepBlock sem G') (init s st) ∧
        ∀ d, Gets (stepBlock sem G) (init s st) d → Gets (stepBlock sem G') (init s st) d := by
  have hnodes := nodes_of_coherent hG
  have hU : ∀ x ∈ G.nodes, ∀ y ∈ G.succ x, y ∈ G.nodes := by
    intro x hx y hy
    unfold BlockList.succ at hy
    split at hy
    · rename_i X hX
      obtain ⟨Y, hY⟩ := hG.targets x X hX y hy
      exact mem_nodes_of_get hY
    · cases hy
  have hexact : ∀ x, x ∈ Graph.dfs G.succ (G.nodes.length + 2) [] s ↔ Graph.Reach G.succ s x := by
    intro x
    have := Graph.dfsAll_exact (succ := G.succ) (U := G.nodes) hU (roots := [s]) (by
      intro y hy; rw [mem_singleton] at hy; subst hy; exact mem_nodes_of_get hS) (fuel := G.nodes.length + 2) (by omega) x
    simp only [Graph.dfsAll, foldl_cons, foldl_nil, mem_singleton, exists_eq_left] at this
    exact this
  have hmem : ∀ x, x ∈ nodesToRemove G s ↔ x ∈ G.blocks.map (·.id) ∧ ¬ Graph.Reach G.succ s x := by
    intro x
    unfold nodesToRemove
    simp only [mem_filter, decide_eq_true_eq]
    rw [hexact, hnodes]
  obtain ⟨G', h1, h2, h3, h4, h5, h6, h7⟩ := removeAll_spec (nodesToRemove G s) G hG.ids (by
      unfold nodesToRemove
      simp only
      apply Nodup.filter
      rw [hnodes]; exact hG.ids)
    (fun x hx => get_isSome_iff.2 ((hmem x).1 hx).1)
    (fun x hx he => by
      rw [hs] at he
      cases he
      exact ((hmem _).1 hx).2 .refl)
  have hgetR : ∀ x, Graph.Reach G.succ s x → G'.get x = G.get x := by
    intro x hx
    rw [h7, if_neg]
    intro hm
    exact ((hmem x).1 hm).2 hx
  have hterm : ∀ x, x ∉ nodesToRemove G s ↔ (Graph.Reach G.succ s x ∨ G.get x = none) := by
    intro x
    rw [hmem, get_none_iff]
    tauto
  refine ⟨G', by unfold removeBlocks; rw [hs]; exact h1, h2.trans hs, ?_, ?_, ?_, hgetR, ?_, ?_⟩
  · intro b
    rw [h4, mem_filter, decide_eq_true_eq, hmem]
    constructor
    · rintro ⟨hb, hn⟩
      refine ⟨hb, ?_⟩
      by_contra hr
      exact hn ⟨mem_map.2 ⟨b, hb, rfl⟩, hr⟩
    · rintro ⟨hb, hr⟩
      exact ⟨hb, fun h => h.2 hr⟩
  · intro x; rw [h5, mem_filter, decide_eq_true_eq, hterm]
  · intro x; rw [h6, mem_filter, decide_eq_true_eq, hterm]
  · intro x hx
    rw [h7]
    by_cases hm : x ∈ nodesToRemove G s
    · rw [if_pos hm]
    · rw [if_neg hm]
      rcases (hterm x).1 hm with h | h
      · exact absurd h hx
      · exact h
  · intro V W sem st
    refine same_of_get (fun x => Graph.Reach G.succ s x) hgetR ?_ sem (init s st) .refl
    intro x hx y hy
    exact hx.tail hy

/-- **C26, predecessor lists.** If no unreachable block leads to a reachable one, the result is well-formed again. (Without this
the predecessor lists keep the names of removed blocks, see `removal_leaves_stale_predecessors`.) -/
theorem remove_coherent {G : BlockList} (hG : Sane G) {s : String} (hs : G.start = some s)
    (hun : ∀ q Q, G.get q = some Q → Graph.Reach G.succ s q → ∀ p ∈ Q.comesFrom, Graph.Reach G.succ s p)
    {G' : BlockList} (hr : removeBlocks G = some G') : Sane G' := by
  obtain ⟨s', S, hs', hS⟩ := hG.start
  rw [hs] at hs'
  cases hs'
  obtain ⟨G1, h1, h2, h3, -, -, h4, h5, -⟩ := remove_unreachable hG.coherent hs hS
  rw [hr] at h1
  cases h1
  have hold : ∀ x X, G'.get x = some X → Graph.Reach G.succ s x ∧ G.get x = some X := by
    intro x X hX
    by_cases hx : Graph.Reach G.succ s x
    · exact ⟨hx, by rw [← h4 x hx]; exact hX⟩
    · rw [h5 x hx] at hX; cases hX
  refine ⟨⟨?_, ?_, ?_, ?_, ?_⟩, ?_, ?_, ?_⟩
  · have : G'.blocks.map (·.id) <+ G.blocks.map (·.id) := by
      have hsub : G'.blocks <+ G.blocks := by
        have hnodes := nodes_of_coherent hG.coherent
        unfold removeBlocks at hr
        rw [hs] at hr
        simp only [Option.bind_some] at hr
        have hrs : ∀ (xs : List String) (A B : BlockList), removeAll xs A = some B → B.blocks <+ A.blocks := by
          intro xs
          induction xs with
          | nil => intro A B h; cases h; exact Sublist.refl _
          | cons a xs ih =>
            intro A B h
            unfold removeAll at h
            obtain ⟨C, hC, hCB⟩ := Option.bind_eq_some_iff.1 h
            refine (ih C B hCB).trans ?_
            unfold BlockList.removeBlock at hC
            split at hC
            · cases hC; exact filter_sublist
            · cases hC
        exact hrs _ _ _ hr
      exact hsub.map _
    exact this.nodup hG.coherent.ids
  · intro p q P Q hP hQ
    exact hG.coherent.edges p q P Q (hold p P hP).2 (hold q Q hQ).2
  · intro q Q hQ x hx
    obtain ⟨h6, h7⟩ := hold q Q hQ
    obtain ⟨P, hP⟩ := hG.coherent.preds q Q h7 x hx
    exact ⟨P, by rw [h4 x (hun q Q h7 h6 x hx)]; exact hP⟩
  · intro p P hP x hx
    obtain ⟨h6, h7⟩ := hold p P hP
    obtain ⟨Q, hQ⟩ := hG.coherent.targets p P h7 x hx
    refine ⟨Q, ?_⟩
    rw [h4 x (h6.tail ?_)]
    · exact hQ
    · unfold BlockList.succ; rw [h7]; exact hx
  · intro q Q hQ; exact hG.coherent.once q Q (hold q Q hQ).2
  · intro x b hb; exact hG.noDouble x b (hold x b hb).2
  · intro q Q hQ; exact hG.entries q Q (hold q Q hQ).2
  · exact ⟨s, S, h2, by rw [h4 s .refl]; exact hS⟩

/-- A program with an unreachable block that leads to a reachable one. -/
def exDead : BlockList :=
  { start := some "A"
    terminals := ["C"]
    blocks := [
      { id := "A", instrs := [⟨"gas", [], ["g"]⟩], jumpType := "unconditional", jumpTo := some "C" },
      { id := "B", instrs := [⟨"sstore", ["g", "g"], []⟩], jumpType := "unconditional", jumpTo := some "C" },
      { id := "C", instrs := [⟨"stop", [], []⟩], jumpType := "mainExit", comesFrom := ["A", "B"] }] }

example : Sane exDead ∧ exDead.start = some "A" ∧ (exDead.get "A").isSome = true :=
  ⟨sane_of_check (by decide +kernel), rfl, by decide +kernel⟩

/-- **C26, finding**: after the removal the predecessor lists still name the removed blocks. -/
theorem removal_leaves_stale_predecessors :
    ∃ G', removeBlocks exDead = some G' ∧ G'.blocks.map (·.id) = ["A", "C"] ∧ (G'.get "C").map (·.comesFrom) = some ["A", "B"] :=
  ⟨(removeBlocks exDead).get (by decide +kernel), by simp, by decide +kernel, by decide +kernel⟩

/-- ... and a later split of such a block raises an exception. -/
theorem split_fails_after_removal : (removeBlocks exDead).bind (splitBlock 0 "C") = none := by decide +kernel

/-- The whole simplification pass (merges, then removal) preserves the program. -/
theorem combineRemove_preserves {names : List String} {G : BlockList} (hG : Sane G)
    (hstart : ∀ p ∈ nodesToMerge names G, G.start ≠ some p.2)
    (hphi : ∀ p ∈ nodesToMerge names G, ∀ B, G.get p.2 = some B → ∀ i ∈ B.instrs, isPhi i = false)
    (hloop : ∀ h w, Relation.TransGen (fun u v => (u, v) ∈ nodesToMerge names G) h w → h ∉ G.succ w) :
    ∃ G', combineRemove names G = some G' ∧ G'.start = G.start ∧
      (∀ s, G.start = some s → ∀ b ∈ G'.blocks, Graph.Reach G'.succ s b.id) ∧
      ∀ (V W : Type) (sem : Sem V W) (s : String) (st : St V W), G.start = some s →
        SameBehaviour (stepBlock sem G) (init s st) (stepBlock sem G') (init s st) := by
  obtain ⟨H, h1, h2, h3, -, h4⟩ := combine_preserves hG hstart hphi hloop
  obtain ⟨s, S, hs, hS⟩ := h2.start
  obtain ⟨G', h5, h6, h7, -, -, h8, -, h9⟩ := remove_unreachable h2.coherent hs hS
  refine ⟨G', by unfold combineRemove; rw [h1]; exact h5, by rw [h6, ← h3, hs], ?_, ?_⟩
  · intro s' hs' b hb
    rw [← h3, hs] at hs'
    cases hs'
    have hr := ((h7 b).1 hb).2
    have : ∀ x, Graph.Reach H.succ s x → Graph.Reach G'.succ s x := by
      intro x hx
      induction hx with
      | refl => exact .refl
      | tail hx hxy ih =>
        refine ih.tail ?_
        have := h8 _ hx
        unfold BlockList.succ at hxy ⊢
        rw [this]; exact hxy
    exact this _ hr
  · intro V W sem s' st hs'
    refine (h4 V W sem s' st hs').trans ?_
    rw [← h3, hs] at hs'
    cases hs'
    exact (h9 V W sem st).1

example : (combineRemove [] exRun).bind (fun G => runFor exSem G 20 (init "B0" exSt)) = runFor exSem exLine 20 (init "B0" exSt) := by
  decide +kernel

end Grey.Cfg
