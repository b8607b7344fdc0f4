/-
C95, C31: the reparation stores a variable only in blocks where it can be reached on the stack, in the loop of its definition.
-/
import Verif.Stored.Once
namespace Grey.Kept
open List Grey.Repair Grey.Stored

theorem chosen_mem {vs : String → List String} {t : DTree String} {t' : DTree (SBlock × (String → Bool))} (h : Chosen vs t t') (g : String → SBlock) :
    (nodes t').map (·.1) = nodes (mapTree g t) → ∀ b ∈ nodes t, ∀ v ∈ vs b, ∃ a ∈ nodes t', a.1 = g b ∧ a.2 v = true := by
  induction h with
  | nil => intro _ b hb; cases hb
  | @node b ch rest a ch' rest' h h1 h2 ih1 ih2 =>
    intro he c hc v hv
    have hlen : ∀ {t : DTree String} {t' : DTree (SBlock × (String → Bool))}, Chosen vs t t' → ((nodes t').map (·.1)).length = (nodes (mapTree g t)).length := by
      intro t t' h
      induction h with
      | nil => rfl
      | node _ _ _ j1 j2 => simp only [mapTree, nodes, map_append, map_cons, length_append, length_cons] at j1 j2 ⊢; omega
    simp only [mapTree, nodes, map_append, map_cons, cons_append, cons.injEq] at he
    obtain ⟨e1, e2⟩ := append_inj he.2 (hlen h1)
    simp only [nodes, cons_append, mem_cons, mem_append] at hc
    rcases hc with rfl | hc | hc
    · exact ⟨a, by simp [nodes], he.1, (h v).1 hv⟩
    · obtain ⟨x, hx, k⟩ := ih1 e1 c hc v hv
      exact ⟨x, by simp [nodes, hx], k⟩
    · obtain ⟨x, hx, k⟩ := ih2 e2 c hc v hv
      exact ⟨x, by simp [nodes, hx], k⟩

/-- The variables that are stored in a block can be duplicated at a position of the block that the reachability analysis has recorded, and their definition is in
the same loop. -/
theorem chosen_reachable {vs : String → List String} {ids : String → List String} {reach : String → Reach} {inLoop : String → String → Bool} {t : DTree String}
    (hroot : ∃ root below, t = .node root below .nil) (hch : Chosen vs t (placement ids reach inLoop t).1) :
    ∀ b ∈ nodes t, ∀ v ∈ vs b, (reach b v).isSome ∧ inLoop b v = true := by
  obtain ⟨root, below, rfl⟩ := hroot
  intro b hb v hv
  obtain ⟨e, -, -, h⟩ := stores_dominate_loads (readBlock (ids root) (reach root) (inLoop root)) (mapTree (fun b => readBlock (ids b) (reach b) (inLoop b)) below) v
  obtain ⟨a, ha, e1, e2⟩ := chosen_mem hch (fun b => readBlock (ids b) (reach b) (inLoop b)) e b hb v hv
  obtain ⟨h1, h2⟩ := h a ha e2
  rw [e1] at h1 h2
  exact ⟨h1, h2⟩

/-- The example of `Once.lean` meets the hypotheses: `v` is stored in the first block. -/
theorem once_chosen : Chosen onceStores onceTree (placement onceIds onceReach (fun _ _ => true) onceTree).1 := by
  refine chosen_of_check (vars := ["u", "v"]) _ _ once_example.2.2.2.1 fun v hv => (not_loaded fun b hb h => hv ?_).1
  have : ∀ b ∈ nodes onceTree, ∀ v ∈ (onceIds b).filterMap vgetOf, v ∈ ["u", "v"] := by decide +kernel
  exact this b hb v h

example : (onceReach "A" "v").isSome := (chosen_reachable ⟨_, _, rfl⟩ once_chosen "A" (by decide) "v" (by decide)).1

end Grey.Kept
