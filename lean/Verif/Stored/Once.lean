/-
Every variable that the reparation keeps in memory is stored once: C95.
-/
import Verif.Stored.Chosen
import Verif.Repair.Cells
namespace Grey.Kept
open List Grey.Repair Grey.Stored

/-! ### Specification -/

/-- The variables that the schedules of the blocks of a tree store themselves (src/greedy/greedy_info.py:57-72). -/
def setsOf (ids : String → List String) (t : DTree String) : List String := (nodes t).flatMap fun b => (ids b).filterMap vsetOf

/-- The stores of the schedules: no variable has two of them, and the reparation adds none for a variable that has one. -/
structure OwnSets (ids vs : String → List String) (t : DTree String) : Prop where
  once : (setsOf ids t).Nodup
  apart : ∀ v ∈ setsOf ids t, ∀ b ∈ nodes t, v ∉ vs b

/-! ### Proofs -/

theorem insertAll_count (w : String) : ∀ (vs : List String) (g g' : List PId × Reach), insertAll vs g = some g' →
    (idStores (g'.1.map readAs)).count w = (idStores (g.1.map readAs)).count w + vs.count w := by
  intro vs
  induction vs with
  | nil => intro g g' h; cases h; rfl
  | cons v vs ih =>
    intro g g' h
    obtain ⟨q, hq, h⟩ := Option.bind_eq_some_iff.1 h
    rw [ih q g' h]
    obtain ⟨e, _, rfl⟩ := Option.map_eq_some_iff.1 hq
    have hs : (idStores (g.1.map readAs)).count w
        = (idStores ((g.1.take e.2.1).map readAs)).count w + (idStores ((g.1.drop e.2.1).map readAs)).count w := by
      rw [← count_append, ← idStores_app, ← map_append, take_append_drop]
    simp only [map_append, map_cons, idStores_app, readAs, idStores, count_append, count_cons]
    omega

theorem count_stores {vs : String → List String} {ids : String → List String} {rb : String → RBlock} {t : DTree String}
    {t' : DTree (SBlock × (String → Bool))} (hch : Chosen vs t t') (v : String) :
    (∀ b ∈ nodes t, (vs b).Nodup) → (∀ b ∈ nodes t, phiStores (rb b) = []) →
    (∀ b ∈ nodes t, (idStores (rb b).ids).count v = ((ids b).filterMap vsetOf).count v + (vs b).count v) →
    (allStores (forestOf rb t)).count v = (setsOf ids t).count v + numStores t' v := by
  induction hch with
  | nil => intro _ _ _; rfl
  | @node b ch rest a ch' rest' h h1 h2 ih1 ih2 =>
    intro hn hp hc
    have m0 : b ∈ nodes (.node b ch rest) := by simp [nodes]
    have m1 : ∀ x ∈ nodes ch, x ∈ nodes (.node b ch rest) := fun x hx => by simp [nodes, hx]
    have m2 : ∀ x ∈ nodes rest, x ∈ nodes (.node b ch rest) := fun x hx => by simp [nodes, hx]
    have e1 := ih1 (fun x hx => hn x (m1 x hx)) (fun x hx => hp x (m1 x hx)) (fun x hx => hc x (m1 x hx))
    have e2 := ih2 (fun x hx => hn x (m2 x hx)) (fun x hx => hp x (m2 x hx)) (fun x hx => hc x (m2 x hx))
    have hst : (vs b).count v = if a.2 v = true then 1 else 0 := by
      by_cases hv : a.2 v = true
      · rw [if_pos hv]
        exact count_eq_one_of_mem (hn b m0) ((h v).2 hv)
      · rw [if_neg hv]
        exact count_eq_zero_of_not_mem fun h' => hv ((h v).1 h')
    have hns : numStores (.node a ch' rest') v = (if a.2 v = true then 1 else 0) + numStores ch' v + numStores rest' v := numStores_node ..
    have hsets : (setsOf ids (.node b ch rest)).count v = ((ids b).filterMap vsetOf).count v + (setsOf ids ch).count v + (setsOf ids rest).count v := by
      simp only [setsOf, nodes, cons_append, flatMap_cons, flatMap_append, count_append, Nat.add_assoc]
    rw [forestOf, allStores, hp b m0, nil_append, count_append, count_append, hc b m0, e1, e2, hns, hsets, hst]
    omega

theorem idStores_sets (l : List String) : idStores (l.map .set) = l := by
  induction l with
  | nil => rfl
  | cons x l ih => rw [map_cons, idStores, ih]

theorem mem_allStores_sets (vs : String → List String) : ∀ (t : DTree String) (v : String),
    v ∈ allStores (forestOf (fun b => ⟨[], [], (vs b).map .set, []⟩) t) → ∃ b ∈ nodes t, v ∈ vs b := by
  intro t
  induction t with
  | nil => intro v h; cases h
  | node b ch rest ih1 ih2 =>
    intro v h
    simp only [forestOf, allStores, phiStores, idStores_sets, mem_append, filter_nil, map_nil, not_mem_nil, false_or] at h
    rcases h with (h | h) | h
    · exact ⟨b, by simp [nodes], h⟩
    · obtain ⟨x, hx, hv⟩ := ih1 v h
      exact ⟨x, by simp [nodes, hx], hv⟩
    · obtain ⟨x, hx, hv⟩ := ih2 v h
      exact ⟨x, by simp [nodes, hx], hv⟩

/-- The placement stores no variable twice, so the blocks with the inserted stores do not, either. -/
theorem stores_once_placed {vs : String → List String} {ids : String → List String} {reach : String → Reach} {inLoop : String → String → Bool}
    {rb : String → RBlock} {t : DTree String} (hroot : ∃ root below, t = .node root below .nil) (hch : Chosen vs t (placement ids reach inLoop t).1)
    (hn : ∀ b ∈ nodes t, (vs b).Nodup) (hown : OwnSets ids vs t) (hp : ∀ b ∈ nodes t, phiStores (rb b) = [])
    (hins : ∀ b ∈ nodes t, ∃ g, insertAll (vs b) ((ids b).map .id, reach b) = some g ∧ (rb b).ids = g.1.map readAs) :
    (allStores (forestOf rb t)).Nodup := by
  rw [nodup_iff_count_le_one]
  intro v
  rw [count_stores (ids := ids) hch v hn hp ?_]
  · obtain ⟨root, below, rfl⟩ := hroot
    have hone : numStores (placement ids reach inLoop (.node root below .nil)).1 v ≤ 1 := by
      have h := stores_dominate_loads (readBlock (ids root) (reach root) (inLoop root)) (mapTree (fun b => readBlock (ids b) (reach b) (inLoop b)) below) v
      by_cases hz : 0 < totalCount (.node (readBlock (ids root) (reach root) (inLoop root)) (mapTree (fun b => readBlock (ids b) (reach b) (inLoop b)) below) .nil) v
      · rcases h.2.1 hz with ⟨-, h⟩ | ⟨-, h, -⟩
        · exact Nat.le_trans (Nat.le_of_eq h) (by omega)
        · exact Nat.le_trans (Nat.le_of_eq h) (by omega)
      · exact Nat.le_trans (Nat.le_of_eq (h.2.2.1 (by omega)).1) (by omega)
    by_cases hv : v ∈ setsOf ids (.node root below .nil)
    · have h0 : numStores (placement ids reach inLoop (.node root below .nil)).1 v = 0 := by
        have hc := count_stores (ids := fun _ => []) (rb := fun b => ⟨[], [], (vs b).map .set, []⟩) hch v hn (fun _ _ => rfl) (fun b _ => by
          simp [idStores_sets])
        have hz : v ∉ allStores (forestOf (fun b => ⟨[], [], (vs b).map .set, []⟩) (.node root below .nil)) := by
          intro hm
          obtain ⟨b, hb, hvb⟩ := mem_allStores_sets vs _ v hm
          exact hown.apart v hv b hb hvb
        rw [count_eq_zero_of_not_mem hz] at hc
        omega
      have := nodup_iff_count_le_one.1 hown.once v
      omega
    · rw [count_eq_zero_of_not_mem hv]
      omega
  · intro b hb
    obtain ⟨g, hg, e⟩ := hins b hb
    rw [e, insertAll_count v _ _ _ hg, idStores_ids]

/-! ### Example: the first block stores `u` itself, and the two blocks below it load `v` -/

def onceTree : DTree String := .node "A" (.node "B" .nil (.node "C" .nil .nil)) .nil
def onceIds : String → List String
  | "A" => ["VSET(u)", "VGET(u)"]
  | _ => ["VGET(v)"]
def onceStores : String → List String
  | "A" => ["v"]
  | _ => []
def onceReach : String → Reach := fun b v => if b = "A" ∧ v = "v" then some (1, 1, false) else none
def onceBlock (b : String) : RBlock :=
  ⟨[], [], (((insertAll (onceStores b) ((onceIds b).map .id, onceReach b)).map (·.1)).getD []).map readAs, []⟩

/-- The example meets the hypotheses of `stores_once_placed`, with a store of the schedule and one of the placement. -/
theorem once_example : setsOf onceIds onceTree = ["u"] ∧ OwnSets onceIds onceStores onceTree ∧
    (∀ b ∈ nodes onceTree, ∃ g, insertAll (onceStores b) ((onceIds b).map .id, onceReach b) = some g ∧ (onceBlock b).ids = g.1.map readAs) ∧
    chosenB onceStores ["u", "v"] onceTree (placement onceIds onceReach (fun _ _ => true) onceTree).1 = true ∧
    allStores (forestOf onceBlock onceTree) = ["u", "v"] := by
  have hs : setsOf onceIds onceTree = ["u"] := by decide +kernel
  refine ⟨hs, ⟨by rw [hs]; decide, ?_⟩, ?_, by decide +kernel, by decide +kernel⟩
  · rw [hs]
    decide
  · intro b hb
    have h : (insertAll (onceStores b) ((onceIds b).map .id, onceReach b)).isSome := by
      revert b
      decide +kernel
    obtain ⟨g, hg⟩ := Option.isSome_iff_exists.1 h
    refine ⟨g, hg, ?_⟩
    unfold onceBlock
    rw [hg]
    rfl

end Grey.Kept
