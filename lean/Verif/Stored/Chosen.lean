/-
The stores that the reparation inserts are before the loads: C95.
-/
import Verif.Stored.KeptPlaces
namespace Grey.Kept
open List Grey.Repair Grey.Stored Grey.SymExec

/-! ### Model -/

def mapTree {α β : Type} (g : α → β) : DTree α → DTree β
  | .nil => .nil
  | .node a ch rest => .node (g a) (mapTree g ch) (mapTree g rest)

/-- What the placement of stores reads of a block, when no phi function is kept in memory: the loads of its schedule, the variables that can be reached, and whether it is in the same
loops as the definition of a variable (src/reparation/insert_placeholders.py:230-275). -/
def readBlock (ids : List String) (reach : Reach) (inLoop : String → Bool) : SBlock := ⟨(initialGetCount ids).1, fun v => (reach v).isSome, inLoop⟩

/-- The placement of the stores of a component with the tree `t` (src/reparation/insert_placeholders.py:207-223). -/
def placement (ids : String → List String) (reach : String → Reach) (inLoop : String → String → Bool) (t : DTree String) :
    DTree (SBlock × (String → Bool)) × (String → Bool) := storeAll (mapTree (fun b => readBlock (ids b) (reach b) (inLoop b)) t)

/-- The variables `vs b` are those that are stored in `b`, in any order (the code traverses a set, src/reparation/insert_placeholders.py:262-272). -/
inductive Chosen (vs : String → List String) : DTree String → DTree (SBlock × (String → Bool)) → Prop where
  | nil : Chosen vs .nil .nil
  | node {b : String} {ch rest : DTree String} {a : SBlock × (String → Bool)} {ch' rest' : DTree (SBlock × (String → Bool))} (h : ∀ v, v ∈ vs b ↔ a.2 v = true)
      (h1 : Chosen vs ch ch') (h2 : Chosen vs rest rest') : Chosen vs (.node b ch rest) (.node a ch' rest')

/-! ### Proofs -/

theorem chosen_node {vs : String → List String} {g : String → SBlock} {t : DTree String} {anc : List String} {n : String} (hn : Node t anc n) : ∀ left,
    Chosen vs t (storeTree (mapTree g t) left).tree → ∃ anc' a, Node (storeTree (mapTree g t) left).tree anc' a ∧ a.1 = g n ∧
      (∀ v, a.2 v = true → v ∈ vs n) ∧ ∀ x ∈ anc', ∀ v, x.2 v = true → ∃ y ∈ anc, v ∈ vs y := by
  induction hn with
  | here b ch rest =>
    intro left h
    simp only [mapTree, storeTree] at h ⊢
    cases h with
    | node h h1 h2 => exact ⟨[], _, .here _ _ _, rfl, fun v hv => (h v).2 hv, fun x hx => by cases hx⟩
  | inside b ch rest anc n _ ih =>
    intro left h
    simp only [mapTree, storeTree] at h ⊢
    cases h with
    | node h h1 h2 =>
      obtain ⟨anc', a, k1, k2, k3, k4⟩ := ih _ h1
      refine ⟨_ :: anc', a, .inside _ _ _ _ _ k1, k2, k3, ?_⟩
      intro x hx v hv
      rcases mem_cons.1 hx with rfl | hx
      · exact ⟨b, mem_cons_self, (h v).2 hv⟩
      · obtain ⟨y, hy, h'⟩ := k4 x hx v hv
        exact ⟨y, mem_cons_of_mem _ hy, h'⟩
  | next b ch rest anc n _ ih =>
    intro left h
    simp only [mapTree, storeTree] at h ⊢
    cases h with
    | node h h1 h2 =>
      obtain ⟨anc', a, k1, k2, k3, k4⟩ := ih _ h2
      exact ⟨anc', a, .next _ _ _ _ _ k1, k2, k3, k4⟩

theorem readAs_get {s v : String} (hr : readAs (.id s) = .get v) : vgetOf s = some v := by
  unfold readAs at hr
  cases hg : vgetOf s with
  | some u => simp only [hg] at hr; cases hr; rfl
  | none =>
    simp only [hg] at hr
    cases hs : vsetOf s <;> simp [hs] at hr

theorem total_pos {g : String → SBlock} {v : String} {t : DTree String} {anc : List String} {n : String} (hn : Node t anc n) (h : 0 < (g n).count v) :
    0 < totalCount (mapTree g t) v := by
  induction hn with
  | here => simp only [mapTree, totalCount]; omega
  | inside _ _ _ _ _ _ ih => have := ih h; simp only [mapTree, totalCount]; omega
  | next _ _ _ _ _ _ ih => have := ih h; simp only [mapTree, totalCount]; omega

theorem originals_split : ∀ (p q : List PId), originals (p ++ q) = originals p ++ originals q := by
  intro p q
  induction p with
  | nil => rfl
  | cons x p ih => cases x <;> simp [originals, ih]

theorem set_stored {s v : String} (h : vsetOf s = some v) : ∀ (p : List PId), s ∈ originals p → v ∈ idStores (p.map readAs) := by
  intro p
  induction p with
  | nil => intro hs; cases hs
  | cons x p ih =>
    intro hs
    have hmono : ∀ y, v ∈ idStores (p.map readAs) → v ∈ idStores (y :: p.map readAs) := by
      intro y hv
      cases y <;> simp [idStores, hv]
    cases x with
    | dupSet u d => exact hmono _ (ih hs)
    | id t =>
      rcases mem_cons.1 hs with rfl | hs
      · have hg : vgetOf s = none := by
          cases hg : vgetOf s with
          | none => rfl
          | some w => rw [vget_vset hg] at h; cases h
        simp [readAs, hg, h, idStores]
      · exact hmono _ (ih hs)

theorem dupSet_stored {v : String} {d : Nat} : ∀ (p : List PId), PId.dupSet v d ∈ p → v ∈ idStores (p.map readAs) := by
  intro p
  induction p with
  | nil => intro h; cases h
  | cons x p ih =>
    intro h
    rcases mem_cons.1 h with rfl | h
    · simp [readAs, idStores]
    · have := ih h
      rw [map_cons]
      cases readAs x <;> simp [idStores, this]

/-- A load that is not preceded by a store in its block is counted. -/
theorem load_counted {pids : List PId} {i : Nat} {v : String} (hi : (pids.map readAs)[i]? = some (.get v)) (hn : v ∉ idStores ((pids.map readAs).take i)) :
    0 < (initialGetCount (originals pids)).1 v := by
  rw [getElem?_map, Option.map_eq_some_iff] at hi
  obtain ⟨x, hx, hr⟩ := hi
  obtain ⟨hlt, hx'⟩ := List.getElem?_eq_some_iff.1 hx
  have hsplit : pids = pids.take i ++ x :: pids.drop (i + 1) := by
    rw [← hx', ← drop_eq_getElem_cons hlt, take_append_drop]
  cases x with
  | dupSet u d => cases hr
  | id s =>
    have hg : vgetOf s = some v := readAs_get hr
    rw [getCount_exact, length_pos_iff_exists_mem]
    refine ⟨(originals (pids.take i)).length, mem_filter.2 ⟨?_, ?_⟩⟩
    · rw [mem_range]
      conv => rhs; rw [hsplit, originals_split]
      simp [originals]
    · unfold PendingLoad
      rw [Bool.and_eq_true]
      have he : originals pids = originals (pids.take i) ++ s :: originals (pids.drop (i + 1)) := by
        conv => lhs; rw [hsplit, originals_split]
        rfl
      rw [he]
      refine ⟨by simp [hg], ?_⟩
      rw [take_left', all_eq_true]
      · intro t ht
        rw [bne_iff_ne]
        intro hs
        apply hn
        rw [← map_take]
        exact set_stored hs _ ht
      · rfl

/-- If the stores are placed by the reparation, which gives up no variable, and inserted before the loads of their blocks, then every load is preceded by a store in its block or a block
above. -/
theorem reads_stored {W : Written} {T : String → DTree String} {f : String} {ids : String → List String} {reach : String → Reach} {inLoop : String → String → Bool}
    {vs : String → List String} (hroot : ∃ root below, T f = .node root below .nil) (hch : Chosen vs (T f) (placement ids reach inLoop (T f)).1)
    (hkept : ∀ v, (placement ids reach inLoop (T f)).2 v = false)
    (hb : ∀ b ∈ nodes (T f), originals (W.pids f b) = ids b ∧ ∀ v ∈ vs b, ∃ p d q, W.pids f b = p ++ .dupSet v d :: q ∧ ∀ s, PId.id s ∈ p → vgetOf s ≠ some v) :
    ReadsStored (scanTree W T f) := by
  intro ancr b chr h
  obtain ⟨anc, n, c, hn, rfl, rfl, rfl⟩ := in_forest h
  have hmem : ∀ {anc n}, Node (T f) anc n → n ∈ nodes (T f) := fun h => by
    obtain ⟨c, H', k⟩ := at_of_node (rb := fun _ => ⟨[], [], [], []⟩) h []
    exact k.mem.1
  refine ⟨?_, fun v hv => by cases hv⟩
  intro i v hi
  by_cases hst : v ∈ idStores ((scanned W f n).ids.take i)
  · exact .inr (.inr hst)
  · obtain ⟨k1, k2⟩ := hb n (hmem hn)
    have hcount := load_counted (pids := W.pids f n) hi hst
    rw [k1] at hcount
    obtain ⟨root, below, hT⟩ := hroot
    have htot : 0 < totalCount (mapTree (fun b => readBlock (ids b) (reach b) (inLoop b)) (T f)) v := total_pos (g := fun b => readBlock (ids b) (reach b) (inLoop b)) hn hcount
    have hdom := (stores_dominate_loads (readBlock (ids root) (reach root) (inLoop root)) (mapTree (fun b => readBlock (ids b) (reach b) (inLoop b)) below) v).2.1
    have hmt : mapTree (fun b => readBlock (ids b) (reach b) (inLoop b)) (T f) =
        .node (readBlock (ids root) (reach root) (inLoop root)) (mapTree (fun b => readBlock (ids b) (reach b) (inLoop b)) below) .nil := by rw [hT]; rfl
    rw [← hmt] at hdom
    rcases hdom htot with ⟨h1, -⟩ | ⟨-, -, h2⟩
    · have := hkept v
      unfold placement at this
      rw [h1] at this
      cases this
    · obtain ⟨anc', a, g1, g2, g3, g4⟩ := chosen_node hn _ hch
      obtain ⟨a', ha', hs⟩ := h2 anc' a g1 (by rw [g2]; exact hcount)
      rcases mem_append.1 ha' with ha' | ha'
      · obtain ⟨y, hy, hvy⟩ := g4 a' ha' v hs
        obtain ⟨ancy, hny⟩ := node_anc hn y hy
        obtain ⟨p, d, q, e, -⟩ := (hb y (hmem hny)).2 v hvy
        refine .inl ⟨scanned W f y, mem_map_of_mem hy, mem_append_right _ ?_⟩
        exact dupSet_stored (W.pids f y) (d := d) (by rw [e]; simp)
      · rw [mem_singleton] at ha'
        subst ha'
        obtain ⟨p, d, q, e, hp⟩ := k2 v (g3 v hs)
        exfalso
        apply hst
        have hlen : p.length < i := by
          rcases Nat.lt_trichotomy i p.length with hlt | heq | hgt
          · exfalso
            have hi' : ((W.pids f n).map readAs)[i]? = some (.get v) := hi
            rw [getElem?_map, e, getElem?_append_left hlt, Option.map_eq_some_iff] at hi'
            obtain ⟨x, hx, hr⟩ := hi'
            cases x with
            | dupSet u d => cases hr
            | id s =>
              exact hp s (mem_of_getElem? hx) (readAs_get hr)
          · exfalso
            have hi' : ((W.pids f n).map readAs)[i]? = some (.get v) := hi
            rw [getElem?_map, e, heq] at hi'
            simp [readAs] at hi'
          · exact hgt
        show v ∈ idStores (((W.pids f n).map readAs).take i)
        rw [← map_take]
        refine dupSet_stored _ (d := d) ?_
        rw [mem_iff_getElem?]
        exact ⟨p.length, by rw [getElem?_take_of_lt hlen, e]; simp⟩

/-! ### A check -/

/-- Whether the variables `vs` are those that are stored, among `vars`. -/
def chosenB (vs : String → List String) (vars : List String) : DTree String → DTree (SBlock × (String → Bool)) → Bool
  | .nil, .nil => true
  | .node b ch rest, .node a ch' rest' =>
    vars.all (fun v => decide (v ∈ vs b) == a.2 v) && (vs b).all (fun v => decide (v ∈ vars)) && chosenB vs vars ch ch' && chosenB vs vars rest rest'
  | _, _ => false

theorem chosen_of_check {vs : String → List String} {vars : List String} : ∀ (t : DTree String) (t' : DTree (SBlock × (String → Bool))), chosenB vs vars t t' = true →
    (∀ v, v ∉ vars → ∀ a ∈ nodes t', a.2 v = false) → Chosen vs t t' := by
  intro t
  induction t with
  | nil =>
    intro t' h _
    cases t' with
    | nil => exact .nil
    | node => cases h
  | node b ch rest ih1 ih2 =>
    intro t' h hout
    cases t' with
    | nil => cases h
    | node a ch' rest' =>
      simp only [chosenB, Bool.and_eq_true, all_eq_true, beq_iff_eq, decide_eq_true_eq] at h
      obtain ⟨⟨⟨h1, h2⟩, h3⟩, h4⟩ := h
      simp only [nodes, cons_append, mem_cons, mem_append] at hout
      refine .node ?_ (ih1 _ h3 fun v hv a ha => hout v hv a (.inr (.inl ha))) (ih2 _ h4 fun v hv a ha => hout v hv a (.inr (.inr ha)))
      intro v
      by_cases hv : v ∈ vars
      · rw [← h1 v hv, decide_eq_true_eq]
      · rw [hout v hv a (.inl rfl)]
        exact ⟨fun h => absurd (h2 v h) hv, fun h => by cases h⟩

theorem stores_none {v : String} {t : DTree (SBlock × (String → Bool))} (h : numStores t v = 0) : ∀ a ∈ nodes t, a.2 v = false := by
  intro a ha
  unfold numStores at h
  rw [length_eq_zero_iff, filter_eq_nil_iff] at h
  simpa using h a ha

theorem counted_loaded {ids : List String} {v : String} (h : 0 < (initialGetCount ids).1 v) : v ∈ ids.filterMap vgetOf := by
  rw [getCount_exact, length_pos_iff_exists_mem] at h
  obtain ⟨i, hi⟩ := h
  have := (mem_filter.1 hi).2
  unfold PendingLoad at this
  rw [Bool.and_eq_true] at this
  have h1 := beq_iff_eq.1 this.1
  obtain ⟨s, hs, hv⟩ := Option.bind_eq_some_iff.1 h1
  exact mem_filterMap.2 ⟨s, mem_of_getElem? hs, hv⟩

/-- Variables that are not loaded are not stored and not given up. -/
theorem not_loaded {ids : String → List String} {reach : String → Reach} {inLoop : String → String → Bool} {v root : String} {below : DTree String}
    (h : ∀ b ∈ nodes (.node root below .nil), v ∉ (ids b).filterMap vgetOf) :
    (∀ a ∈ nodes (placement ids reach inLoop (.node root below .nil)).1, a.2 v = false) ∧ (placement ids reach inLoop (.node root below .nil)).2 v = false := by
  have htot : ∀ (t : DTree String), (∀ b ∈ nodes t, v ∉ (ids b).filterMap vgetOf) → totalCount (mapTree (fun b => readBlock (ids b) (reach b) (inLoop b)) t) v = 0 := by
    intro t
    induction t with
    | nil => intro _; rfl
    | node b ch rest ih1 ih2 =>
      intro h
      simp only [nodes, cons_append, mem_cons, mem_append] at h
      simp only [mapTree, totalCount]
      rw [ih1 fun b hb => h b (.inr (.inl hb)), ih2 fun b hb => h b (.inr (.inr hb))]
      have : (readBlock (ids b) (reach b) (inLoop b)).count v = 0 := by
        rcases Nat.eq_zero_or_pos ((initialGetCount (ids b)).1 v) with h' | h'
        · exact h'
        · exact absurd (counted_loaded h') (h b (.inl rfl))
      omega
  obtain ⟨h1, h2⟩ := (stores_dominate_loads (readBlock (ids root) (reach root) (inLoop root)) (mapTree (fun b => readBlock (ids b) (reach b) (inLoop b)) below) v).2.2.1 (htot _ h)
  exact ⟨stores_none h1, h2⟩

end Grey.Kept
