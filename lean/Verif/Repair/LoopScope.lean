/-
The loop of the definition of a variable and the blocks in which it may be stored (src/reparation/insert_placeholders.py:115-182): C77.
-/
import Verif.Graphs.Forest
import Verif.Repair.PhiRepair
namespace Grey.Repair
open List Graphs

/-! ### Model -/

/-- `forest_graph.successors`. -/
def fSuccs (F : LoopForest) (b : String) : List String := (F.edges.filter fun e => e.1 == b).map Prod.snd

/-- `forest_graph.predecessors`. -/
def fPreds (F : LoopForest) (b : String) : List String := (F.edges.filter fun e => e.2 == b).map Prod.fst

/-- `var2header[variable] = h` for all of `vs`. -/
def setAll (M : String → Option String) (vs : List String) (h : String) : String → Option String := fun v => if v ∈ vs then some h else M v

/-- The loop of `variable2block_header` (src/reparation/insert_placeholders.py:122-141). `none`: the AssertionError. Simplification: `declared` is
`declared_variables` of the block with the name, all blocks exist. -/
def headerLoop (F : LoopForest) (declared : String → List String) : List String → (String → Option String) → Option (String → Option String)
  | [], M => some M
  | b :: bs, M =>
    if fSuccs F b = [] then
      match fPreds F b with
      | [p] => headerLoop F declared bs (setAll M (declared b) p)
      | _ => none
    else headerLoop F declared bs (setAll M (declared b) b)

/-- `variable2block_header` (src/reparation/insert_placeholders.py:115-147). -/
def varHeader (F : LoopForest) (declared : String → List String) (start : String) (src : List String) : Option (String → Option String) :=
  (headerLoop F declared F.nodes fun _ => none).map fun M => setAll M src start

/-- `entry_loop` (src/reparation/insert_placeholders.py:150-163). -/
def entryLoop (F : LoopForest) (b : String) : Option String :=
  if b ∈ F.nodes then if fSuccs F b ≠ [] then some b else (fPreds F b).head? else none

/-- `within_loop` (src/reparation/insert_placeholders.py:166-182). -/
def withinLoop (F : LoopForest) (M : String → Option String) (v b : String) : Bool :=
  match M v with
  | none => decide (b ∉ F.nodes)
  | some d => entryLoop F b == entryLoop F d

/-- A block of the dominance tree: its name, `get_count` and the keys of `reachable`. -/
structure NBlock where
  id : String
  count : String → Nat
  reach : String → Bool

/-- The tree with the answers of `within_loop` (src/reparation/insert_placeholders.py:266-268). -/
def withLoops (F : LoopForest) (M : String → Option String) : DTree NBlock → DTree SBlock
  | .nil => .nil
  | .node b ch rest => .node ⟨b.count, b.reach, fun v => withinLoop F M v b.id⟩ (withLoops F M ch) (withLoops F M rest)

/-! ### Specification -/

/-- The edges of a forest lead to nodes, and every node has at most one parent (`forest_exact`). -/
structure IsForest (F : LoopForest) : Prop where
  nodes : ∀ e ∈ F.edges, e.1 ∈ F.nodes ∧ e.2 ∈ F.nodes
  parent : (F.edges.map Prod.snd).Nodup

/-! ### Proofs -/

theorem mem_fSuccs {F : LoopForest} {b c : String} : c ∈ fSuccs F b ↔ (b, c) ∈ F.edges := by
  unfold fSuccs
  rw [mem_map]
  constructor
  · rintro ⟨⟨x, y⟩, h, rfl⟩
    rw [mem_filter, beq_iff_eq] at h
    obtain ⟨h, rfl⟩ := h
    exact h
  · intro h
    exact ⟨(b, c), by simpa using h, rfl⟩

theorem mem_fPreds {F : LoopForest} {b c : String} : c ∈ fPreds F b ↔ (c, b) ∈ F.edges := by
  unfold fPreds
  rw [mem_map]
  constructor
  · rintro ⟨⟨x, y⟩, h, rfl⟩
    rw [mem_filter, beq_iff_eq] at h
    obtain ⟨h, rfl⟩ := h
    exact h
  · intro h
    exact ⟨(c, b), by simpa using h, rfl⟩

theorem fPreds_le {F : LoopForest} (hF : IsForest F) (b : String) : (fPreds F b).length ≤ 1 := by
  have h := hF.parent
  unfold fPreds
  rw [length_map]
  generalize F.edges = l at h
  induction l with
  | nil => simp
  | cons e l ih =>
    rw [map_cons, nodup_cons] at h
    rw [filter_cons]
    split
    · rename_i he
      rw [beq_iff_eq] at he
      have : l.filter (fun e => e.2 == b) = [] := by
        rw [filter_eq_nil_iff]
        intro x hx hxb
        rw [beq_iff_eq] at hxb
        exact h.1 (by rw [he, ← hxb]; exact mem_map_of_mem hx)
      rw [this]; simp
    · exact ih h.2

theorem headerLoop_none {F : LoopForest} (declared : String → List String) : ∀ (bs : List String) (M : String → Option String),
    headerLoop F declared bs M = none ↔ ∃ b ∈ bs, fSuccs F b = [] ∧ (fPreds F b).length ≠ 1 := by
  intro bs
  induction bs with
  | nil => intro M; simp [headerLoop]
  | cons b bs ih =>
    intro M
    unfold headerLoop
    by_cases hs : fSuccs F b = []
    · rw [if_pos hs]
      split
      · rename_i p hp
        rw [ih]
        constructor
        · rintro ⟨c, hc, h⟩; exact ⟨c, mem_cons_of_mem _ hc, h⟩
        · rintro ⟨c, hc, h1, h2⟩
          rcases mem_cons.1 hc with rfl | hc
          · rw [hp] at h2; simp at h2
          · exact ⟨c, hc, h1, h2⟩
      · rename_i hp
        refine ⟨fun _ => ⟨b, by simp, hs, fun h => ?_⟩, fun _ => rfl⟩
        obtain ⟨p, hp'⟩ := length_eq_one_iff.1 h
        exact hp p hp'
    · rw [if_neg hs, ih]
      constructor
      · rintro ⟨c, hc, h⟩; exact ⟨c, mem_cons_of_mem _ hc, h⟩
      · rintro ⟨c, hc, h1, h2⟩
        rcases mem_cons.1 hc with rfl | hc
        · exact absurd h1 hs
        · exact ⟨c, hc, h1, h2⟩

/-- **C77, exception.** The table of the loops is not computed exactly if the forest has an isolated node: the header of a loop that
contains no other node of its own and is in no other loop. -/
theorem header_exception {F : LoopForest} (hF : IsForest F) (declared : String → List String) (start : String) (src : List String) :
    varHeader F declared start src = none ↔ ∃ b ∈ F.nodes, (∀ c, (b, c) ∉ F.edges) ∧ ∀ c, (c, b) ∉ F.edges := by
  unfold varHeader
  rw [Option.map_eq_none_iff, headerLoop_none]
  have key : ∀ b, (fSuccs F b = [] ∧ (fPreds F b).length ≠ 1) ↔ (∀ c, (b, c) ∉ F.edges) ∧ ∀ c, (c, b) ∉ F.edges := by
    intro b
    refine and_congr ?_ ?_
    · rw [eq_nil_iff_forall_not_mem]
      exact forall_congr' fun c => not_congr mem_fSuccs
    · have := fPreds_le hF b
      rw [show (fPreds F b).length ≠ 1 ↔ fPreds F b = [] from ⟨fun h => length_eq_zero_iff.1 (by omega), fun h => by simp [h]⟩, eq_nil_iff_forall_not_mem]
      exact forall_congr' fun c => not_congr mem_fPreds
  exact exists_congr fun b => and_congr Iff.rfl (key b)

/-- What the loop leaves for a variable that at most one block declares. -/
theorem headerLoop_spec {F : LoopForest} {declared : String → List String} {v d : String} (hd : v ∈ declared d) :
    ∀ (bs : List String) (M M' : String → Option String), (∀ b ∈ bs, v ∈ declared b → b = d) → headerLoop F declared bs M = some M' →
    (d ∉ bs → M' v = M v) ∧ (d ∈ bs → fSuccs F d ≠ [] → M' v = some d) ∧ (d ∈ bs → fSuccs F d = [] → ∃ p, fPreds F d = [p] ∧ M' v = some p) := by
  intro bs
  induction bs with
  | nil => intro M M' _ h; simp only [headerLoop, Option.some.injEq] at h; subst h; simp
  | cons b bs ih =>
    intro M M' hu h
    have hu' : ∀ b ∈ bs, v ∈ declared b → b = d := fun c hc => hu c (mem_cons_of_mem _ hc)
    unfold headerLoop at h
    by_cases hb : b = d
    · subst hb
      refine ⟨fun hn => absurd (by simp) hn, fun _ hs => ?_, fun _ hs => ?_⟩
      · rw [if_neg hs] at h
        obtain ⟨h1, h2, _⟩ := ih _ _ hu' h
        by_cases hm : b ∈ bs
        · exact h2 hm hs
        · rw [h1 hm]; simp [setAll, hd]
      · rw [if_pos hs] at h
        split at h
        · rename_i p hp
          obtain ⟨h1, _, h3⟩ := ih _ _ hu' h
          by_cases hm : b ∈ bs
          · exact h3 hm hs
          · exact ⟨p, hp, by rw [h1 hm]; simp [setAll, hd]⟩
        · cases h
    · have hv : v ∉ declared b := fun hv => hb (hu b (by simp) hv)
      have hmem : d ∈ b :: bs ↔ d ∈ bs := by
        rw [mem_cons]; exact ⟨fun h => h.resolve_left fun e => hb e.symm, Or.inr⟩
      have hset : ∀ p, setAll M (declared b) p v = M v := fun p => by simp [setAll, hv]
      rw [hmem]
      split at h
      · split at h
        · rename_i p _
          obtain ⟨h1, h2, h3⟩ := ih _ _ hu' h
          exact ⟨fun hn => (h1 hn).trans (hset p), h2, h3⟩
        · cases h
      · obtain ⟨h1, h2, h3⟩ := ih _ _ hu' h
        exact ⟨fun hn => (h1 hn).trans (hset b), h2, h3⟩

/-- **C77, own block.** A variable may always be stored in the block that declares it, whatever the loops. -/
theorem own_block {F : LoopForest} (hF : IsForest F) {declared : String → List String} {start : String} {src : List String}
    {M : String → Option String} (h : varHeader F declared start src = some M) {v d : String} (hd : v ∈ declared d)
    (hu : ∀ b ∈ F.nodes, v ∈ declared b → b = d) (hs : v ∉ src) : withinLoop F M v d = true := by
  unfold varHeader at h
  obtain ⟨M', h', rfl⟩ := Option.map_eq_some_iff.1 h
  obtain ⟨h1, h2, h3⟩ := headerLoop_spec hd F.nodes (fun _ => none) M' hu h'
  have hset : setAll M' src start v = M' v := by simp [setAll, hs]
  unfold withinLoop
  rw [hset]
  by_cases hm : d ∈ F.nodes
  · by_cases hsucc : fSuccs F d = []
    · obtain ⟨p, hp, he⟩ := h3 hm hsucc
      rw [he]
      have hedge : (p, d) ∈ F.edges := mem_fPreds.1 (by rw [hp]; simp)
      have hps : fSuccs F p ≠ [] := fun h => by
        have := mem_fSuccs.2 hedge
        rw [h] at this; cases this
      simp only [entryLoop, if_pos hm, if_pos (hF.nodes _ hedge).1, if_pos hps, hsucc, ne_eq, not_true_eq_false, if_false, hp, head?_cons, beq_self_eq_true]
    · rw [h2 hm hsucc]
      simp
  · rw [h1 hm]
    simpa using hm

/-- A variable on the stack at the start may always be stored in the first block. -/
theorem own_start {F : LoopForest} {declared : String → List String} {start : String} {src : List String} {M : String → Option String}
    (h : varHeader F declared start src = some M) {v : String} (hs : v ∈ src) : withinLoop F M v start = true := by
  unfold varHeader at h
  obtain ⟨M', _, rfl⟩ := Option.map_eq_some_iff.1 h
  simp [withinLoop, setAll, hs]

/-- The forest of a graph is a forest. -/
theorem forest_isForest {nodes : List String} {succ pred : String → List String} (hsucc : ∀ x ∈ nodes, ∀ y ∈ succ x, y ∈ nodes)
    (hpred : ∀ x ∈ nodes, ∀ y ∈ pred x, y ∈ nodes) (hedge : ∀ x y, y ∈ succ x → x ∈ nodes) :
    ∃ n F, (∀ fuel, n ≤ fuel → nestingForest nodes succ pred fuel = some F) ∧ IsForest F := by
  obtain ⟨n, back, bodies, F, _, h1, _, _, _, h2, h3, h4⟩ := forest_exact nodes succ pred hsucc hpred hedge
  refine ⟨n, F, h1, ⟨fun e he => ?_, h3⟩⟩
  obtain ⟨h, c⟩ := e
  obtain ⟨pre, body, post, e, _⟩ := (h2 h c).1 he
  exact ⟨(h4 h).2 (Or.inl (by rw [e]; simp)), (h4 c).2 (Or.inr ⟨h, he⟩)⟩

/-! #### No variable is given up that is reachable where it is declared -/

/-- The blocks of the subtree of a block `d`: all loads of `v` are there, and in `d` the variable can be stored. -/
inductive Covers (v : String) : DTree SBlock → Prop where
  | here (b : SBlock) (ch rest : DTree SBlock) : b.reach v = true → b.inLoop v = true → totalCount rest v = 0 → Covers v (.node b ch rest)
  | inside (b : SBlock) (ch rest : DTree SBlock) : Covers v ch → b.count v = 0 → totalCount rest v = 0 → Covers v (.node b ch rest)
  | next (b : SBlock) (ch rest : DTree SBlock) : Covers v rest → b.count v = 0 → totalCount ch v = 0 → Covers v (.node b ch rest)

theorem popped_node {b : SBlock} {ch : DTree SBlock} {left : String → Nat} {v : String} (h : left v = totalCount ch v + b.count v) (hp : 0 < left v) :
    ((storeTree ch left).left v = 0 ∧ (storeTree ch left).count v = 0 ∧ b.count v = 0) ∨ popped (storeTree ch left) b v = true := by
  rcases storeTree_outcome v ch left (by omega) hp with ⟨g1, g2, _, _⟩ | ⟨g0, g1, g2, _⟩
  · right
    rw [popped, decide_eq_true_eq, g1, g2]; omega
  · left
    exact ⟨g1, g2, by omega⟩

theorem covers_vars (v : String) : ∀ (t : DTree SBlock), Covers v t → ∀ left : String → Nat, left v = totalCount t v → 0 < left v →
    (storeTree t left).vars v = false ∧ (storeTree t left).left v = 0 ∧ (storeTree t left).count v = 0 := by
  intro t h
  induction h with
  | here b ch rest hr hl hz =>
    intro left he hp
    rw [totalCount, hz] at he
    have hzr := storeTree_zero v rest
    simp only [storeTree]
    rcases popped_node (b := b) (ch := ch) (left := left) (v := v) (by omega) hp with ⟨g1, g2, g3⟩ | g
    · have hnp : popped (storeTree ch left) b v = false := by rw [popped, decide_eq_false_iff_not]; omega
      obtain ⟨k1, k2, k3, _⟩ := hzr (fun v => if popped (storeTree ch left) b v = true then 0 else (storeTree ch left).left v) hz
      refine ⟨?_, ?_, ?_⟩
      · rw [k3]; cases (storeTree ch left).vars v <;> cases popped (storeTree ch left) b v <;> simp [hr, hl]
      · rw [k1]; simp [hnp, g1]
      · rw [k2]; simp [hnp, g2, g3]
    · obtain ⟨k1, k2, k3, _⟩ := hzr (fun v => if popped (storeTree ch left) b v = true then 0 else (storeTree ch left).left v) hz
      refine ⟨?_, ?_, ?_⟩
      · rw [k3]; cases (storeTree ch left).vars v <;> cases popped (storeTree ch left) b v <;> simp [hr, hl]
      · rw [k1]; simp [g]
      · rw [k2]; simp [g]
  | inside b ch rest _ hb hz ih =>
    intro left he hp
    rw [totalCount, hz, hb] at he
    obtain ⟨g1, g2, g3⟩ := ih left (by omega) hp
    simp only [storeTree]
    have hnp : popped (storeTree ch left) b v = false := by rw [popped, decide_eq_false_iff_not]; omega
    obtain ⟨k1, k2, k3, _⟩ := storeTree_zero v rest (fun v => if popped (storeTree ch left) b v = true then 0 else (storeTree ch left).left v) hz
    refine ⟨?_, ?_, ?_⟩
    · simp [k3, g1, hnp]
    · rw [k1]; simp [hnp, g2]
    · rw [k2]; simp [hnp, g3, hb]
  | next b ch rest _ hb hz ih =>
    intro left he hp
    rw [totalCount, hz, hb] at he
    obtain ⟨g1, g2, g3, _⟩ := storeTree_zero v ch left hz
    simp only [storeTree]
    have hnp : popped (storeTree ch left) b v = false := by rw [popped, decide_eq_false_iff_not]; omega
    obtain ⟨k1, k2, k3⟩ := ih (fun v => if popped (storeTree ch left) b v = true then 0 else (storeTree ch left).left v) (by simp [hnp, g1]; omega)
      (by simp [hnp, g1]; omega)
    refine ⟨?_, k2, ?_⟩
    · simp [k1, g3, hnp]
    · rw [k3]; simp [hnp, g2, hb]

/-- The loads of a variable that are not below `d`. -/
theorem covers_of (F : LoopForest) (M : String → Option String) (v d : String) : ∀ t : DTree NBlock,
    (∀ anc a, Node t anc a → a.id = d → a.reach v = true) → withinLoop F M v d = true →
    (∀ anc a, Node t anc a → 0 < a.count v → d ∈ (anc ++ [a]).map (·.id)) → 
    ((nodes t).map (·.id)).Nodup → totalCount (withLoops F M t) v = 0 ∨ Covers v (withLoops F M t) := by
  intro t
  have hzero : ∀ t : DTree NBlock, (∀ a ∈ nodes t, a.count v = 0) → totalCount (withLoops F M t) v = 0 := by
    intro t
    induction t with
    | nil => intro _; rfl
    | node b ch rest ih1 ih2 =>
      intro h
      simp only [nodes, cons_append, mem_cons, mem_append, forall_eq_or_imp] at h
      simp only [withLoops, totalCount]
      rw [h.1, ih1 fun a ha => h.2 a (Or.inl ha), ih2 fun a ha => h.2 a (Or.inr ha)]
  induction t with
  | nil => intro _ _ _ _; exact Or.inl rfl
  | node b ch rest ih1 ih2 =>
    intro hr hw hl hn
    -- a subtree without the block has no loads
    have hnone : ∀ t' : DTree NBlock, (∀ anc a, Node t' anc a → 0 < a.count v → d ∈ (anc ++ [a]).map (·.id)) → d ∉ (nodes t').map (·.id) →
        totalCount (withLoops F M t') v = 0 := by
      intro t' h hd
      refine hzero t' fun a ha => ?_
      obtain ⟨anc, hn⟩ := node_of_mem ha
      rcases Nat.eq_zero_or_pos (a.count v) with h0 | h0
      · exact h0
      · obtain ⟨y, hy, he⟩ := mem_map.1 (h anc a hn h0)
        exact absurd (mem_map.2 ⟨y, anc_mem hn y hy, he⟩) hd
    simp only [nodes, cons_append, map_cons, map_append, nodup_cons, nodup_append, mem_append, not_or] at hn
    obtain ⟨⟨hb1, hb2⟩, hn1, hn2, hn3⟩ := hn
    have hlrest : ∀ anc a, Node rest anc a → 0 < a.count v → d ∈ (anc ++ [a]).map (·.id) := fun anc a h => hl anc a (.next _ _ _ _ _ h)
    simp only [withLoops]
    by_cases hbd : b.id = d
    · subst hbd
      exact Or.inr (.here _ _ _ (hr [] b (.here _ _ _) rfl) hw (hnone rest hlrest hb2))
    have hlch : ∀ anc a, Node ch anc a → 0 < a.count v → d ∈ (anc ++ [a]).map (·.id) := by
      intro anc a h h0
      have := hl (b :: anc) a (.inside _ _ _ _ _ h) h0
      rw [cons_append, map_cons, mem_cons] at this
      exact this.resolve_left fun e => hbd e.symm
    have hb0 : b.count v = 0 := by
      rcases Nat.eq_zero_or_pos (b.count v) with h0 | h0
      · exact h0
      · have := hl [] b (.here _ _ _) h0
        simp at this
        exact absurd this.symm hbd
    have i1 := ih1 (fun anc a h => hr _ a (.inside _ _ _ _ _ h)) hw hlch hn1
    have i2 := ih2 (fun anc a h => hr _ a (.next _ _ _ _ _ h)) hw hlrest hn2
    by_cases hdc : d ∈ (nodes ch).map (·.id)
    · have hdr : d ∉ (nodes rest).map (·.id) := fun h => hn3 d hdc d h rfl
      have hz := hnone rest hlrest hdr
      rcases i1 with h | h
      · exact Or.inl (by simp only [totalCount]; omega)
      · exact Or.inr (.inside _ _ _ h hb0 hz)
    · have hz := hnone ch hlch hdc
      rcases i2 with h | h
      · exact Or.inl (by simp only [totalCount]; omega)
      · exact Or.inr (.next _ _ _ h hb0 hz)

theorem withLoops_nodes (F : LoopForest) (M : String → Option String) (v : String) : ∀ t : DTree NBlock, (∃ a ∈ nodes t, 0 < a.count v) →
    0 < totalCount (withLoops F M t) v := by
  intro t
  induction t with
  | nil => rintro ⟨a, ha, _⟩; simp [nodes] at ha
  | node b ch rest ih1 ih2 =>
    rintro ⟨a, ha, h0⟩
    simp only [nodes, cons_append, mem_cons, mem_append] at ha
    simp only [withLoops, totalCount]
    rcases ha with rfl | ha | ha
    · omega
    · have := ih1 ⟨a, ha, h0⟩; omega
    · have := ih2 ⟨a, ha, h0⟩; omega

/-- **C77, stores.** A variable that is declared in one block, from which all loads of it are dominated, and that is reachable on the stack
at some point of that block, is not given up: it is stored exactly once, in a block that dominates all loads. -/
theorem declared_stored_once {F : LoopForest} (hF : IsForest F) {declared : String → List String} {start : String} {src : List String}
    {M : String → Option String} (h : varHeader F declared start src = some M) (b : NBlock) (ch : DTree NBlock) {v d : String}
    (hids : ((nodes (.node b ch .nil)).map (·.id)).Nodup) (hd : (v ∈ declared d ∧ (∀ b ∈ F.nodes, v ∈ declared b → b = d) ∧ v ∉ src) ∨ (v ∈ src ∧ d = start))
    (hr : ∀ a ∈ nodes (.node b ch .nil), a.id = d → a.reach v = true)
    (hl : ∀ anc a, Node (.node b ch .nil) anc a → 0 < a.count v → d ∈ (anc ++ [a]).map (·.id))
    (hpos : ∃ a ∈ nodes (.node b ch .nil), 0 < a.count v) :
    (storeAll (withLoops F M (.node b ch .nil))).2 v = false ∧ numStores (storeAll (withLoops F M (.node b ch .nil))).1 v = 1 ∧
      ∀ anc a, Node (storeAll (withLoops F M (.node b ch .nil))).1 anc a → 0 < a.1.count v → ∃ a' ∈ anc ++ [a], a'.2 v = true := by
  have hw : withinLoop F M v d = true := by
    rcases hd with ⟨h1, h2, h3⟩ | ⟨h1, rfl⟩
    · exact own_block hF h h1 h2 h3
    · exact own_start h h1
  have hp := withLoops_nodes F M v _ hpos
  have hc : Covers v (withLoops F M (.node b ch .nil)) :=
    (covers_of F M v d _ (fun anc a hn => hr a (anc_mem hn a (by simp))) hw hl hids).resolve_left (by omega)
  have hv := (covers_vars v _ hc _ rfl hp).1
  obtain ⟨_, h2, _, _⟩ := stores_dominate_loads ⟨b.count, b.reach, fun v => withinLoop F M v b.id⟩ (withLoops F M ch) v
  rcases h2 hp with ⟨h3, _⟩ | h3
  · exact absurd (h3.symm.trans hv) (by simp)
  · exact h3

/-! ### The theorems apply -/

/-- The loop `B` with `C`, `D` and `E`, and inside it the loop `C` with `D` (Verif/Graphs/Loops.lean). -/
def exScopeForest : LoopForest := ⟨["E", "C", "B", "D"], [("C", "D"), ("B", "C"), ("B", "E")]⟩

def exDeclared (b : String) : List String := if b = "A" then ["a"] else if b = "B" then ["b"] else if b = "D" then ["d"] else if b = "E" then ["e"] else []

def exScope : Option (String → Option String) := varHeader exScopeForest exDeclared "A" ["p"]

example : exScope.map (fun M => ["a", "b", "d", "e", "p"].map fun v => ["A", "B", "C", "D", "E", "F"].map (withinLoop exScopeForest M v)) =
    some [[true, false, false, false, false, true], [false, true, false, false, true, false], [false, false, true, true, false, false],
      [false, true, false, false, true, false], [true, false, false, false, false, true]] := by decide +kernel

/-- `b` is loaded in `D` and `F`, and reachable in `B` and in the inner loop; it is stored in `B`. -/
def exScopeTree : DTree NBlock :=
  .node ⟨"A", fun _ => 0, fun _ => false⟩
    (.node ⟨"B", fun _ => 0, fun v => v == "b"⟩
      (.node ⟨"C", fun _ => 0, fun v => v == "b"⟩ (.node ⟨"D", fun v => if v = "b" then 2 else 0, fun v => v == "b"⟩ .nil .nil) .nil) .nil) .nil

example : ∃ M, exScope = some M ∧ (nodes (storeAll (withLoops exScopeForest M exScopeTree)).1).map (fun a => a.2 "b") = [false, true, false, false] := by
  refine ⟨_, rfl, ?_⟩
  decide +kernel

example : ∃ M, exScope = some M ∧ numStores (storeAll (withLoops exScopeForest M exScopeTree)).1 "b" = 1 := by
  refine ⟨_, rfl, ?_⟩
  refine (declared_stored_once (F := exScopeForest) ⟨by decide +kernel, by decide +kernel⟩ (declared := exDeclared) (start := "A") (src := ["p"]) rfl _ _ (d := "B")
    (by decide +kernel) (Or.inl ⟨by decide +kernel, by decide +kernel, by decide +kernel⟩) (by decide +kernel) ?_ (by decide +kernel)).2.1
  intro anc a hn h0
  cases hn with
  | here => simp at h0
  | inside _ _ _ _ _ hn =>
    cases hn with
    | here => simp at h0
    | inside _ _ _ _ _ hn => simp
    | next _ _ _ _ _ hn => cases hn
  | next _ _ _ _ _ hn => cases hn

/-- A block that jumps to itself, outside of any other loop, is an isolated node of the forest: the AssertionError. -/
theorem self_loop_exception (declared : String → List String) (start : String) (src : List String) :
    (∃ F, nestingForest ["A", "B"] (fun x => if x = "A" then ["B"] else if x = "B" then ["B"] else []) (fun x => if x = "B" then ["A", "B"] else []) 10 =
      some F ∧ varHeader F declared start src = none) := by
  refine ⟨⟨["B"], []⟩, by decide +kernel, rfl⟩

end Grey.Repair
