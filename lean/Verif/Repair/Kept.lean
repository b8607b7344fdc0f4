/-
What is in memory where, along the dominance tree: C95.
-/
import Verif.Repair.Cells
namespace Grey.Kept
open List Grey.Repair

/-! ### Blocks of a tree, by name -/

/-- The tree for the scan, from the dominance tree of the names of the blocks. -/
def forestOf (rb : String → RBlock) : DTree String → DomForest
  | .nil => .nil
  | .node b ch rest => .node (rb b) (forestOf rb ch) (forestOf rb rest)

/-- The variables whose colours are taken at the end of a block with the children `ch`, from those at its beginning. -/
def heldEnd (rb : String → RBlock) (b : String) (ch : DTree String) (H : List String) : List String :=
  heldAfter (blockEvs (rb b) (lastUse (rb b) (forestOf rb ch))) H

/-- The block `n` is in the tree, below `anc`, with children `ch`; when the scan of the tree begins with the variables `H` in memory, that of the block begins
with `H'`. -/
inductive At (rb : String → RBlock) : List String → DTree String → List String → String → DTree String → List String → Prop where
  | here (H : List String) (b : String) (ch rest : DTree String) : At rb H (.node b ch rest) [] b ch H
  | inside (H : List String) (b : String) (ch rest : DTree String) (anc : List String) (n : String) (c : DTree String) (H' : List String) :
      At rb (heldEnd rb b ch H) ch anc n c H' → At rb H (.node b ch rest) (b :: anc) n c H'
  | next (H : List String) (b : String) (ch rest : DTree String) (anc : List String) (n : String) (c : DTree String) (H' : List String) :
      At rb H rest anc n c H' → At rb H (.node b ch rest) anc n c H'

variable {rb : String → RBlock}

theorem At.mem {H : List String} {t : DTree String} {anc : List String} {n : String} {c : DTree String} {H' : List String} (h : At rb H t anc n c H') :
    n ∈ nodes t ∧ ∀ a ∈ anc, a ∈ nodes t := by
  induction h with
  | here => simp [nodes]
  | inside _ _ _ _ _ _ _ _ _ ih =>
    simp only [nodes, cons_append, mem_cons, mem_append]
    refine ⟨.inr (.inl ih.1), ?_⟩
    rintro a (rfl | ha)
    · exact .inl rfl
    · exact .inr (.inl (ih.2 a ha))
  | next _ _ _ _ _ _ _ _ _ ih =>
    simp only [nodes, cons_append, mem_cons, mem_append]
    exact ⟨.inr (.inr ih.1), fun a ha => .inr (.inr (ih.2 a ha))⟩

theorem At.node {H : List String} {t : DTree String} {anc : List String} {n : String} {c : DTree String} {H' : List String} (h : At rb H t anc n c H') :
    Node t anc n := by
  induction h with
  | here => exact .here _ _ _
  | inside _ _ _ _ _ _ _ _ _ ih => exact .inside _ _ _ _ _ ih
  | next _ _ _ _ _ _ _ _ _ ih => exact .next _ _ _ _ _ ih

theorem at_of_node {t : DTree String} {anc : List String} {n : String} (h : Node t anc n) : ∀ H, ∃ c H', At rb H t anc n c H' := by
  induction h with
  | here b ch rest => intro H; exact ⟨ch, H, .here _ _ _ _⟩
  | inside b ch rest anc n _ ih => intro H; obtain ⟨c, H', h⟩ := ih (heldEnd rb b ch H); exact ⟨c, H', .inside _ _ _ _ _ _ _ _ h⟩
  | next b ch rest anc n _ ih => intro H; obtain ⟨c, H', h⟩ := ih H; exact ⟨c, H', .next _ _ _ _ _ _ _ _ h⟩

theorem node_of_mem {t : DTree String} {n : String} (h : n ∈ nodes t) : ∃ anc, Node t anc n := by
  induction t with
  | nil => simp [nodes] at h
  | node b ch rest ih1 ih2 =>
    simp only [nodes, cons_append, mem_cons, mem_append] at h
    rcases h with rfl | h | h
    · exact ⟨_, .here _ _ _⟩
    · obtain ⟨a, h⟩ := ih1 h; exact ⟨_, .inside _ _ _ _ _ h⟩
    · obtain ⟨a, h⟩ := ih2 h; exact ⟨_, .next _ _ _ _ _ h⟩

theorem nodup_node {b : String} {ch rest : DTree String} (h : (nodes (.node b ch rest)).Nodup) :
    b ∉ nodes ch ∧ b ∉ nodes rest ∧ (nodes ch).Nodup ∧ (nodes rest).Nodup ∧ ∀ x ∈ nodes ch, x ∉ nodes rest := by
  simp only [nodes, cons_append, nodup_cons, mem_append, not_or, nodup_append] at h
  exact ⟨h.1.1, h.1.2, h.2.1, h.2.2.1, fun x h1 h2 => h.2.2.2 x h1 x h2 rfl⟩

/-- With different names, a block is in one place. -/
theorem At.unique {t : DTree String} (hn : (nodes t).Nodup) {n : String} : ∀ {H anc c H' anc2 c2 H2}, At rb H t anc n c H' → At rb H t anc2 n c2 H2 →
    anc = anc2 ∧ c = c2 ∧ H' = H2 := by
  induction t with
  | nil => intro H anc c H' anc2 c2 H2 h; cases h
  | node b ch rest ih1 ih2 =>
    intro H anc c H' anc2 c2 H2 h h2
    obtain ⟨n1, n2, n3, n4, n5⟩ := nodup_node hn
    cases h with
    | here =>
      cases h2 with
      | here => exact ⟨rfl, rfl, rfl⟩
      | inside _ _ _ _ _ _ _ _ h2 => exact absurd h2.mem.1 n1
      | next _ _ _ _ _ _ _ _ h2 => exact absurd h2.mem.1 n2
    | inside _ _ _ _ _ _ _ _ h =>
      cases h2 with
      | here => exact absurd h.mem.1 n1
      | inside _ _ _ _ _ _ _ _ h2 =>
        obtain ⟨rfl, rfl, rfl⟩ := ih1 n3 h h2
        exact ⟨rfl, rfl, rfl⟩
      | next _ _ _ _ _ _ _ _ h2 => exact absurd h2.mem.1 (n5 _ h.mem.1)
    | next _ _ _ _ _ _ _ _ h =>
      cases h2 with
      | here => exact absurd h.mem.1 n2
      | inside _ _ _ _ _ _ _ _ h2 => exact absurd h.mem.1 (n5 _ h2.mem.1)
      | next _ _ _ _ _ _ _ _ h2 => exact ih2 n4 h h2

theorem Node.unique {t : DTree String} (hn : (nodes t).Nodup) {n : String} {anc anc2 : List String} (h : Node t anc n) (h2 : Node t anc2 n) : anc = anc2 := by
  obtain ⟨c, H', k⟩ := at_of_node (rb := fun _ => ⟨[], [], [], []⟩) h []
  obtain ⟨c2, H2, k2⟩ := at_of_node (rb := fun _ => ⟨[], [], [], []⟩) h2 []
  exact (At.unique hn k k2).1

/-- The block in the tree of the scan. -/
theorem At.isIn {H : List String} {t : DTree String} {anc : List String} {n : String} {c : DTree String} {H' : List String} (h : At rb H t anc n c H') :
    In (forestOf rb t) (anc.map rb) (rb n) (forestOf rb c) := by
  induction h with
  | here => exact .here _ _ _
  | inside _ _ _ _ _ _ _ _ _ ih => exact .inside _ _ _ _ _ _ ih
  | next _ _ _ _ _ _ _ _ _ ih => exact .next _ _ _ _ _ _ ih

/-- Every block of the tree of the scan has a name. -/
theorem in_forest {t : DTree String} {ancr : List RBlock} {b : RBlock} {chr : DomForest} (h : In (forestOf rb t) ancr b chr) :
    ∃ anc n c, Node t anc n ∧ ancr = anc.map rb ∧ b = rb n ∧ chr = forestOf rb c := by
  induction t generalizing ancr with
  | nil => cases h
  | node m ch rest ih1 ih2 =>
    cases h with
    | here => exact ⟨[], m, ch, .here _ _ _, rfl, rfl, rfl⟩
    | inside _ _ _ anc _ _ h =>
      obtain ⟨anc', n, c, k1, rfl, rfl, rfl⟩ := ih1 h
      exact ⟨_, n, c, .inside _ _ _ _ _ k1, rfl, rfl, rfl⟩
    | next _ _ _ anc _ _ h =>
      obtain ⟨anc', n, c, k1, rfl, rfl, rfl⟩ := ih2 h
      exact ⟨_, n, c, .next _ _ _ _ _ k1, rfl, rfl, rfl⟩

theorem node_stores {t : DTree String} {anc : List String} {n : String} (h : Node t anc n) :
    ∀ v ∈ phiStores (rb n) ++ idStores (rb n).ids, v ∈ allStores (forestOf rb t) := by
  induction h with
  | here => intro v hv; simp only [forestOf, allStores, mem_append] at hv ⊢; exact .inl (.inl hv)
  | inside _ _ _ _ _ _ ih => intro v hv; simp only [forestOf, allStores, mem_append]; exact .inl (.inr (ih v hv))
  | next _ _ _ _ _ _ ih => intro v hv; simp only [forestOf, allStores, mem_append]; exact .inr (ih v hv)

/-- What is in memory has been there before or is stored in one of the blocks above. -/
theorem At.held_sub {H : List String} {t : DTree String} {anc : List String} {n : String} {c : DTree String} {H' : List String} (h : At rb H t anc n c H') :
    ∀ v ∈ H', v ∈ H ∨ ∃ a ∈ anc, v ∈ phiStores (rb a) ++ idStores (rb a).ids := by
  induction h with
  | here => exact fun v hv => .inl hv
  | inside H b ch rest anc n c H' _ ih =>
    intro v hv
    rcases ih v hv with h | ⟨a, ha, h⟩
    · rcases heldAfter_sub _ _ h with h | h
      · exact .inl h
      · rw [blockEvs_picks] at h
        exact .inr ⟨b, mem_cons_self, h⟩
    · exact .inr ⟨a, mem_cons_of_mem _ ha, h⟩
  | next _ _ _ _ _ _ _ _ _ ih => exact ih

theorem node_anc {t : DTree String} {anc : List String} {n : String} (h : Node t anc n) : ∀ a ∈ anc, ∃ anc', Node t anc' a := by
  induction h with
  | here => intro a ha; cases ha
  | inside b ch rest anc n _ ih =>
    intro a ha
    rcases mem_cons.1 ha with rfl | ha
    · exact ⟨_, .here _ _ _⟩
    · obtain ⟨x, h⟩ := ih a ha; exact ⟨_, .inside _ _ _ _ _ h⟩
  | next b ch rest anc n _ ih => intro a ha; obtain ⟨x, h⟩ := ih a ha; exact ⟨_, .next _ _ _ _ _ h⟩

/-! ### Colours of what is in memory -/

theorem okEvs_prefix {web : String → Option Nat} : ∀ (p q : List Ev) (H : List String), OKEvs web H (p ++ q) → OKEvs web H p := by
  intro p
  induction p with
  | nil => intro _ _ _; trivial
  | cons e p ih => intro q H h; exact ⟨h.1, ih q _ h.2⟩

/-- At every point of every block, the variables in memory have different colours in the end. -/
theorem held_distinct {web : String → Option Nat} : ∀ (t : DTree String) (H : List String) (sh sh' : Shared) (av : List Bool), Inv web H sh av →
    OKForest web H (forestOf rb t) → (allStores (forestOf rb t)).Nodup → (∀ v ∈ H, v ∉ allStores (forestOf rb t)) →
    assignForest web (forestOf rb t) sh av = some sh' →
    ∀ anc n c H', At rb H t anc n c H' → ∀ p q, blockEvs (rb n) (lastUse (rb n) (forestOf rb c)) = p ++ q →
      (∀ v ∈ heldAfter p H', ∃ k, sh'.colour v = some k) ∧ ∀ v ∈ heldAfter p H', ∀ w ∈ heldAfter p H', v ≠ w → sh'.colour v ≠ sh'.colour w := by
  intro t
  induction t with
  | nil => intro H sh sh' av _ _ _ _ _ anc n c H' h; cases h
  | node b ch rest ih1 ih2 =>
    intro H sh sh' av hi hok hn hH h anc n c H' hat p q hpq
    rw [forestOf, assignForest, scanBlock_evs] at h
    obtain ⟨r, hr, h⟩ := Option.bind_eq_some_iff.1 h
    obtain ⟨sh2, hch, hrest⟩ := Option.bind_eq_some_iff.1 h
    obtain ⟨ok1, ok2, ok3⟩ := hok
    simp only [forestOf, allStores] at hn
    rw [nodup_append, nodup_append] at hn
    obtain ⟨⟨n1, n2, n4⟩, n3, n5⟩ := hn
    have hbs : ∀ v ∈ evPicks (blockEvs (rb b) (lastUse (rb b) (forestOf rb ch))), v ∈ phiStores (rb b) ++ idStores (rb b).ids := by
      intro v hv; rw [blockEvs_picks] at hv; exact hv
    have hi1 := runEvs_inv hi ok1 hr
    have hH1 : ∀ v ∈ heldAfter (blockEvs (rb b) (lastUse (rb b) (forestOf rb ch))) H, v ∉ allStores (forestOf rb ch) := by
      intro v hv
      rcases heldAfter_sub _ _ hv with h' | h'
      · exact fun h'' => hH v h' (by simp only [forestOf, allStores, mem_append]; exact .inl (.inr h''))
      · exact fun h'' => n4 v (hbs v h') v h'' rfl
    obtain ⟨c1, c2, -⟩ := assign_main _ _ _ _ _ hi1 ok2 n2 hH1 hch
    have frame1 : ∀ v ∈ H, sh2.colour v = sh.colour v := by
      intro v hv
      have hv' := hH v hv
      simp only [forestOf, allStores, mem_append, not_or] at hv'
      rw [c1 v hv'.1.2, runEvs_frame hr v fun h' => by
        have := hbs v h'
        rw [mem_append] at this
        exact this.elim hv'.1.1.1 hv'.1.1.2]
    have hi2 : Inv web H sh2 av := by
      refine ⟨?_, ?_, c2⟩
      · intro v hv; rw [frame1 v hv]; exact hi.held v hv
      · intro v hv w hw hvw; rw [frame1 v hv, frame1 w hw]; exact hi.distinct v hv w hw hvw
    have hH2 : ∀ v ∈ H, v ∉ allStores (forestOf rb rest) := fun v hv h' => hH v hv (by simp only [forestOf, allStores, mem_append]; exact .inr h')
    obtain ⟨d1, d2, -⟩ := assign_main _ _ _ _ _ hi2 ok3 n3 hH2 hrest
    cases hat with
    | here =>
      rw [hpq, runEvs_append] at hr
      obtain ⟨s, hs, hr'⟩ := Option.bind_eq_some_iff.1 hr
      rw [hpq] at ok1
      have hiq := runEvs_inv hi (okEvs_prefix p q H ok1) hs
      have hpk : evPicks p ++ evPicks q = phiStores (rb b) ++ idStores (rb b).ids := by rw [← evPicks_append, ← hpq, blockEvs_picks]
      have key : ∀ u ∈ heldAfter p H, sh'.colour u = s.1.colour u := by
        intro u hu
        have hu' : u ∈ H ∨ u ∈ evPicks p := heldAfter_sub _ _ hu
        have hb' : u ∈ H ∨ u ∈ phiStores (rb b) ++ idStores (rb b).ids := hu'.imp id fun h => by rw [← hpk]; exact mem_append_left _ h
        rw [d1 u, c1 u, runEvs_frame hr' u]
        · intro h'
          rcases hu' with hu' | hu'
          · refine hH u hu' ?_
            simp only [forestOf, allStores]
            rw [← hpk]
            simp only [mem_append]
            exact .inl (.inl (.inr h'))
          · rw [← hpk, nodup_append] at n1
            exact n1.2.2 u hu' u h' rfl
        · intro h'
          rcases hb' with hb' | hb'
          · exact hH u hb' (by simp only [forestOf, allStores, mem_append]; exact .inl (.inr h'))
          · exact n4 u hb' u h' rfl
        · intro h'
          rcases hb' with hb' | hb'
          · exact hH u hb' (by simp only [forestOf, allStores, mem_append]; exact .inr h')
          · exact n5 u (mem_append_left _ hb') u h' rfl
      refine ⟨fun v hv => ?_, fun v hv w hw hvw => ?_⟩
      · rw [key v hv]
        obtain ⟨k, hk, -⟩ := hiq.held v hv
        exact ⟨k, hk⟩
      · rw [key v hv, key w hw]
        exact hiq.distinct v hv w hw hvw
    | inside _ _ _ _ anc _ _ _ hat =>
      obtain ⟨g1, g2⟩ := ih1 _ _ _ _ hi1 ok2 n2 hH1 hch _ _ _ _ hat p q hpq
      have hsub : ∀ u ∈ heldAfter p H', sh'.colour u = sh2.colour u := by
        intro u hu
        apply d1
        have hcase : (u ∈ H ∨ u ∈ phiStores (rb b) ++ idStores (rb b).ids) ∨ u ∈ allStores (forestOf rb ch) := by
          rcases heldAfter_sub _ _ hu with hu | hu
          · rcases hat.held_sub u hu with hu | ⟨a, ha, hu⟩
            · rcases heldAfter_sub _ _ hu with hu | hu
              · exact .inl (.inl hu)
              · exact .inl (.inr (hbs u hu))
            · obtain ⟨_, k⟩ := node_anc hat.node a ha
              exact .inr (node_stores k u hu)
          · refine .inr (node_stores hat.node u ?_)
            rw [← blockEvs_picks _ (lastUse (rb n) (forestOf rb c)), hpq, evPicks_append]
            exact mem_append_left _ hu
        rcases hcase with (h' | h') | h'
        · exact hH2 u h'
        · exact fun h'' => n5 u (mem_append_left _ h') u h'' rfl
        · exact fun h'' => n5 u (mem_append_right _ h') u h'' rfl
      refine ⟨fun v hv => by rw [hsub v hv]; exact g1 v hv, fun v hv w hw hvw => by rw [hsub v hv, hsub w hw]; exact g2 v hv w hw hvw⟩
    | next _ _ _ _ _ _ _ _ hat => exact ih2 _ _ _ _ hi2 ok3 n3 hH2 hrest _ _ _ _ hat p q hpq

/-! ### What is in memory at the two ends of an edge -/

theorem heldAfter_mono {v : String} : ∀ (es : List Ev) {H H0 : List String}, v ∈ heldAfter es H → (v ∈ H → v ∈ H0) → v ∈ heldAfter es H0 := by
  intro es
  induction es with
  | nil => intro H H0 h hs; exact hs h
  | cons e es ih =>
    intro H H0 h hs
    refine ih h ?_
    cases e with
    | free u => simp only [heldEv, mem_filter]; exact fun ⟨h1, h2⟩ => ⟨hs h1, h2⟩
    | pick args u => simp only [heldEv, mem_cons, mem_filter]; exact fun h => h.imp id fun ⟨h1, h2⟩ => ⟨hs h1, h2⟩

/-- `v` is read in the block or in one below it. -/
def ReadBelow (rb : String → RBlock) (n : String) (c : DTree String) (v : String) : Prop := Uses (rb n) v ∨ v ∈ usedIn (forestOf rb c)

theorem At.top {H : List String} {t : DTree String} {n : String} {c : DTree String} {H' : List String} : ∀ {anc}, At rb H t anc n c H' → anc = [] → H' = H := by
  intro anc h
  induction h with
  | here => exact fun _ => rfl
  | inside => exact fun h => by cases h
  | next _ _ _ _ _ _ _ _ _ ih => exact ih

/-- What has been stored above and is read in the block or below it is in memory. -/
theorem At.held {H : List String} {t : DTree String} {anc : List String} {n : String} {c : DTree String} {H' : List String} (h : At rb H t anc n c H') {v : String}
    (hr : ReadBelow rb n c v) : (v ∈ H ∨ ∃ a ∈ anc, v ∈ phiStores (rb a) ++ idStores (rb a).ids) → v ∈ H' := by
  induction h with
  | here => rintro (h | ⟨a, ha, -⟩)
            · exact h
            · cases ha
  | inside H b ch rest anc n c H' hat ih =>
    intro hv
    apply ih hr
    have hu : v ∈ usedIn (forestOf rb ch) := in_usedIn hat.isIn hr
    have hnf : v ∉ evFrees (blockEvs (rb b) (lastUse (rb b) (forestOf rb ch))) := fun h => blockEvs_frees h hu
    have : (v ∈ H ∨ v ∈ phiStores (rb b) ++ idStores (rb b).ids) ∨ ∃ a ∈ anc, v ∈ phiStores (rb a) ++ idStores (rb a).ids := by
      rcases hv with hv | ⟨a, ha, hv⟩
      · exact .inl (.inl hv)
      · rcases mem_cons.1 ha with rfl | ha
        · exact .inl (.inr hv)
        · exact .inr ⟨a, ha, hv⟩
    rcases this with h | h
    · exact .inl (heldAfter_mem _ _ (by rw [blockEvs_picks]; exact h) hnf)
    · exact .inr h
  | next _ _ _ _ _ _ _ _ _ ih => exact ih hr

/-- No phi functions have to be solved. -/
def NoPhis (rb : String → RBlock) : Prop := ∀ b, (rb b).toSolve = [] ∧ (rb b).copies = []

theorem events_of (hp : NoPhis rb) (b : String) (m : List Mark) : blockEvs (rb b) m = idEvs m 0 (rb b).ids := by
  unfold blockEvs phiEvs copyEvs
  rw [(hp b).1, (hp b).2]
  simp

theorem stores_of (hp : NoPhis rb) (b : String) : phiStores (rb b) ++ idStores (rb b).ids = idStores (rb b).ids := by
  unfold phiStores
  rw [(hp b).1]
  simp

theorem uses_of (hp : NoPhis rb) (b v : String) : Uses (rb b) v ↔ RId.get v ∈ (rb b).ids := by
  unfold Uses
  rw [(hp b).1, (hp b).2]
  simp

/-- Only what a block reads is released in it. -/
theorem frees_read (hp : NoPhis rb) {b v : String} {m : List Mark} (h : v ∈ evFrees (blockEvs (rb b) m)) : RId.get v ∈ (rb b).ids := by
  rw [events_of hp] at h
  obtain ⟨l1, l2, h, -⟩ := idEvs_frees _ _ h
  rw [h]
  simp

/-- The block `n` is in the tree, with children `c`. -/
inductive Child : DTree String → String → DTree String → Prop where
  | here (b : String) (ch rest : DTree String) : Child (.node b ch rest) b ch
  | inside (b : String) (ch rest : DTree String) (n : String) (c : DTree String) : Child ch n c → Child (.node b ch rest) n c
  | next (b : String) (ch rest : DTree String) (n : String) (c : DTree String) : Child rest n c → Child (.node b ch rest) n c

theorem Child.mem {t : DTree String} {n : String} {c : DTree String} (h : Child t n c) : n ∈ nodes t := by
  induction h with
  | here => simp [nodes]
  | inside _ _ _ _ _ _ ih => simp [nodes, ih]
  | next _ _ _ _ _ _ ih => simp [nodes, ih]

/-- The block does not release the cell of `v`. -/
def Keeps (rb : String → RBlock) (t : DTree String) (x v : String) : Prop :=
  ∀ c, Child t x c → v ∉ evFrees (blockEvs (rb x) (lastUse (rb x) (forestOf rb c)))

/-- What is in memory at the beginning and is not released on the way is in memory at the end of the block. -/
theorem At.kept {H : List String} {t : DTree String} {anc : List String} {n : String} {c : DTree String} {H' : List String}
    (h : At rb H t anc n c H') {v : String} : v ∈ H → (∀ x ∈ anc ++ [n], Keeps rb t x v) → v ∈ heldEnd rb n c H' := by
  induction h with
  | here H b ch rest =>
    intro hv hx
    exact heldAfter_mem _ _ (.inl hv) (hx b (by simp) ch (.here _ _ _))
  | inside H b ch rest anc n c H' _ ih =>
    intro hv hx
    refine ih (heldAfter_mem _ _ (.inl hv) (hx b (by simp) ch (.here _ _ _))) fun x h c hc => hx x ?_ c (.inside _ _ _ _ _ hc)
    rw [cons_append]
    exact mem_cons_of_mem _ h
  | next _ _ _ _ _ _ _ _ _ ih => exact fun hv hx => ih hv fun x h c hc => hx x h c (.next _ _ _ _ _ hc)

/-- What is in memory at the beginning of `S` is in memory at the end of `B`, if the block above `S` is `B` or one above `B`, and no block below it down to `B`
releases the variable. -/
theorem edge_kept {t : DTree String} (hn : (nodes t).Nodup) {v : String} : ∀ {H ancS S cS HS ancB B cB HB mid},
    At rb H t ancS S cS HS → At rb H t ancB B cB HB → ancB ++ [B] = ancS ++ mid → (∀ x ∈ mid, Keeps rb t x v) → v ∈ HS → v ∈ heldEnd rb B cB HB := by
  induction t with
  | nil => intro H ancS S cS HS ancB B cB HB mid h; cases h
  | node b ch rest ih1 ih2 =>
    intro H ancS S cS HS ancB B cB HB mid hS hB he hx hv
    obtain ⟨n1, n2, n3, n4, n5⟩ := nodup_node hn
    cases hanc : ancS with
    | nil =>
      rw [hS.top hanc] at hv
      rw [hanc, nil_append] at he
      exact hB.kept hv (by rw [he]; exact hx)
    | cons a ancS' =>
      subst hanc
      cases hS with
      | inside _ _ _ _ _ _ _ _ hS =>
        cases hB with
        | here =>
          have : ancS' = [] ∧ mid = [] := by simpa using he
          obtain ⟨rfl, rfl⟩ := this
          rw [hS.top rfl] at hv
          exact hv
        | inside _ _ _ _ ancB' _ _ _ hB =>
          rw [cons_append, cons_append, cons.injEq] at he
          exact ih1 n3 hS hB he.2 (fun x h c hc => hx x h c (.inside _ _ _ _ _ hc)) hv
        | next _ _ _ _ _ _ _ _ hB =>
          exfalso
          have : b ∈ ancB ++ [B] := by rw [he]; simp
          rcases mem_append.1 this with h | h
          · exact n2 (hB.mem.2 b h)
          · rw [mem_singleton] at h
            exact n2 (h ▸ hB.mem.1)
      | next _ _ _ _ _ _ _ _ hS =>
        have ha : a ∈ nodes rest := hS.mem.2 a (by simp)
        have hhead : (ancB ++ [B]).head? = some a := by rw [he]; rfl
        cases hB with
        | here =>
          simp only [nil_append, head?_cons, Option.some.injEq] at hhead
          exact absurd (hhead ▸ ha) n2
        | inside _ _ _ _ ancB' _ _ _ hB =>
          simp only [cons_append, head?_cons, Option.some.injEq] at hhead
          exact absurd (hhead ▸ ha) n2
        | next _ _ _ _ _ _ _ _ hB => exact ih2 n4 hS hB he (fun x h c hc => hx x h c (.next _ _ _ _ _ hc)) hv

/-- What is read in a block below is not released. -/
theorem below_used {t : DTree String} (hn : (nodes t).Nodup) {x : String} {c : DTree String} (h : Child t x c) : ∀ {anc y v}, Node t anc y → x ∈ anc →
    Uses (rb y) v → v ∈ usedIn (forestOf rb c) := by
  induction h with
  | here b ch rest =>
    intro anc y v hy hx hu
    obtain ⟨n1, n2, n3, n4, n5⟩ := nodup_node hn
    cases hy with
    | here => cases hx
    | inside _ _ _ anc _ hy =>
      obtain ⟨c, H', k⟩ := at_of_node (rb := rb) hy []
      exact in_usedIn k.isIn (.inl hu)
    | next _ _ _ _ _ hy =>
      obtain ⟨c, H', k⟩ := at_of_node (rb := rb) hy []
      exact absurd (k.mem.2 _ hx) n2
  | inside b ch rest n c hc ih =>
    intro anc y v hy hx hu
    obtain ⟨n1, n2, n3, n4, n5⟩ := nodup_node hn
    cases hy with
    | here => cases hx
    | inside _ _ _ anc _ hy =>
      rcases mem_cons.1 hx with rfl | hx
      · exact absurd hc.mem n1
      · exact ih n3 hy hx hu
    | next _ _ _ _ _ hy =>
      obtain ⟨c, H', k⟩ := at_of_node (rb := rb) hy []
      exact absurd (k.mem.2 _ hx) (n5 _ hc.mem)
  | next b ch rest n c hc ih =>
    intro anc y v hy hx hu
    obtain ⟨n1, n2, n3, n4, n5⟩ := nodup_node hn
    cases hy with
    | here => cases hx
    | inside _ _ _ anc _ hy =>
      rcases mem_cons.1 hx with rfl | hx
      · exact absurd hc.mem n2
      · obtain ⟨c, H', k⟩ := at_of_node (rb := rb) hy []
        exact absurd hc.mem (n5 _ (k.mem.2 _ hx))
    | next _ _ _ _ _ hy => exact ih n4 hy hx hu

/-- A block that does not read the variable, or reads it although it is read in a block below, does not release it. -/
theorem keeps_of (hp : NoPhis rb) {t : DTree String} (hn : (nodes t).Nodup) {x v : String}
    (h : RId.get v ∈ (rb x).ids → ∃ anc y, Node t anc y ∧ x ∈ anc ∧ RId.get v ∈ (rb y).ids) : Keeps rb t x v := by
  intro c hc hf
  obtain ⟨anc, y, h1, h2, h3⟩ := h (frees_read hp hf)
  exact blockEvs_frees hf (below_used hn hc h1 h2 (.inl h3))

/-- At a read, the variable is in memory. -/
theorem read_held (hp : NoPhis rb) {H : List String} {t : DTree String} {anc : List String} {n : String} {c : DTree String} {H' : List String} (h : At rb H t anc n c H')
    {i : Nat} {v : String} (hi : (rb n).ids[i]? = some (.get v)) (hs : StoredBefore (anc.map rb) (rb n) i v) :
    v ∈ heldAfter (idEvs (lastUse (rb n) (forestOf rb c)) 0 ((rb n).ids.take i)) H' := by
  have hmem : RId.get v ∈ (rb n).ids.drop i := by
    rw [mem_iff_getElem?]
    exact ⟨0, by rw [getElem?_drop]; simpa using hi⟩
  have hf := frees_before (b := rb n) (ch := forestOf rb c) (i := i) (v := v) (.inl hmem)
  rw [evFrees_append, mem_append, not_or] at hf
  refine heldAfter_mem _ _ ?_ hf.2
  rw [idEvs_picks]
  rcases hs with ⟨a, ha, hv⟩ | hv | hv
  · obtain ⟨a', ha', rfl⟩ := mem_map.1 ha
    exact .inl (h.held (.inl (.inl (mem_of_mem_drop hmem))) (.inr ⟨a', ha', hv⟩))
  · unfold phiStores at hv
    rw [(hp n).1] at hv
    simp at hv
  · exact .inr hv

end Grey.Kept
