/-
How many cells of memory the repair reserves, and that they suffice (src/reparation/insert_placeholders.py:207-228 and 42-44,
src/reparation/tree_scan.py:83-101, 214-217): C78.
-/
import Mathlib.Data.List.Dedup
import Mathlib.Data.List.Lattice
import Verif.Repair.Colour
import Verif.Repair.StorePlacement
import Verif.Repair.Placeholders
import Verif.Repair.PhiRepair
import Verif.Repair.Slots
import Verif.Greedy.Registers
namespace Grey.Repair
open List

/-! ### Model -/

/-- What the repair reads of a block: its name, the schedule (`greedy_ids`), the variables whose number of loads was increased by
`add_virtual_copy`, `reachable`, the result of `within_loop`, the phi functions, `phi_defs_to_solve` and `virtual_copies`. -/
structure CBlock where
  id : String
  ids : List String
  extra : List String
  reach : Reach
  inLoop : String → Bool
  phis : List (String × List String)
  toSolve : List String
  copies : List String

/-- `get_count` of the block when the stores are placed (src/greedy/greedy_info.py:57-72 and 91-96). -/
def CBlock.count (b : CBlock) (v : String) : Nat := (initialGetCount b.ids).1 v + b.extra.count v

/-- The block as the placement of stores sees it (src/reparation/insert_placeholders.py:230-275). -/
def CBlock.sblock (b : CBlock) : SBlock := ⟨b.count, fun v => (b.reach v).isSome, b.inLoop⟩

/-- The same for the dominance tree. -/
def sTree : DTree CBlock → DTree SBlock
  | .nil => .nil
  | .node b ch rest => .node b.sblock (sTree ch) (sTree rest)

/-- The variables with an entry in some counter. -/
def loaded : DTree CBlock → List String
  | .nil => []
  | .node b ch rest => b.ids.filterMap vgetOf ++ b.extra ++ loaded ch ++ loaded rest

/-- `num_acceses_vget`: the variables with a positive total counter (src/reparation/insert_placeholders.py:212-217; the addition of
counters leaves out what is not positive). -/
def numLoaded (t : DTree CBlock) : Nat := ((loaded t).dedup.filter fun v => 0 < totalCount (sTree t) v).length

/-- `num_vgets_dominated` (src/reparation/insert_placeholders.py:213-215). -/
def numDominated : DTree CBlock → Nat
  | .nil => 0
  | .node b ch rest => (initialGetCount b.ids).2.1 + numDominated ch + numDominated rest

/-- The number of colours at the beginning of the scan (src/reparation/insert_placeholders.py:41-44, 225-228,
src/reparation/repair_unreachable.py:88-96). -/
def numCells (t : DTree CBlock) (W : PhiWebs) : Nat := numLoaded t + numDominated t + W.vars.length

/-- How the scan reads an instruction id (src/reparation/tree_scan.py:60-71). Simplification: `"VSET" in instr_id` is read as "starts with
`VSET` or is a `DUP-VSET`". -/
def readAs : PId → RId
  | .dupSet v d => .dupSet v d
  | .id s =>
    match vgetOf s with
    | some v => .get v
    | none =>
      match vsetOf s with
      | some v => .set v
      | none => .other s

/-- The tree for the scan, after the stores have been put into the blocks, in any order within a block (the code traverses a set,
src/reparation/insert_placeholders.py:262-272). -/
inductive Inserted : DTree CBlock → DTree (SBlock × (String → Bool)) → DomForest → Prop where
  | nil : Inserted .nil .nil .nil
  | node {b : CBlock} {sb : SBlock} {st : String → Bool} {ch rest : DTree CBlock} {ch' rest' : DTree (SBlock × (String → Bool))} {fch frest : DomForest}
      (vs : List String) (g : List PId × Reach) (hn : vs.Nodup) (hvs : ∀ v, v ∈ vs ↔ st v = true)
      (hg : insertAll vs (b.ids.map .id, b.reach) = some g) (h1 : Inserted ch ch' fch) (h2 : Inserted rest rest' frest) :
      Inserted (.node b ch rest) (.node (sb, st) ch' rest') (.node ⟨b.phis, b.toSolve, g.1.map readAs, b.copies⟩ fch frest)

/-! ### Specification -/

/-- The results of all phi functions of the tree. -/
def phiResults : DTree CBlock → List String
  | .nil => []
  | .node b ch rest => b.phis.map Prod.fst ++ phiResults ch ++ phiResults rest

/-- Every value is stored before it is read, on every path of the dominance tree. -/
def ReadsStored (f : DomForest) : Prop :=
  ∀ anc b ch, In f anc b ch → (∀ (i : Nat) (v : String), b.ids[i]? = some (.get v) → StoredBefore anc b i v) ∧
    ∀ v ∈ b.copies, StoredBefore anc b b.ids.length v

/-! ### No colour is beyond the number of stores -/

theorem firstTrue_below : ∀ (l : List Bool) (c : Nat), c < firstTrue l → l[c]? = some false := by
  intro l
  induction l with
  | nil => intro c h; simp [firstTrue] at h
  | cons b l ih =>
    intro c h
    cases b with
    | true => simp [firstTrue] at h
    | false =>
      cases c with
      | zero => rfl
      | succ c =>
        rw [getElem?_cons_succ]
        simp only [firstTrue] at h
        exact ih c (by omega)

/-- The colours picked so far: one for each store; each is smaller than their number. -/
structure Few (A : List Nat) (sh : Shared) : Prop where
  colours : ∀ v c, sh.colour v = some c → c ∈ A
  classes : ∀ k c, c ∈ sh.classes k → c ∈ A
  small : ∀ c ∈ A, c < A.length

def Taken (A : List Nat) (av : List Bool) : Prop := ∀ c, av[c]? = some false → c ∈ A

theorem pick_few {A : List Nat} {av : List Bool} (hl : Taken A av) (v : String) (sh : Shared) : (pickAvailable v sh av).2.2 ≤ A.length := by
  have key : ∀ n, (∀ c < n, av[c]? = some false) → n ≤ A.length := by
    intro n hn
    have hsub : range n ⊆ A := fun c hc => hl c (hn c (mem_range.1 hc))
    have := (nodup_range.subperm hsub).length_le
    rwa [length_range] at this
  unfold pickAvailable
  split
  · exact key _ (firstTrue_below av)
  · rename_i h
    exact key _ (firstTrue_none h)

theorem biasedPick_few {web : String → Option Nat} {A : List Nat} {v : String} {sh : Shared} {av : List Bool} {r : Shared × List Bool}
    (hf : Few A sh) (hl : Taken A av) (h : biasedPick web v sh av = some r) : ∃ n, Few (n :: A) r.1 ∧ Taken (n :: A) r.2 := by
  obtain ⟨n, p1, p2, p3, p4, p5, p6, p7, p8⟩ := biasedPick_spec h
  have hle : n ≤ A.length := by
    unfold biasedPick at h
    cases hw : web v with
    | none =>
      rw [hw] at h
      cases h
      obtain ⟨n', q1, q2, _⟩ := pickAvailable_spec v sh av
      simp only [q2, Shared.setColour, if_true, Option.some.injEq] at p1
      have := pick_few hl v sh
      omega
    | some k =>
      rw [hw] at h
      simp only at h
      obtain ⟨q, hq, rfl⟩ := Option.map_eq_some_iff.1 h
      obtain ⟨_, _, b3, b4, b5⟩ := biasLoop_spec v _ sh av q hq
      have hl' : Taken A q.2 := by
        intro c hc
        by_cases hm : c ∈ sh.classes k
        · exact hf.classes k c hm
        · rw [b4 c (by simpa using hm)] at hc
          exact hl c hc
      obtain ⟨n', q1, q2, _⟩ := pickAvailable_spec v q.1 q.2
      simp only [q2, Shared.setColour, if_true, Option.some.injEq] at p1
      have := pick_few hl' v q.1
      omega
  refine ⟨n, ⟨?_, ?_, ?_⟩, ?_⟩
  · intro u c hc
    by_cases hu : u = v
    · subst hu
      rw [p1] at hc
      cases hc
      exact mem_cons_self
    · rw [p2 u hu] at hc
      exact mem_cons_of_mem _ (hf.colours u c hc)
  · intro k c hc
    rw [p8] at hc
    split at hc
    · rcases mem_append.1 hc with hc | hc
      · exact mem_cons_of_mem _ (hf.classes k c hc)
      · rw [mem_singleton] at hc
        exact hc ▸ mem_cons_self
    · exact mem_cons_of_mem _ (hf.classes k c hc)
  · intro c hc
    rw [length_cons]
    rcases mem_cons.1 hc with rfl | hc
    · omega
    · have := hf.small c hc
      omega
  · intro c hc
    by_cases hcn : c = n
    · exact hcn ▸ mem_cons_self
    · apply mem_cons_of_mem
      by_cases hk : ∃ k, web v = some k ∧ c ∈ sh.classes k
      · obtain ⟨k, _, hk⟩ := hk
        exact hf.classes k c hk
      · rw [p7 c hcn (fun k hk' hm => hk ⟨k, hk', hm⟩)] at hc
        exact hl c hc

theorem release_taken {A : List Nat} {v : String} {sh : Shared} {av av' : List Bool} (hl : Taken A av) (h : release v sh av = some av') : Taken A av' := by
  unfold release at h
  obtain ⟨c, _, h⟩ := Option.bind_eq_some_iff.1 h
  split at h
  · cases h
    intro d hd
    rw [getElem?_set] at hd
    split at hd
    · cases hd
    · exact hl d hd
  · cases h

theorem scanArgs_taken {A : List Nat} {sh : Shared} (m : List Mark) : ∀ (args : List String) (av av' : List Bool), Taken A av →
    scanArgs m sh args av = some av' → Taken A av' := by
  intro args
  induction args with
  | nil => intro av av' hl h; cases h; exact hl
  | cons a args ih =>
    intro av av' hl h
    unfold scanArgs at h
    split at h
    · obtain ⟨av1, h1, h2⟩ := Option.bind_eq_some_iff.1 h
      exact ih _ _ (release_taken hl h1) h2
    · exact ih _ _ hl h

theorem runEvs_few {web : String → Option Nat} : ∀ (es : List Ev) (A : List Nat) (sh : Shared) (av : List Bool) (r : Shared × List Bool),
    Few A sh → Taken A av → runEvs web es sh av = some r → ∃ A', Few A' r.1 ∧ Taken A' r.2 ∧ A'.length = A.length + (evPicks es).length ∧ A ⊆ A' := by
  intro es
  induction es with
  | nil => intro A sh av r hf hl h; cases h; exact ⟨A, hf, hl, by simp [evPicks], fun _ h => h⟩
  | cons e es ih =>
    intro A sh av r hf hl h
    obtain ⟨q, hq, h'⟩ := Option.bind_eq_some_iff.1 h
    cases e with
    | free v =>
      obtain ⟨av', ha, hr⟩ := Option.map_eq_some_iff.1 hq
      subst hr
      obtain ⟨A', i1, i2, i3, i4⟩ := ih A sh av' r hf (release_taken hl ha) h'
      exact ⟨A', i1, i2, by rw [i3]; rfl, i4⟩
    | pick args v =>
      obtain ⟨av', ha, hq'⟩ := Option.bind_eq_some_iff.1 hq
      obtain ⟨n, f1, f2⟩ := biasedPick_few hf (scanArgs_taken _ _ _ _ hl ha) hq'
      obtain ⟨A', i1, i2, i3, i4⟩ := ih (n :: A) q.1 q.2 r f1 f2 h'
      exact ⟨A', i1, i2, by rw [i3, length_cons, evPicks, length_cons]; omega, fun c hc => i4 (mem_cons_of_mem _ hc)⟩

theorem taken_mono {A A' : List Nat} {av : List Bool} (h : A ⊆ A') (hl : Taken A av) : Taken A' av := fun c hc => h (hl c hc)

theorem assign_few {web : String → Option Nat} : ∀ (f : DomForest) (A : List Nat) (sh : Shared) (av : List Bool) (sh' : Shared),
    Few A sh → Taken A av → assignForest web f sh av = some sh' → ∃ A', Few A' sh' ∧ A'.length = A.length + (allStores f).length ∧ A ⊆ A' := by
  intro f
  induction f with
  | nil => intro A sh av sh' hf _ h; cases h; exact ⟨A, hf, by simp [allStores], fun _ h => h⟩
  | node b ch rest ih1 ih2 =>
    intro A sh av sh' hf hl h
    unfold assignForest at h
    obtain ⟨r, hr, h⟩ := Option.bind_eq_some_iff.1 h
    obtain ⟨s1, hs, h⟩ := Option.bind_eq_some_iff.1 h
    rw [scanBlock_evs] at hr
    obtain ⟨A1, a1, a2, a3, a4⟩ := runEvs_few _ A sh av r hf hl hr
    obtain ⟨A2, b1, b2, b3⟩ := ih1 A1 r.1 r.2 s1 a1 a2 hs
    obtain ⟨A3, c1, c2, c3⟩ := ih2 A2 s1 av sh' b1 (taken_mono (fun c hc => b3 (a4 hc)) hl) h
    refine ⟨A3, c1, ?_, fun c hc => c3 (b3 (a4 hc))⟩
    rw [c2, b2, a3, blockEvs_picks]
    simp only [allStores, length_append]
    omega

/-- **C78, colours.** However many colours the scan starts with, whatever the webs, and whether or not a value is stored more than
once: if it ends, every colour is smaller than the number of stores. -/
theorem colours_below_stores {web : String → Option Nat} {f : DomForest} {num : Nat} {colour : String → Option Nat}
    (h : treeScan web f num = some colour) : ∀ v c, colour v = some c → c < (allStores f).length := by
  intro v c hc
  obtain ⟨sh, hs, rfl⟩ := Option.map_eq_some_iff.1 h
  obtain ⟨A, a1, a2, _⟩ := assign_few f [] _ _ sh ⟨by simp, by simp, by simp⟩ (by
    intro c hc
    rw [getElem?_replicate] at hc
    split at hc <;> cases hc) hs
  have := a1.small c (a1.colours v c hc)
  rw [a2] at this
  simpa using this

/-! ### The scan ends -/

/-- Every release is of a variable that has a colour. -/
def Reads : List String → List Ev → Prop
  | _, [] => True
  | D, .free v :: es => v ∈ D ∧ Reads D es
  | D, .pick _ v :: es => Reads (v :: D) es

theorem reads_of : ∀ (es : List Ev) (D : List String), (∀ p q v, es = p ++ .free v :: q → v ∈ D ∨ v ∈ evPicks p) → Reads D es := by
  intro es
  induction es with
  | nil => intro D _; trivial
  | cons e es ih =>
    intro D h
    cases e with
    | free v =>
      refine ⟨by simpa [evPicks] using h [] es v rfl, ih D ?_⟩
      intro p q u he
      exact h (.free v :: p) q u (by rw [he]; rfl)
    | pick args v =>
      refine ih (v :: D) ?_
      intro p q u he
      rcases h (.pick args v :: p) q u (by rw [he]; rfl) with h | h
      · exact .inl (mem_cons_of_mem _ h)
      · rcases mem_cons.1 h with rfl | h
        · exact .inl mem_cons_self
        · exact .inr h

theorem runEvs_reads {web : String → Option Nat} {num : Nat} : ∀ (es : List Ev) (D : List String) (A : List Nat) (sh : Shared) (av : List Bool),
    (∀ v ∈ D, ∃ c, sh.colour v = some c) → Reads D es → Fits num A sh → Loc num A av → A.length + (evPicks es).length ≤ num →
    ∃ r A', runEvs web es sh av = some r ∧ Fits num A' r.1 ∧ Loc num A' r.2 ∧ A'.length = A.length + (evPicks es).length ∧ A ⊆ A' ∧
      ∀ v, v ∈ D ∨ v ∈ evPicks es → ∃ c, r.1.colour v = some c := by
  intro es
  induction es with
  | nil => intro D A sh av hD _ hf hl _; exact ⟨_, A, rfl, hf, hl, by simp [evPicks], fun _ h => h, by simpa [evPicks] using hD⟩
  | cons e es ih =>
    intro D A sh av hD hr hf hl hlen
    cases e with
    | free v =>
      obtain ⟨c, hc⟩ := hD v hr.1
      obtain ⟨av', h1, h2⟩ := release_total hf hl hc
      obtain ⟨r, A', i1, i2⟩ := ih D A sh av' hD hr.2 hf h2 hlen
      exact ⟨r, A', by simp [runEvs, runEv, h1, i1], i2⟩
    | pick args v =>
      rw [evPicks, length_cons] at hlen
      obtain ⟨av', h1, h2⟩ := scanArgs_total hf (args.map .arg) args av hl
      obtain ⟨q, n, h3, h4, h5⟩ := biasedPick_total (web := web) (v := v) hf h2 (by omega)
      obtain ⟨m, p1, p2, _⟩ := biasedPick_spec h3
      obtain ⟨r, A', i1, i2, i3, i4, i5, i6⟩ := ih (v :: D) (n :: A) q.1 q.2 (by
        intro u hu
        by_cases huv : u = v
        · exact ⟨m, by rw [huv]; exact p1⟩
        · rw [p2 u huv]
          exact hD u ((mem_cons.1 hu).resolve_left huv)) hr h4 h5 (by rw [length_cons]; omega)
      refine ⟨r, A', by simp [runEvs, runEv, h1, h3, i1], i2, i3, by rw [i4, length_cons, evPicks, length_cons]; omega,
        fun c hc => i5 (mem_cons_of_mem _ hc), ?_⟩
      intro u hu
      apply i6
      rcases hu with hu | hu
      · exact .inl (mem_cons_of_mem _ hu)
      · rcases mem_cons.1 hu with rfl | hu
        · exact .inl mem_cons_self
        · exact .inr hu

theorem blockEvs_reads {b : RBlock} {m : List Mark} {D : List String}
    (h1 : ∀ (i : Nat) (v : String), b.ids[i]? = some (.get v) → v ∈ D ∨ v ∈ phiStores b ∨ v ∈ idStores (b.ids.take i))
    (h2 : ∀ v ∈ b.copies, v ∈ D ∨ v ∈ phiStores b ∨ v ∈ idStores b.ids) : Reads D (blockEvs b m) := by
  have hcopy : ∀ v, Ev.free v ∈ copyEvs m b.copies → v ∈ D ∨ v ∈ phiStores b ∨ v ∈ idStores b.ids := by
    intro v hv
    unfold copyEvs at hv
    obtain ⟨u, hu, e⟩ := mem_map.1 hv
    cases e
    exact h2 _ (mem_filter.1 hu).1
  have hrest : ∀ (p q : List Ev) (v : String), idEvs m 0 b.ids ++ copyEvs m b.copies = p ++ .free v :: q → v ∈ D ∨ v ∈ phiStores b ∨ v ∈ evPicks p := by
    intro p q v he
    rcases append_eq_append_iff.1 he with ⟨c, rfl, hc⟩ | ⟨c, hc, hc'⟩
    · rw [evPicks_append, idEvs_picks, mem_append]
      rcases hcopy v (by rw [hc]; simp) with h | h | h
      · exact .inl h
      · exact .inr (.inl h)
      · exact .inr (.inr (.inl h))
    · rcases c with _ | ⟨x, c⟩
      · rw [nil_append] at hc'
        rw [append_nil] at hc
        rw [← hc, idEvs_picks]
        exact hcopy v (by rw [← hc']; simp)
      · cases hc'
        obtain ⟨l1, l2, hl, rfl, _⟩ := idEvs_split_free _ _ _ _ hc
        rw [idEvs_picks]
        have := h1 l1.length v (by rw [hl]; simp)
        rw [hl, take_left] at this
        exact this
  refine reads_of _ _ ?_
  intro p q v he
  unfold blockEvs at he
  rw [append_assoc] at he
  have hphi : evPicks (phiEvs m b.toSolve b.phis) = phiStores b := phiEvs_picks _ _ _
  rcases append_eq_append_iff.1 he with ⟨a, rfl, ha⟩ | ⟨a, ha, ha'⟩
  · rw [evPicks_append, hphi, mem_append]
    exact hrest a q v ha
  · rcases a with _ | ⟨x, a⟩
    · rw [append_nil] at ha
      rw [nil_append] at ha'
      rw [← ha, hphi]
      have := hrest [] q v ha'.symm
      simpa [evPicks] using this
    · exfalso
      cases ha'
      have : Ev.free v ∈ phiEvs m b.toSolve b.phis := by rw [ha]; simp
      unfold phiEvs at this
      obtain ⟨_, _, e⟩ := mem_map.1 this
      cases e

theorem scan_ends {web : String → Option Nat} {num : Nat} : ∀ (f : DomForest) (pre : List RBlock) (D : List String) (A : List Nat) (sh : Shared) (av : List Bool),
    (∀ v ∈ D, ∃ c, sh.colour v = some c) → (∀ a ∈ pre, ∀ v ∈ phiStores a ++ idStores a.ids, v ∈ D) →
    (∀ anc b ch, In f anc b ch → (∀ (i : Nat) (v : String), b.ids[i]? = some (.get v) → StoredBefore (pre ++ anc) b i v) ∧
      ∀ v ∈ b.copies, StoredBefore (pre ++ anc) b b.ids.length v) →
    Fits num A sh → Loc num A av → A.length + (allStores f).length ≤ num →
    ∃ sh' A', assignForest web f sh av = some sh' ∧ Fits num A' sh' ∧ A'.length = A.length + (allStores f).length ∧ A ⊆ A' ∧
      ∀ v ∈ D, ∃ c, sh'.colour v = some c := by
  intro f
  induction f with
  | nil => intro pre D A sh av hD _ _ hf _ _; exact ⟨sh, A, rfl, hf, by simp [allStores], fun _ h => h, hD⟩
  | node b ch rest ih1 ih2 =>
    intro pre D A sh av hD hpre hst hf hl hlen
    simp only [allStores, length_append] at hlen
    have hpl : (evPicks (blockEvs b (lastUse b ch))).length = (phiStores b).length + (idStores b.ids).length := by
      rw [blockEvs_picks, length_append]
    have hst0 := hst [] b ch (.here _ _ _)
    rw [append_nil] at hst0
    have hreads : Reads D (blockEvs b (lastUse b ch)) := by
      refine blockEvs_reads ?_ ?_
      · intro i v hv
        rcases hst0.1 i v hv with ⟨a, ha, hv⟩ | h
        · exact .inl (hpre a ha v hv)
        · exact .inr h
      · intro v hv
        rcases hst0.2 v hv with ⟨a, ha, hv⟩ | h
        · exact .inl (hpre a ha v hv)
        · rw [take_length] at h
          exact .inr h
    obtain ⟨r, A1, h1, h2, h3, h4, h5, h6⟩ := runEvs_reads (web := web) _ D A sh av hD hreads hf hl (by omega)
    obtain ⟨s1, A2, g1, g2, g3, g4, g5⟩ := ih1 (pre ++ [b]) (D ++ (phiStores b ++ idStores b.ids)) A1 r.1 r.2 (by
      intro v hv
      apply h6
      rw [blockEvs_picks]
      exact mem_append.1 hv) (by
      intro a ha v hv
      rcases mem_append.1 ha with ha | ha
      · exact mem_append_left _ (hpre a ha v hv)
      · rw [mem_singleton] at ha
        subst ha
        exact mem_append_right _ hv) (by
      intro anc b' ch' hin
      rw [append_assoc]
      exact hst (b :: anc) b' ch' (.inside _ _ _ _ _ _ hin)) h2 h3 (by omega)
    obtain ⟨s2, A3, k1, k2, k3, k4, k5⟩ := ih2 pre D A2 s1 av (fun v hv => g5 v (mem_append_left _ hv)) hpre
      (fun anc b' ch' hin => hst anc b' ch' (.next _ _ _ _ _ _ hin)) g2 ⟨hl.len, fun c hc => g4 (h5 (hl.used c hc))⟩ (by omega)
    refine ⟨s2, A3, ?_, k2, ?_, fun c hc => k4 (g4 (h5 hc)), k5⟩
    · unfold assignForest
      rw [scanBlock_evs, h1]
      simp only [Option.bind_some]
      rw [g1]
      exact k1
    · simp only [allStores, length_append]
      omega

/-- **C78, the scan.** If the number of colours at the beginning is at least the number of stores and every value is stored before it is
read, the scan ends without an exception. -/
theorem scan_succeeds {web : String → Option Nat} {f : DomForest} {num : Nat} (hr : ReadsStored f) (hnum : (allStores f).length ≤ num) :
    ∃ colour, treeScan web f num = some colour := by
  obtain ⟨sh, A, h, _⟩ := scan_ends (web := web) (num := num) f [] [] [] ⟨fun _ => none, fun _ => []⟩ (replicate num true) (by simp) (by simp) (by simpa [ReadsStored] using hr)
    ⟨by simp, by simp, by simp⟩ ⟨by simp, by
      intro c hc
      rw [getElem?_replicate] at hc
      split at hc <;> cases hc⟩ (by simpa using hnum)
  exact ⟨_, by unfold treeScan; rw [h]; rfl⟩

/-! ### Counting the stores -/

theorem idStores_app (l1 l2 : List RId) : idStores (l1 ++ l2) = idStores l1 ++ idStores l2 := by
  induction l1 with
  | nil => rfl
  | cons x l1 ih => cases x <;> simp [idStores, ih]

theorem idStores_ids (ids : List String) : idStores ((ids.map PId.id).map readAs) = ids.filterMap vsetOf := by
  induction ids with
  | nil => rfl
  | cons s ids ih =>
    rw [map_cons, map_cons, filterMap_cons]
    cases hg : vgetOf s with
    | some v =>
      have : readAs (.id s) = .get v := by simp only [readAs, hg]
      rw [this, vget_vset hg]
      exact ih
    | none =>
      cases hs : vsetOf s with
      | some v =>
        have : readAs (.id s) = .set v := by simp only [readAs, hg, hs]
        rw [this, idStores, ih]
      | none =>
        have : readAs (.id s) = .other s := by simp only [readAs, hg, hs]
        rw [this]
        exact ih

theorem insertAll_stores : ∀ (vs : List String) (g g' : List PId × Reach), insertAll vs g = some g' →
    (idStores (g'.1.map readAs)).length = (idStores (g.1.map readAs)).length + vs.length := by
  intro vs
  induction vs with
  | nil => intro g g' h; cases h; rfl
  | cons v vs ih =>
    intro g g' h
    obtain ⟨q, hq, h⟩ := Option.bind_eq_some_iff.1 h
    rw [ih q g' h]
    obtain ⟨e, _, rfl⟩ := Option.map_eq_some_iff.1 hq
    have hs : (idStores (g.1.map readAs)).length
        = (idStores ((g.1.take e.2.1).map readAs)).length + (idStores ((g.1.drop e.2.1).map readAs)).length := by
      rw [← length_append, ← idStores_app, ← map_append, take_append_drop]
    simp only [map_append, map_cons, idStores_app, readAs, idStores, length_append, length_cons]
    omega

/-- The results of the phi functions to solve. -/
def phiSolved : DTree CBlock → List String
  | .nil => []
  | .node b ch rest => (b.phis.filter fun p => p.1 ∈ b.toSolve).map Prod.fst ++ phiSolved ch ++ phiSolved rest

def numSets : DTree CBlock → Nat
  | .nil => 0
  | .node b ch rest => (b.ids.filterMap vsetOf).length + numSets ch + numSets rest

theorem inserted_stores {t : DTree CBlock} {t' : DTree (SBlock × (String → Bool))} {f : DomForest} (h : Inserted t t' f) :
    ∃ S : List String, (∀ v, S.count v = numStores t' v) ∧ (allStores f).length = (phiSolved t).length + numSets t + S.length := by
  induction h with
  | nil => exact ⟨[], fun v => rfl, rfl⟩
  | @node b sb st ch rest ch' rest' fch frest vs g hn hvs hg h1 h2 ih1 ih2 =>
    obtain ⟨S1, a1, a2⟩ := ih1
    obtain ⟨S2, b1, b2⟩ := ih2
    refine ⟨vs ++ S1 ++ S2, ?_, ?_⟩
    · intro v
      rw [count_append, count_append, a1, b1, numStores_node]
      congr 2
      by_cases hv : st v = true
      · rw [if_pos hv]
        exact count_eq_one_of_mem hn ((hvs v).2 hv)
      · rw [if_neg hv]
        exact count_eq_zero_of_not_mem fun h => hv ((hvs v).1 h)
    · have hl := insertAll_stores vs _ g hg
      simp only [idStores_ids] at hl
      simp only [allStores, phiStores, phiSolved, numSets, length_append, length_map, a2, b2] at hl ⊢
      rw [hl]
      omega

theorem count_loaded (b : CBlock) (v : String) (h : 0 < b.count v) : v ∈ b.ids.filterMap vgetOf ++ b.extra := by
  unfold CBlock.count at h
  rw [mem_append]
  by_cases he : v ∈ b.extra
  · exact .inr he
  · rw [count_eq_zero_of_not_mem he, getCount_exact] at h
    obtain ⟨i, hi⟩ := exists_mem_of_length_pos h
    obtain ⟨_, hi⟩ := mem_filter.1 hi
    unfold PendingLoad at hi
    rw [Bool.and_eq_true, beq_iff_eq] at hi
    obtain ⟨s, hs, hv⟩ := Option.bind_eq_some_iff.1 hi.1
    exact .inl (mem_filterMap.2 ⟨s, mem_of_getElem? hs, hv⟩)

theorem total_loaded : ∀ (t : DTree CBlock) (v : String), 0 < totalCount (sTree t) v → v ∈ loaded t := by
  intro t
  induction t with
  | nil => intro v h; simp [sTree, totalCount] at h
  | node b ch rest ih1 ih2 =>
    intro v h
    simp only [sTree, totalCount, CBlock.sblock] at h
    rw [loaded, mem_append, mem_append]
    by_cases hb : 0 < b.count v
    · exact .inl (.inl (count_loaded b v hb))
    · by_cases hc : 0 < totalCount (sTree ch) v
      · exact .inl (.inr (ih1 v hc))
      · exact .inr (ih2 v (by omega))

theorem sets_dominated : ∀ (t : DTree CBlock), (∀ B ∈ nodes t, (B.ids.filterMap vsetOf).length ≤ (initialGetCount B.ids).2.1) →
    numSets t ≤ numDominated t := by
  intro t
  induction t with
  | nil => intro _; exact Nat.le_refl _
  | node b ch rest ih1 ih2 =>
    intro h
    have h0 := h b (by simp [nodes])
    have h1 := ih1 fun B hB => h B (by simp [nodes, hB])
    have h2 := ih2 fun B hB => h B (by simp [nodes, hB])
    rw [numSets, numDominated]
    omega

theorem solved_sub : ∀ (t : DTree CBlock), (phiSolved t).Sublist (phiResults t) := by
  intro t
  induction t with
  | nil => exact Sublist.refl _
  | node b ch rest ih1 ih2 => exact ((filter_sublist.map _).append ih1).append ih2

theorem solved_mem : ∀ (t : DTree CBlock) (v : String), v ∈ phiSolved t → ∃ B ∈ nodes t, v ∈ B.toSolve := by
  intro t
  induction t with
  | nil => intro v h; cases h
  | node b ch rest ih1 ih2 =>
    intro v h
    rw [phiSolved, mem_append, mem_append] at h
    rcases h with (h | h) | h
    · obtain ⟨p, hp, rfl⟩ := mem_map.1 h
      exact ⟨b, by simp [nodes], by simpa using (mem_filter.1 hp).2⟩
    · obtain ⟨B, hB, hv⟩ := ih1 v h
      exact ⟨B, by simp [nodes, hB], hv⟩
    · obtain ⟨B, hB, hv⟩ := ih2 v h
      exact ⟨B, by simp [nodes, hB], hv⟩

theorem argLoop_frame {bs : List QBlock} : ∀ (r : List (String × String)) (st : List String) (s : Fix) (q : List String × Fix),
    argLoop bs r st s = some q → q.2.marked = s.marked ∧ q.2.joins = s.joins := by
  intro r
  induction r with
  | nil => intro st s q h; cases h; exact ⟨rfl, rfl⟩
  | cons x r ih =>
    intro st s q h
    obtain ⟨a, e⟩ := x
    unfold argLoop at h
    obtain ⟨E, _, h⟩ := Option.bind_eq_some_iff.1 h
    split at h
    · obtain ⟨_, _, h⟩ := Option.bind_eq_some_iff.1 h
      exact ih _ (addCopy E a s) _ h
    · exact ih _ (addCopy E a s) _ h

/-- Every marked phi function has been joined. -/
def AllJoined (s : Fix) : Prop := ∀ c ∈ s.marked, ∃ j ∈ s.joins, j.1 = c.2

theorem fixLoop_joined {bs : List QBlock} : ∀ (n : Nat) (st : List String) (s s' : Fix), AllJoined s → fixLoop bs n st s = some s' → AllJoined s' := by
  intro n
  induction n with
  | zero =>
    intro st s s' hj h
    cases st with
    | nil => cases h; exact hj
    | cons v st => cases h
  | succ n ih =>
    intro st s s' hj h
    cases st with
    | nil => cases h; exact hj
    | cons v st =>
      unfold fixLoop at h
      obtain ⟨B, _, h⟩ := Option.bind_eq_some_iff.1 h
      obtain ⟨p, _, h⟩ := Option.bind_eq_some_iff.1 h
      obtain ⟨r, hr, h⟩ := Option.bind_eq_some_iff.1 h
      obtain ⟨e1, e2⟩ := argLoop_frame _ _ _ _ hr
      refine ih _ _ _ ?_ h
      intro c hc
      simp only [e1, mem_cons] at hc
      rcases hc with rfl | hc
      · exact ⟨_, by simp only [mem_append, mem_singleton]; exact .inr rfl, rfl⟩
      · obtain ⟨j, hj', hjc⟩ := hj c hc
        exact ⟨j, by simp only [e2, mem_append]; exact .inl hj', hjc⟩

theorem fixPhis_joined {bs : List QBlock} : ∀ (es : List String) (s s' : Fix), AllJoined s → fixPhis bs es s = some s' → AllJoined s' := by
  intro es
  induction es with
  | nil => intro s s' hj h; cases h; exact hj
  | cons e es ih =>
    intro s s' hj h
    unfold fixPhis at h
    obtain ⟨_, _, h⟩ := Option.bind_eq_some_iff.1 h
    obtain ⟨s1, h1, h⟩ := Option.bind_eq_some_iff.1 h
    exact ih _ _ (fixLoop_joined _ _ _ _ hj h1) h

/-- A phi function to solve is in the webs. -/
theorem marked_in_webs {bs : List QBlock} {toFix : List String} {s : Fix} {W : PhiWebs} (h : repairPhis bs toFix = some (s, W)) :
    ∀ b v, (b, v) ∈ s.marked → v ∈ W.vars := by
  intro b v hv
  obtain ⟨s', hs, e⟩ := Option.map_eq_some_iff.1 h
  cases e
  obtain ⟨j, hj, hjv⟩ := fixPhis_joined _ _ _ (by intro c hc; cases hc) hs _ hv
  exact ((good_joinAll _).2 v).2 ⟨j, hj, .inl hjv.symm⟩

/-- **C78.** Let the phi functions to solve be those the repair marks, the results of phi functions be distinct, and every schedule have at most as
many `VSET` as loads of values stored in the block (`greedy_stores`: the scheduler produces no others). After the stores are placed and
inserted, there are at most as many stores in the tree as cells reserved. So every colour of the scan is a cell that exists, and lies
within the first cells, as many as there are stores; and if every value is stored before it is read, the scan ends. -/
theorem cells_suffice {bs : List QBlock} {toFix : List String} {fx : Fix} {W : PhiWebs} (hW : repairPhis bs toFix = some (fx, W))
    {b : CBlock} {ch : DTree CBlock} {f : DomForest} (hssa : (phiResults (.node b ch .nil)).Nodup)
    (hmark : ∀ B ∈ nodes (DTree.node b ch .nil), ∀ v ∈ B.toSolve, (B.id, v) ∈ fx.marked)
    (hsch : ∀ B ∈ nodes (DTree.node b ch .nil), (B.ids.filterMap vsetOf).length ≤ (initialGetCount B.ids).2.1)
    (hf : Inserted (.node b ch .nil) (storeAll (sTree (.node b ch .nil))).1 f) :
    (allStores f).length ≤ numCells (.node b ch .nil) W ∧
    (∀ web colour, treeScan web f (numCells (.node b ch .nil) W) = some colour → ∀ v c, colour v = some c →
      c < (allStores f).length ∧ ∀ base, ∃ s, (slotConstants base (numCells (.node b ch .nil) W))[c]? = some s) ∧
    (ReadsStored f → ∀ web, ∃ colour, treeScan web f (numCells (.node b ch .nil) W) = some colour) := by
  have hle : (allStores f).length ≤ numCells (.node b ch .nil) W := by
    obtain ⟨S, s1, s2⟩ := inserted_stores hf
    have key := fun v => stores_dominate_loads b.sblock (sTree ch) v
    have hone : ∀ v, numStores (storeAll (sTree (.node b ch .nil))).1 v ≤ 1 ∧
        (0 < numStores (storeAll (sTree (.node b ch .nil))).1 v → 0 < totalCount (sTree (.node b ch .nil)) v) := by
      intro v
      obtain ⟨_, k1, k2, _⟩ := key v
      rcases Nat.eq_zero_or_pos (totalCount (sTree (.node b ch .nil)) v) with h0 | h0
      · have := (k2 h0).1
        simp only [sTree] at this ⊢
        omega
      · rcases k1 h0 with h | h
        · simp only [sTree]
          omega
        · have := h.2.1
          simp only [sTree] at this ⊢
          omega
    have hSn : S.Nodup := nodup_iff_count_le_one.2 fun v => by rw [s1]; exact (hone v).1
    have hSs : S ⊆ (loaded (.node b ch .nil)).dedup.filter fun v => 0 < totalCount (sTree (.node b ch .nil)) v := by
      intro v hv
      have hpos := (hone v).2 (by rw [← s1]; exact count_pos_iff.2 hv)
      exact mem_filter.2 ⟨mem_dedup.2 (total_loaded _ v hpos), by simpa using hpos⟩
    have c1 := (hSn.subperm hSs).length_le
    have c2 := sets_dominated _ hsch
    have c3 := ((hssa.sublist (solved_sub _)).subperm (l₂ := W.vars) (by
      intro v hv
      obtain ⟨B, hB, hvB⟩ := solved_mem _ v hv
      exact marked_in_webs hW _ _ (hmark B hB v hvB))).length_le
    unfold numCells numLoaded
    omega
  refine ⟨hle, ?_, fun hr web => scan_succeeds hr hle⟩
  intro web colour hc v c hv
  have := colours_below_stores hc v c hv
  exact ⟨this, fun base => ⟨_, by unfold slotConstants; rw [getElem?_map, getElem?_range (by omega)]; rfl⟩⟩

/-! ### Inserting the stores never fails -/

theorem insertAll_some : ∀ (vs : List String) (g : List PId × Reach), (∀ v ∈ vs, (g.2 v).isSome = true) → ∃ g', insertAll vs g = some g' := by
  intro vs
  induction vs with
  | nil => intro g _; exact ⟨g, rfl⟩
  | cons v vs ih =>
    intro g h
    obtain ⟨e, he⟩ := Option.isSome_iff_exists.1 (h v mem_cons_self)
    unfold insertAll insertDupVset
    rw [he]
    exact ih _ fun u hu => by simp only [Option.isSome_map]; exact h u (mem_cons_of_mem _ hu)

theorem storeTree_inserted (L : List String) (hL : L.Nodup) : ∀ (t : DTree CBlock) (left : String → Nat),
    (∀ a ∈ nodes (storeTree (sTree t) left).tree, ∀ v, a.2 v = true → v ∈ L) → ∃ f, Inserted t (storeTree (sTree t) left).tree f := by
  intro t
  induction t with
  | nil => intro left _; exact ⟨_, .nil⟩
  | node b ch rest ih1 ih2 =>
    intro left h
    have hr := fun v => storeTree_reach (v := v) (sTree (.node b ch rest)) left
    simp only [sTree, storeTree, nodes, cons_append, mem_cons, mem_append, forall_eq_or_imp] at h hr ⊢
    obtain ⟨h0, h'⟩ := h
    obtain ⟨f1, i1⟩ := ih1 left fun a ha => h' a (.inl ha)
    obtain ⟨f2, i2⟩ := ih2 _ fun a ha => h' a (.inr ha)
    generalize hst : (fun v => ((storeTree (sTree ch) left).vars v || popped (storeTree (sTree ch) left) b.sblock v) && b.sblock.reach v && b.sblock.inLoop v) = st
    have hs : ∀ v, st v = true → _ := fun v h => show (((storeTree (sTree ch) left).vars v || popped (storeTree (sTree ch) left) b.sblock v) && b.sblock.reach v && b.sblock.inLoop v) = true by rw [← hst] at h; exact h
    obtain ⟨g, hg⟩ := insertAll_some (L.filter st) (b.ids.map .id, b.reach) fun v hv => ((hr v).1 (hs v (mem_filter.1 hv).2)).1
    exact ⟨_, .node (L.filter st) g (hL.filter _) (fun v => by rw [mem_filter]; exact ⟨fun h => h.2, fun h => ⟨h0 v (hs v h), h⟩⟩) hg i1 i2⟩

/-- **C78, no exception.** The stores chosen for the blocks can always be inserted. -/
theorem inserted_total (b : CBlock) (ch : DTree CBlock) : ∃ f, Inserted (.node b ch .nil) (storeAll (sTree (.node b ch .nil))).1 f := by
  refine storeTree_inserted (loaded (.node b ch .nil)).dedup (nodup_dedup _) _ _ ?_
  intro a ha v hv
  rw [mem_dedup]
  apply total_loaded
  rcases Nat.eq_zero_or_pos (totalCount (sTree (.node b ch .nil)) v) with h0 | h0
  · exfalso
    have := ((stores_dominate_loads b.sblock (sTree ch) v).2.2.1 h0).1
    have hpos : 0 < numStores (storeAll (sTree (.node b ch .nil))).1 v :=
      length_pos_of_mem (mem_filter.2 ⟨ha, hv⟩)
    simp only [sTree] at this hpos
    omega
  · exact h0

/-! ### With the schedules of the scheduler -/

/-- A list of ids that the scheduler returns for some block. -/
def FromGreedy (ids : List String) : Prop :=
  ∃ (tab : List SymExec.UInstr) (src tgt : List String) (deps : List (String × String)) (reach n : Nat) (junk : Bool) (h h' : Greedy.Heur)
    (p p' : Greedy.Plan) (r : List (String × String)), Greedy.BlockOk tab src tgt ∧ Greedy.NoVars tab ∧
    (∀ u ∈ tab, h.text u ≠ "SWAP1" ∧ h.text u ≠ "DUP1") ∧ (∀ u ∈ tab, h'.text u ≠ "SWAP1" ∧ h'.text u ≠ "DUP1") ∧
    (∀ o ∈ p.instr, Greedy.Plain o) ∧ (∀ o ∈ p'.instr, Greedy.Plain o) ∧
    Greedy.greedy tab src tgt deps reach n junk h h' p p' = some r ∧ ids = r.map Prod.snd

/-- **C78, whole repair.** `cells_suffice` for blocks whose schedules come from the scheduler. -/
theorem greedy_cells_suffice {bs : List QBlock} {toFix : List String} {fx : Fix} {W : PhiWebs} (hW : repairPhis bs toFix = some (fx, W))
    {b : CBlock} {ch : DTree CBlock} {f : DomForest} (hssa : (phiResults (.node b ch .nil)).Nodup)
    (hmark : ∀ B ∈ nodes (DTree.node b ch .nil), ∀ v ∈ B.toSolve, (B.id, v) ∈ fx.marked)
    (hsch : ∀ B ∈ nodes (DTree.node b ch .nil), FromGreedy B.ids)
    (hf : Inserted (.node b ch .nil) (storeAll (sTree (.node b ch .nil))).1 f) :
    (allStores f).length ≤ numCells (.node b ch .nil) W ∧
    (∀ web colour, treeScan web f (numCells (.node b ch .nil) W) = some colour → ∀ v c, colour v = some c →
      c < (allStores f).length ∧ ∀ base, ∃ s, (slotConstants base (numCells (.node b ch .nil) W))[c]? = some s) ∧
    (ReadsStored f → ∀ web, ∃ colour, treeScan web f (numCells (.node b ch .nil) W) = some colour) := by
  refine cells_suffice hW hssa hmark ?_ hf
  intro B hB
  obtain ⟨tab, src, tgt, deps, reach, n, junk, h, h', p, p', r, h1, h2, h3, h4, h5, h6, h7, h8⟩ := hsch B hB
  rw [h8]
  exact Greedy.greedy_stores h1 h2 h3 h4 h5 h6 h7

/-! ### A concrete case -/

/-- The loop of `exPhiTree` with schedules: a value stored and loaded within block `1`, and a load of `c` for the phi function. -/
def exCells : CBlock × DTree CBlock :=
  (⟨"0", ["PUSH_0"], [], exPhiReach [("a", 0, 1, true)], fun _ => true, [], [], ["a"]⟩,
    .node ⟨"1", ["VSET(w)", "VGET(w)"], ["x"], exPhiReach [("u", 0, 0, true)], fun _ => true, [("x", ["a", "y"]), ("u", ["a", "b"])], ["x"], ["x"]⟩
      (.node ⟨"3", ["PUSH_1", "PUSH_2"], ["c"], exPhiReach [("c", 0, 2, false)], fun _ => true, [], [], ["c"]⟩ .nil
        (.node ⟨"4", [], ["x"], exPhiReach [], fun _ => true, [], [], ["x"]⟩ .nil
          (.node ⟨"2", ["PUSH_3"], ["y", "y"], exPhiReach [("b", 0, 1, true)], fun _ => true, [("y", ["x", "x", "c"])], ["y"], ["y"]⟩ .nil .nil)))
      .nil)

theorem exCells_repaired : ∃ fx W, repairPhis exPhiQ ["a", "y"] = some (fx, W) ∧
    (∀ B ∈ nodes (DTree.node exCells.1 exCells.2 .nil), ∀ v ∈ B.toSolve, (B.id, v) ∈ fx.marked) ∧
    numCells (.node exCells.1 exCells.2 .nil) W = 8 := by
  refine ⟨_, _, (Option.eq_some_of_isSome (by decide +kernel)), ?_, ?_⟩ <;> decide +kernel

/-- Eight cells are reserved; every repair of the example has at most eight stores, and no colour is beyond them. -/
example : ∃ f, Inserted (.node exCells.1 exCells.2 .nil) (storeAll (sTree (.node exCells.1 exCells.2 .nil))).1 f ∧ (allStores f).length ≤ 8 ∧
    ∀ web colour, treeScan web f 8 = some colour → ∀ v c, colour v = some c → c < (allStores f).length := by
  obtain ⟨f, hf⟩ := inserted_total exCells.1 exCells.2
  obtain ⟨fx, W, h1, h2, h3⟩ := exCells_repaired
  have := cells_suffice h1 (by decide +kernel) h2 (by decide +kernel) hf
  rw [h3] at this
  exact ⟨f, hf, this.1, fun web colour h v c hv => (this.2.1 web colour h v c hv).1⟩

/-- The tree after the insertion, and its colours: four stores, three of the eight cells. -/
def exCellsForest : DomForest :=
  .node ⟨[], [], [.other "PUSH_0"], ["a"]⟩
    (.node ⟨[("x", ["a", "y"]), ("u", ["a", "b"])], ["x"], [.set "w", .get "w"], ["x"]⟩
      (.node ⟨[], [], [.other "PUSH_1", .other "PUSH_2", .dupSet "c" 0], ["c"]⟩ .nil
        (.node ⟨[], [], [], ["x"]⟩ .nil
          (.node ⟨[("y", ["x", "x", "c"])], ["y"], [.other "PUSH_3"], ["y"]⟩ .nil .nil)))
      .nil) .nil

example : allStores exCellsForest = ["x", "w", "c", "y"] ∧
    (treeScan (fun v => if v ∈ ["x", "a", "y", "c"] then some 0 else none) exCellsForest 8).map (fun c => ["x", "w", "c", "y"].map c)
      = some [some 0, some 1, some 1, some 2] := by decide +kernel

-- schedules of the scheduler with a store
example : ((((Greedy.greedy Greedy.exTab ["s2", "s3", "s4", "s0", "s1"] ["s2", "v1", "s3", "s4"] [] 3 100 false Greedy.exHeur Greedy.exHeur
    (Greedy.exPlan [("s0", 1), ("s1", 1), ("v1", 3), ("s2", 1), ("s3", 1), ("s4", 1)]) (Greedy.exPlan [])).getD []).map Prod.snd).filterMap vsetOf) = ["s4"] ∧
    FromGreedy (((Greedy.greedy Greedy.exTab ["s2", "s3", "s4", "s0", "s1"] ["s2", "v1", "s3", "s4"] [] 3 100 false Greedy.exHeur Greedy.exHeur
    (Greedy.exPlan [("s0", 1), ("s1", 1), ("v1", 3), ("s2", 1), ("s3", 1), ("s4", 1)]) (Greedy.exPlan [])).getD []).map Prod.snd) := by
  refine ⟨by decide +kernel, Greedy.exTab, ["s2", "s3", "s4", "s0", "s1"], ["s2", "v1", "s3", "s4"], [], 3, 100, false, Greedy.exHeur, Greedy.exHeur,
    Greedy.exPlan [("s0", 1), ("s1", 1), ("v1", 3), ("s2", 1), ("s3", 1), ("s4", 1)], Greedy.exPlan [], _,
    Greedy.exTab_ok (by decide +kernel) (by decide +kernel), by unfold Greedy.NoVars; decide +kernel, by decide +kernel, by decide +kernel, by decide +kernel,
    by decide +kernel, (Option.eq_some_of_isSome (by decide +kernel)), ?_⟩
  decide +kernel

end Grey.Repair
