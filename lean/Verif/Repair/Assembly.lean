/-
Only instructions the assembler knows are handed to it: C82.
-/
import Verif.Repair.Driver
namespace Grey.RepairAll
open List Grey.Repair Grey.Stored

/-! ### Lists that are repaired have cells -/

theorem getCountLoop_mono (ids acc : List String) (cnt : String → Nat) (dom : Nat) (has : Bool) :
    (∀ v, cnt v ≤ (getCountLoop ids acc cnt dom has).1 v) ∧ dom ≤ (getCountLoop ids acc cnt dom has).2.1 := by
  induction ids generalizing acc cnt dom has with
  | nil => exact ⟨fun v => Nat.le_refl _, Nat.le_refl _⟩
  | cons s ss ih =>
    unfold getCountLoop
    cases hg : vgetOf s with
    | some u =>
      dsimp only
      split
      · obtain ⟨h1, h2⟩ := ih acc cnt (dom + 1) true
        exact ⟨h1, by omega⟩
      · obtain ⟨h1, h2⟩ := ih acc (fun w => if w = u then cnt w + 1 else cnt w) dom true
        refine ⟨fun v => Nat.le_trans ?_ (h1 v), h2⟩
        split <;> omega
    | none =>
      dsimp only
      cases hs : vsetOf s with
      | some v => exact ih _ _ _ _
      | none => exact ih _ _ _ _

theorem load_counted (ids acc : List String) (cnt : String → Nat) (dom : Nat) (has : Bool) (h : ∃ s ∈ ids, ∃ v, vgetOf s = some v) :
    (∃ v, 0 < (getCountLoop ids acc cnt dom has).1 v) ∨ 0 < (getCountLoop ids acc cnt dom has).2.1 := by
  induction ids generalizing acc cnt dom has with
  | nil => simp at h
  | cons s ss ih =>
    unfold getCountLoop
    cases hg : vgetOf s with
    | some u =>
      dsimp only
      split
      · exact .inr (Nat.lt_of_lt_of_le (Nat.succ_pos dom) (getCountLoop_mono ss acc cnt (dom + 1) true).2)
      · refine .inl ⟨u, Nat.lt_of_lt_of_le ?_ ((getCountLoop_mono ss acc (fun w => if w = u then cnt w + 1 else cnt w) dom true).1 u)⟩
        simp
    | none =>
      have h' : ∃ s ∈ ss, ∃ v, vgetOf s = some v := by
        obtain ⟨s', hs', v, hv⟩ := h
        rcases mem_cons.1 hs' with rfl | hs'
        · rw [hg] at hv; cases hv
        · exact ⟨s', hs', v, hv⟩
      dsimp only
      cases hs : vsetOf s with
      | some v => exact ih _ _ _ _ h'
      | none => exact ih _ _ _ _ h'

theorem total_of_block : ∀ (t : DTree CBlock) (B : CBlock) (v : String), B ∈ nodes t → B.count v ≤ totalCount (sTree t) v := by
  intro t
  induction t with
  | nil => intro B v h; simp [nodes] at h
  | node b ch rest ih1 ih2 =>
    intro B v h
    simp only [nodes, cons_append, mem_cons, mem_append] at h
    simp only [sTree, totalCount, CBlock.sblock]
    rcases h with rfl | h | h
    · omega
    · have := ih1 B v h; omega
    · have := ih2 B v h; omega

theorem dominated_of_block : ∀ (t : DTree CBlock) (B : CBlock), B ∈ nodes t → (initialGetCount B.ids).2.1 ≤ numDominated t := by
  intro t
  induction t with
  | nil => intro B h; simp [nodes] at h
  | node b ch rest ih1 ih2 =>
    intro B h
    simp only [nodes, cons_append, mem_cons, mem_append] at h
    rw [numDominated]
    rcases h with rfl | h | h
    · omega
    · have := ih1 B h; omega
    · have := ih2 B h; omega

/-- A list with a load is given cells. -/
theorem repaired_has_cells {l : RList} (h : needsRepair l = true) : numCells l.tree l.webs ≠ 0 := by
  unfold needsRepair at h
  obtain ⟨B, hB, hh⟩ := any_eq_true.1 h
  have hc := load_counted B.ids [] (fun _ => 0) 0 false ((has_iff B.ids).1 hh)
  unfold numCells
  rcases hc with ⟨v, hv⟩ | hd
  · have h1 : 0 < B.count v := by
      unfold CBlock.count initialGetCount
      omega
    have h2 : 0 < totalCount (sTree l.tree) v := Nat.lt_of_lt_of_le h1 (total_of_block l.tree B v hB)
    have h3 : v ∈ (loaded l.tree).dedup.filter fun v => 0 < totalCount (sTree l.tree) v :=
      mem_filter.2 ⟨mem_dedup.2 (total_loaded l.tree v h2), by simpa using h2⟩
    have := length_pos_of_mem h3
    unfold numLoaded
    omega
  · have h1 := dominated_of_block l.tree B hB
    unfold initialGetCount at h1
    omega

/-! ### What is written for a block -/

/-- The stores of the repair in a block. -/
def StoresIn (B : CBlock) (rb : RBlock) : Prop := ∃ g : List PId, originals g = B.ids ∧ rb.ids = g.map readAs

theorem insertAll_orig : ∀ (vs : List String) (g g' : List PId × Reach), insertAll vs g = some g' → originals g'.1 = originals g.1 := by
  intro vs
  induction vs with
  | nil => intro g g' h; cases h; rfl
  | cons v vs ih =>
    intro g g' h
    unfold insertAll at h
    obtain ⟨g1, h1, h2⟩ := Option.bind_eq_some_iff.1 h
    unfold insertDupVset at h1
    obtain ⟨e, he, rfl⟩ := Option.map_eq_some_iff.1 h1
    rw [ih _ _ h2]
    dsimp only
    rw [originals_append, originals, ← originals_append, take_append_drop]

theorem inserted_blocks {t : DTree CBlock} {t' : DTree (SBlock × (String → Bool))} {f : DomForest} (h : Inserted t t' f) :
    Forall₂ StoresIn (nodes t) (scanned f) := by
  induction h with
  | nil => exact .nil
  | node vs g hn hvs hg h1 h2 ih1 ih2 =>
    refine .cons ⟨g.1, ?_, rfl⟩ (rel_append ih1 ih2)
    rw [insertAll_orig _ _ _ hg, originals_ids]

theorem mem_originals {s : String} {l : List PId} (h : PId.id s ∈ l) : s ∈ originals l := by
  induction l with
  | nil => simp at h
  | cons p l ih =>
    rcases mem_cons.1 h with rfl | h2
    · simp [originals]
    · cases p <;> simp [originals, ih h2]

/-- The instructions of the repair. -/
def OfRepair (s : String) : Prop := (∃ k : Nat, s = "DUP" ++ toString k) ∨ (∃ c, s = "PUSH " ++ c) ∨ s = "MLOAD" ∨ s = "MSTORE"

theorem emitRead_texts {cell : String → Option Nat} : ∀ {l : List RId} {ops : List SOp}, emitRead cell l = some ops →
    ∀ s ∈ ops.flatMap SOp.texts, RId.other s ∈ l ∨ OfRepair s := by
  intro l
  induction l with
  | nil => intro ops h; cases h; simp
  | cons r l ih =>
    intro ops h s hs
    have step : ∀ {ops'}, emitRead cell l = some ops' → s ∈ ops'.flatMap SOp.texts → RId.other s ∈ r :: l ∨ OfRepair s := by
      intro ops' h1 h2
      rcases ih h1 s h2 with h3 | h3
      · exact .inl (mem_cons_of_mem _ h3)
      · exact .inr h3
    cases r with
    | get v =>
      unfold emitRead at h
      obtain ⟨a, -, h⟩ := Option.bind_eq_some_iff.1 h
      obtain ⟨ops', h1, rfl⟩ := Option.map_eq_some_iff.1 h
      rw [flatMap_cons, mem_append] at hs
      rcases hs with hs | hs
      · simp only [SOp.texts, mem_cons, not_mem_nil, or_false] at hs
        rcases hs with rfl | rfl
        · exact .inr (.inr (.inl ⟨_, rfl⟩))
        · exact .inr (.inr (.inr (.inl rfl)))
      · exact step h1 hs
    | set v =>
      unfold emitRead at h
      obtain ⟨a, -, h⟩ := Option.bind_eq_some_iff.1 h
      obtain ⟨ops', h1, rfl⟩ := Option.map_eq_some_iff.1 h
      rw [flatMap_cons, mem_append] at hs
      rcases hs with hs | hs
      · simp only [SOp.texts, mem_cons, not_mem_nil, or_false] at hs
        rcases hs with rfl | rfl
        · exact .inr (.inr (.inl ⟨_, rfl⟩))
        · exact .inr (.inr (.inr (.inr rfl)))
      · exact step h1 hs
    | dupSet v d =>
      unfold emitRead at h
      obtain ⟨a, -, h⟩ := Option.bind_eq_some_iff.1 h
      obtain ⟨ops', h1, rfl⟩ := Option.map_eq_some_iff.1 h
      rw [flatMap_cons, flatMap_cons, mem_append, mem_append] at hs
      rcases hs with hs | hs | hs
      · simp only [SOp.texts, mem_cons, not_mem_nil, or_false] at hs
        exact .inr (.inl ⟨_, hs⟩)
      · simp only [SOp.texts, mem_cons, not_mem_nil, or_false] at hs
        rcases hs with rfl | rfl
        · exact .inr (.inr (.inl ⟨_, rfl⟩))
        · exact .inr (.inr (.inr (.inr rfl)))
      · exact step h1 hs
    | other s' =>
      unfold emitRead at h
      obtain ⟨ops', h1, rfl⟩ := Option.map_eq_some_iff.1 h
      rw [flatMap_cons, mem_append] at hs
      rcases hs with hs | hs
      · simp only [SOp.texts, mem_cons, not_mem_nil, or_false] at hs
        subst hs
        exact .inl (by simp)
      · exact step h1 hs

theorem other_read {s : String} {g : List PId} (h : RId.other s ∈ g.map readAs) : s ∈ originals g ∧ vgetOf s = none ∧ vsetOf s = none := by
  obtain ⟨p, hp, he⟩ := mem_map.1 h
  cases p with
  | dupSet v d => simp [readAs] at he
  | id s' =>
    unfold readAs at he
    dsimp only at he
    cases hg : vgetOf s' with
    | some v => rw [hg] at he; simp at he
    | none =>
      rw [hg] at he
      dsimp only at he
      cases hs : vsetOf s' with
      | some v => rw [hs] at he; simp at he
      | none =>
        rw [hs] at he
        simp only [RId.other.injEq] at he
        subst he
        exact ⟨mem_originals hp, hg, hs⟩

theorem plain_assembles {tab : List SymExec.UInstr} {ids : List String} (hs : Scheduled tab ids) {s : String} (h : s ∈ ids) (h1 : vgetOf s = none)
    (h2 : vsetOf s = none) : Assembles tab s := by
  rcases greedy_ids_known hs h with h | h | h | h | ⟨v, rfl⟩ | ⟨v, rfl⟩
  · exact .inl h
  · exact .inr (.inl h)
  · exact .inr (.inr (.inl h))
  · exact .inr (.inr (.inr (.inl h)))
  · unfold loadText at h1
    rw [Greedy.vget_text] at h1
    cases h1
  · unfold storeText at h2
    rw [(Greedy.vset_text v).2] at h2
    cases h2

theorem repair_assembles {tab : List SymExec.UInstr} {s : String} (h : OfRepair s) : Assembles tab s := by
  rcases h with h | h | h | h
  · exact .inr (.inr (.inr (.inl h)))
  · exact .inr (.inr (.inr (.inr (.inl h))))
  · exact .inr (.inr (.inr (.inr (.inr (.inl h)))))
  · exact .inr (.inr (.inr (.inr (.inr (.inr h)))))

theorem text_ofRepair (e : EInstr) : OfRepair (textOf e) := by
  cases e with
  | push c => exact .inr (.inl ⟨c, rfl⟩)
  | mload => exact .inr (.inr (.inl rfl))
  | mstore => exact .inr (.inr (.inr rfl))
  | dup n => exact .inl ⟨n, rfl⟩

/-- The blocks of a block list, each with its instruction ids. -/
def ListAssembles (l : RList) (outs : List (List String)) : Prop := Forall₂ (fun B ids => ∀ s ∈ ids, Assembles (l.tab B) s) (nodes l.tree) outs

theorem emitOne_assembles {l : RList} {consts : List String} {colour : String → Option Nat} {B : CBlock} {rb : RBlock} (hB : Scheduled (l.tab B) B.ids)
    (hi : StoresIn B rb) {ids : List String} (h : emitOne l consts colour (B, rb) = some ids) : ∀ s ∈ ids, Assembles (l.tab B) s := by
  obtain ⟨g, hg, hr⟩ := hi
  unfold emitOne at h
  obtain ⟨ops, ho, h⟩ := Option.bind_eq_some_iff.1 h
  have key : ∀ s ∈ ops.flatMap SOp.texts, Assembles (l.tab B) s := by
    intro s hs
    rcases emitRead_texts ho s hs with h1 | h1
    · dsimp only at h1
      rw [hr] at h1
      obtain ⟨h2, h3, h4⟩ := other_read h1
      rw [hg] at h2
      exact plain_assembles hB h2 h3 h4
    · exact repair_assembles h1
  split at h
  · cases h; exact key
  · obtain ⟨es, -, rfl⟩ := Option.map_eq_some_iff.1 h
    intro s hs
    rcases mem_append.1 hs with hs | hs
    · exact key s hs
    · obtain ⟨e, -, rfl⟩ := mem_map.1 hs
      exact repair_assembles (text_ofRepair e)

theorem zip_mapM {α β γ : Type} {f : α × β → Option γ} {R : α → β → Prop} {Q : α → γ → Prop} (h : ∀ a b c, R a b → f (a, b) = some c → Q a c) :
    ∀ {as : List α} {bs : List β} {cs : List γ}, (∀ a ∈ as, True) → Forall₂ R as bs → (as.zip bs).mapM f = some cs → Forall₂ Q as cs := by
  intro as bs cs _ hR
  induction hR generalizing cs with
  | nil => intro h; simp at h; subst h; exact .nil
  | cons hab _ ih =>
    intro hm
    rw [zip_cons_cons, mapM_cons] at hm
    simp only [Option.bind_eq_bind, Option.pure_def] at hm
    obtain ⟨c, hc, hm⟩ := Option.bind_eq_some_iff.1 hm
    obtain ⟨cs', hcs, hm⟩ := Option.bind_eq_some_iff.1 hm
    simp only [Option.some.injEq] at hm
    subst hm
    exact .cons (h _ _ _ hab hc) (ih (by simp) hcs)

theorem forall₂_mem {α β : Type} {R : α → β → Prop} : ∀ {as : List α} {bs : List β}, Forall₂ R as bs → Forall₂ (fun a b => a ∈ as ∧ R a b) as bs := by
  intro as bs h
  induction h with
  | nil => exact .nil
  | cons h _ ih => exact .cons ⟨by simp, h⟩ (ih.imp fun a b hab => ⟨mem_cons_of_mem _ hab.1, hab.2⟩)

theorem withCells_assembles {l : RList} (hl : ∀ B ∈ nodes l.tree, Scheduled (l.tab B) B.ids) {base : String} {f : DomForest} {colour : String → Option Nat}
    {cs : List Nat} {outs : List (List String)} (h : WithCells l base f colour cs outs) : ListAssembles l outs := by
  refine zip_mapM (R := fun B rb => B ∈ nodes l.tree ∧ StoresIn B rb) ?_ (by simp) (forall₂_mem (inserted_blocks h.inserted)) h.emit
  intro B rb ids hB he
  exact emitOne_assembles (hl B hB.1) hB.2 he

theorem repaired_assembles {l : RList} (hl : ∀ B ∈ nodes l.tree, Scheduled (l.tab B) B.ids) (hn : needsRepair l = true) {base next : String}
    {outs : List (List String)} (h : Repaired l base outs next) : ListAssembles l outs := by
  cases h with
  | nothing _ h0 => exact absurd h0 (repaired_has_cells hn)
  | cells f colour cs _ _ h0 hw hnext => exact withCells_assembles hl hw

theorem schedules_assemble {l : RList} (hl : ∀ B ∈ nodes l.tree, Scheduled (l.tab B) B.ids) (hn : needsRepair l = false) :
    ListAssembles l (schedules l) := by
  unfold ListAssembles schedules
  rw [forall₂_map_right_iff, forall₂_same]
  intro B hB s hs
  have h0 : (initialGetCount B.ids).2.2 = false := by
    unfold needsRepair at hn
    rw [any_eq_false] at hn
    simpa using hn B hB
  obtain ⟨h1, h2⟩ := no_stores (scheduled_fromGreedy (hl B hB)) h0 s hs
  exact plain_assembles (hl B hB) hs h1 h2

/-- `one` behaves like `repair_unreachable_blocklist`. -/
def Repairs (one : RList → String → Option (List (List String) × String)) : Prop := ∀ l base r, one l base = some r → Repaired l base r.1 r.2

theorem each_assembles {one : RList → String → Option (List (List String) × String)} (h1 : Repairs one) {first : Option String} :
    ∀ {ls : List RList} {mx : Option String} {r : List (List (List String)) × Option String},
    (∀ l ∈ ls, ∀ B ∈ nodes l.tree, Scheduled (l.tab B) B.ids) → repairEach one first ls mx = some r → Forall₂ ListAssembles ls r.1 := by
  intro ls
  induction ls with
  | nil => intro mx r _ h; cases h; exact .nil
  | cons l ls ih =>
    intro mx r hl h
    have hl' : ∀ l ∈ ls, ∀ B ∈ nodes l.tree, Scheduled (l.tab B) B.ids := fun m hm => hl m (mem_cons_of_mem _ hm)
    unfold repairEach at h
    split at h
    · rename_i hn
      obtain ⟨base, -, h⟩ := Option.bind_eq_some_iff.1 h
      obtain ⟨r1, hr1, h⟩ := Option.bind_eq_some_iff.1 h
      obtain ⟨q, hq, rfl⟩ := Option.map_eq_some_iff.1 h
      exact .cons (repaired_assembles (hl l (by simp)) hn (h1 _ _ _ hr1)) (ih hl' hq)
    · rename_i hn
      obtain ⟨q, hq, rfl⟩ := Option.map_eq_some_iff.1 h
      exact .cons (schedules_assemble (hl l (by simp)) (by simpa using hn)) (ih hl' hq)

theorem setFirst_assembles {c : String} {ls : List RList} {outs outs' : List (List (List String))} (h : Forall₂ ListAssembles ls outs)
    (hs : setFirst c outs = some outs') : Forall₂ ListAssembles ls outs' := by
  unfold setFirst at hs
  split at hs
  · rename_i b bs fs
    obtain ⟨b', hb, rfl⟩ := Option.map_eq_some_iff.1 hs
    cases h with
    | cons h1 h2 =>
      refine .cons ?_ h2
      unfold ListAssembles at h1 ⊢
      revert h1
      generalize nodes _ = bl
      intro h1
      cases h1 with
      | cons h3 h4 =>
        refine .cons ?_ h4
        intro s hmem
        unfold setFirstConstant at hb
        split at hb
        · cases hb
        · split at hb
          · cases hb
            obtain ⟨e, he, rfl⟩ := mem_map.1 hmem
            split
            · exact .inr (.inr (.inr (.inr (.inl ⟨c, rfl⟩))))
            · exact h3 e he
          · cases hb
  · cases hs

theorem object_assembles {one : RList → String → Option (List (List String) × String)} (h1 : Repairs one) {o : RObject}
    (hl : ∀ l ∈ o.lists, ∀ B ∈ nodes l.tree, Scheduled (l.tab B) B.ids) {outs : List (List (List String))} (h : repairObject one o = some outs) :
    Forall₂ ListAssembles o.lists outs := by
  unfold repairObject at h
  obtain ⟨r, hr, h⟩ := Option.bind_eq_some_iff.1 h
  have hr := each_assembles h1 hl hr
  split at h
  · cases h; exact hr
  · split at h
    · cases h; exact hr
    · exact setFirst_assembles hr h

theorem cfg_assembles {one : RList → String → Option (List (List String) × String)} (h1 : Repairs one) :
    ∀ {g : RCfg} {outs : List (List (List (List String)))}, AllScheduled g → repairCfg one g = some outs →
      Forall₂ (fun o out => Forall₂ ListAssembles o.lists out) (objects g) outs := by
  intro g
  induction g with
  | nil => intro outs _ h; cases h; exact .nil
  | obj o sub rest ih1 ih2 =>
    intro outs hs h
    unfold repairCfg at h
    obtain ⟨a, ha, h⟩ := Option.bind_eq_some_iff.1 h
    obtain ⟨b, hb, h⟩ := Option.bind_eq_some_iff.1 h
    obtain ⟨c, hc, rfl⟩ := Option.map_eq_some_iff.1 h
    refine .cons (object_assembles h1 (hs o (by simp [objects])) ha) (rel_append (ih1 ?_ hb) (ih2 ?_ hc))
    · intro o' ho'
      exact hs o' (by simp [objects, ho'])
    · intro o' ho'
      exact hs o' (by simp [objects, ho'])

theorem needs_object : ∀ {g : RCfg}, cfgNeeds g = false → ∀ o ∈ objects g, ∀ l ∈ o.lists, needsRepair l = false := by
  intro g
  induction g with
  | nil => intro _ o ho; simp [objects] at ho
  | obj o sub rest ih1 ih2 =>
    intro h o' ho' l hl
    simp only [cfgNeeds, Bool.or_eq_false_iff] at h
    simp only [objects, cons_append, mem_cons, mem_append] at ho'
    rcases ho' with rfl | ho' | ho'
    · have := h.1.1
      simp only [objectNeeds, Bool.or_eq_false_iff, any_eq_false] at this
      rcases mem_cons.1 hl with rfl | hl
      · exact this.1
      · simpa using this.2 l hl
    · exact ih1 h.1.2 o' ho' l hl
    · exact ih2 h.2 o' ho' l hl

/-- **C82.** Whatever the program and its schedules, and whatever the repair decides: every instruction id handed to the assembler is an
instruction of its block, an instruction on the stack or an access to a memory cell of the repair. -/
theorem only_instructions {one : RList → String → Option (List (List String) × String)} (h1 : Repairs one) {g : RCfg}
    {outs : List (List (List (List String)))} (hs : AllScheduled g) (h : idsForAssembly one g = some outs) :
    Forall₂ (fun o out => Forall₂ (fun l bs => Forall₂ (fun B ids => ∀ s ∈ ids, Assembles (l.tab B) s) (nodes l.tree) bs) o.lists out) (objects g) outs := by
  unfold idsForAssembly at h
  split at h
  · exact cfg_assembles h1 hs h
  · rename_i hn
    cases h
    rw [forall₂_map_right_iff, forall₂_same]
    intro o ho
    rw [forall₂_map_right_iff, forall₂_same]
    intro l hl
    exact schedules_assemble (hs o ho l hl) (needs_object (by simpa using hn) o ho l hl)

end Grey.RepairAll
