import Verif.Greedy.Theorems
import Verif.Repair.Placeholders

/-!
# Every value the scheduler puts into a register is loaded again in the block

The greedy scheduler moves values to registers only in its last phase (`compute_permut_and_clean`), which ends with empty registers. So the
number of `VSET` is at most the number of loads the reparation counts as solved in the block (`num_dominated_gets`,
src/greedy/greedy_info.py:48-72).
-/

namespace Grey.Greedy
open SymExec Repair List

/-! ### Counting on items -/

/-- The variables of the `VSET`, in order. -/
def setsOf : List Item → List String
  | [] => []
  | .vset v :: l => v :: setsOf l
  | _ :: l => setsOf l

/-- The number of loads of a variable that is in `acc` or has been put into its register before. -/
def ownGets : List String → List Item → Nat
  | _, [] => 0
  | acc, .vget v :: l => (if v ∈ acc then 1 else 0) + ownGets acc l
  | acc, .vset v :: l => ownGets (v :: acc) l
  | acc, _ :: l => ownGets acc l

theorem setsOf_append (a b : List Item) : setsOf (a ++ b) = setsOf a ++ setsOf b := by
  induction a with
  | nil => rfl
  | cons i a ih => cases i <;> simp [setsOf, ih]

theorem ownGets_append (a b : List Item) (acc : List String) :
    ownGets acc (a ++ b) = ownGets acc a + ownGets ((setsOf a).reverse ++ acc) b := by
  induction a generalizing acc with
  | nil => simp [ownGets, setsOf]
  | cons i a ih =>
    cases i <;> simp only [cons_append, ownGets, setsOf, ih]
    · omega
    · simp

theorem ownGets_mono {acc acc' : List String} (h : ∀ v ∈ acc, v ∈ acc') (l : List Item) : ownGets acc l ≤ ownGets acc' l := by
  induction l generalizing acc acc' with
  | nil => exact Nat.le_refl _
  | cons i l ih =>
    cases i <;> simp only [ownGets]
    case vget v =>
      have := ih h
      by_cases hv : v ∈ acc
      · rw [if_pos hv, if_pos (h v hv)]; omega
      · rw [if_neg hv]; omega
    case vset v =>
      refine ih fun w hw => ?_
      rcases mem_cons.1 hw with rfl | hw
      · simp
      · exact mem_cons_of_mem _ (h w hw)
    all_goals exact ih h

theorem setsOf_main {P : Prog} {N : String → Prop} {l : List Item} (h : ∀ i ∈ l, MainOk P N i) : setsOf l = [] := by
  induction l with
  | nil => rfl
  | cons i l ih =>
    have h1 := h i (by simp)
    have h2 := ih fun j hj => h j (mem_cons_of_mem _ hj)
    cases i <;> first | exact h1.elim | simpa [setsOf] using h2

/-! ### The last phase -/

/-- Everything in a register has been put there, and what was put into registers is there or was loaded again. -/
def Balanced (s : Permute.St) : Prop :=
  (setsOf (s.ids.map ofIns)).length ≤ ownGets [] (s.ids.map ofIns) + s.reg.length ∧ ∀ v ∈ s.reg, v ∈ setsOf (s.ids.map ofIns)

theorem balanced_closed (reach : Nat) : Permute.Closed reach Balanced where
  congr h h1 h2 h3 := by
    unfold Balanced at h ⊢
    rw [h2, h3]; exact h
  pop := by
    intro s t h v c hc h1 h2 h3
    unfold Balanced at h ⊢
    rw [h3, map_append, setsOf_append, ownGets_append]
    simp only [map_cons, map_nil, ofIns, setsOf, ownGets, append_nil, Nat.add_zero]
    rcases h2 with h2 | ⟨hv, h2⟩
    · rw [h2]; exact h
    · rw [h2]
      refine ⟨by rw [length_append]; omega, fun w hw => ?_⟩
      rcases mem_append.1 hw with hw | hw
      · exact h.2 w hw
      · rw [mem_singleton.1 hw]; exact h.2 v hv
  vset := by
    intro s t h v c hc h1 h2 h3
    unfold Balanced at h ⊢
    rw [h3, h2, map_append, setsOf_append, ownGets_append]
    simp only [map_cons, map_nil, ofIns, setsOf, ownGets, Nat.add_zero, length_append, length_singleton]
    refine ⟨by omega, fun w hw => ?_⟩
    rcases mem_append.1 hw with hw | hw
    · exact mem_append_left _ (h.2 w hw)
    · exact mem_append_right _ hw
  vget := by
    intro s t h r hr h1 h2 h3
    unfold Balanced at h ⊢
    rw [h3, h2, map_append, setsOf_append, ownGets_append]
    simp only [map_cons, map_nil, ofIns, setsOf, ownGets, append_nil, Nat.add_zero, mem_reverse]
    rw [if_pos (h.2 r hr), length_erase_of_mem hr]
    have : 0 < s.reg.length := length_pos_of_mem hr
    exact ⟨by omega, fun w hw => h.2 w (mem_of_mem_erase hw)⟩
  swap := by
    intro s t h k hk hk' hl h1 h2 h3
    unfold Balanced at h ⊢
    rw [h3, h2, map_append, setsOf_append, ownGets_append]
    simp only [map_cons, map_nil, ofIns, setsOf, ownGets, append_nil, Nat.add_zero]
    exact h

theorem permute_sets {fin : List String} {reach n : Nat} {st : List String} {solved : List Int} {l : List Permute.Ins}
    (h : Permute.permute fin reach n st solved = some (some l)) : (setsOf (l.map ofIns)).length ≤ ownGets [] (l.map ofIns) := by
  obtain ⟨t, h1, -, h2, h3⟩ := Permute.run_closed (balanced_closed reach) n (s := ⟨st, solved, [], -1, []⟩)
    ⟨by simp [setsOf], by simp⟩ (by simp) h
  rw [← h3]
  have := h1.1
  rw [h2] at this
  simpa using this

/-- One try. -/
theorem try_sets {P : Prog} {N : String → Prop} (hP : Ok P N) {h : Heur} {maxSwap n : Nat} {p : Plan} {flips : List String}
    {l : List Item} {flips' : List String} (hplan : ∀ o ∈ p.instr, N o) (hf : FlipOk P flips)
    (ht : try1 P h maxSwap n p flips = some (l, flips')) : (setsOf l).length ≤ ownGets [] l := by
  unfold try1 at ht
  split at ht
  · simp at ht
  rename_i s hs
  have g1 := precompute_goes (N := N) hs
  unfold compute at ht
  split at ht
  · simp at ht
  rename_i d hd
  have g2 := mainLoop_goes hP n (c := ⟨s, p.instr, p.rest⟩) hplan hd
  have g := (g1.weak.trans g2) hf
  obtain ⟨⟨⟨l0, e1, e2, e3⟩, e4⟩, e5⟩ := g
  split at ht
  · rename_i lp hl
    simp only [Option.some.injEq, Prod.mk.injEq] at ht
    obtain ⟨rfl, rfl⟩ := ht
    simp only [nil_append] at e1
    have h0 : setsOf d.st.ids = [] := by rw [e1]; exact setsOf_main e3
    have h1 := permute_sets hl
    rw [setsOf_append, ownGets_append, h0]
    simp only [nil_append, reverse_nil]
    omega
  · simp at ht

/-! ### Counting on the texts -/

/-- The loads of values that are in `acc` or stored before. -/
def ownLoads : List String → List String → Nat
  | _, [] => 0
  | acc, s :: ss =>
    match vgetOf s with
    | some v => (if v ∈ acc then 1 else 0) + ownLoads acc ss
    | none =>
      match vsetOf s with
      | some v => ownLoads (v :: acc) ss
      | none => ownLoads acc ss

theorem getCountLoop_loads (ids acc : List String) (cnt : String → Nat) (dom : Nat) (has : Bool) :
    (getCountLoop ids acc cnt dom has).2.1 = dom + ownLoads acc ids := by
  induction ids generalizing acc cnt dom has with
  | nil => rfl
  | cons s ss ih =>
    unfold getCountLoop ownLoads
    cases hg : vgetOf s with
    | some v =>
      dsimp only
      split
      · rw [ih]; omega
      · rw [ih]; omega
    | none =>
      dsimp only
      cases hs : vsetOf s with
      | some v => dsimp only; rw [ih]
      | none => dsimp only; rw [ih]

/-- A text that is read as a load or a store. -/
def isVar (s : String) : Bool := (vgetOf s).isSome || (vsetOf s).isSome

theorem ownLoads_filter (ids acc : List String) : ownLoads acc (ids.filter isVar) = ownLoads acc ids := by
  induction ids generalizing acc with
  | nil => rfl
  | cons s ss ih =>
    rw [filter_cons]
    cases hg : vgetOf s with
    | some v =>
      rw [if_pos (by simp [isVar, hg])]
      simp only [ownLoads, hg, ih]
    | none =>
      cases hs : vsetOf s with
      | some v =>
        rw [if_pos (by simp [isVar, hs])]
        simp only [ownLoads, hg, hs, ih]
      | none =>
        rw [if_neg (by simp [isVar, hs, hg])]
        simp only [ownLoads, hg, hs, ih]

theorem sets_filter (ids : List String) : (ids.filter isVar).filterMap vsetOf = ids.filterMap vsetOf := by
  induction ids with
  | nil => rfl
  | cons s ss ih =>
    rw [filter_cons]
    split
    · simp only [filterMap_cons, ih]
    · rename_i h
      have : vsetOf s = none := by
        unfold isVar at h
        cases hs : vsetOf s with
        | none => rfl
        | some v => rw [hs] at h; simp at h
      rw [ih, filterMap_cons, this]

theorem not_var_swap1 : isVar "SWAP1" = false := by decide +kernel

/-- Dropping instructions without effect drops no load or store. -/
theorem drop_vars (acc rs : List (String × String)) (hn : Permute.Named (acc ++ rs)) :
    ((Permute.dropFrom acc rs).reverse.map Prod.snd).filter isVar = ((acc.reverse ++ rs).map Prod.snd).filter isVar := by
  induction acc, rs using Permute.dropFrom.induct with
  | case1 acc => simp [Permute.dropFrom]
  | case2 r rs ih =>
    unfold Permute.dropFrom
    rw [ih hn]; simp
  | case3 x acc r rs hc ih =>
    unfold Permute.dropFrom
    rw [if_pos hc, ih]
    · have hx := (hn x (by simp)).1 hc.1
      have hr := (hn r (by simp)).1 hc.2
      simp [hx, hr, not_var_swap1]
    · intro p hp
      rcases mem_append.1 hp with hp | hp
      · exact hn p (mem_append.2 (.inl (mem_cons_of_mem _ hp)))
      · exact hn p (mem_append.2 (.inr (mem_cons_of_mem _ hp)))
  | case4 x acc r rs h1 h2 ih =>
    unfold Permute.dropFrom
    rw [if_neg h1, if_pos h2, ih]
    · have hr := (hn r (by simp)).1 h2.2
      simp [hr, not_var_swap1, filter_cons]
    · intro p hp
      rcases mem_append.1 hp with hp | hp
      · exact hn p (mem_append.2 (.inl hp))
      · exact hn p (mem_append.2 (.inr (mem_cons_of_mem _ hp)))
  | case5 x acc r rs h1 h2 ih =>
    unfold Permute.dropFrom
    rw [if_neg h1, if_neg h2, ih]
    · simp
    · intro p hp
      refine hn p ?_
      simp only [mem_append, mem_cons] at hp ⊢
      rcases hp with (hp | hp | hp) | hp <;> simp [hp]

theorem vget_text (v : String) : vgetOf ("VGET(" ++ v ++ ")") = some v := by
  unfold vgetOf
  rw [String.toList_append, String.toList_append]
  have h1 : "VGET(".toList = ['V', 'G', 'E', 'T', '('] := by decide
  have h2 : "VGET".toList = ['V', 'G', 'E', 'T'] := by decide
  have h3 : ")".toList = [')'] := by decide
  rw [h1, h2, h3]
  simp [isPrefixOf]

theorem vset_text (v : String) : vgetOf ("VSET(" ++ v ++ ")") = none ∧ vsetOf ("VSET(" ++ v ++ ")") = some v := by
  unfold vgetOf vsetOf
  rw [String.toList_append, String.toList_append]
  have h1 : "VSET(".toList = ['V', 'S', 'E', 'T', '('] := by decide
  have h2 : "VSET".toList = ['V', 'S', 'E', 'T'] := by decide
  have h3 : ")".toList = [')'] := by decide
  have h4 : "VGET".toList = ['V', 'G', 'E', 'T'] := by decide
  rw [h1, h2, h3, h4]
  simp [isPrefixOf]

theorem other_text {a : String} (k : Nat) (ha : a = "SWAP" ∨ a = "DUP") : vgetOf (a ++ toString k) = none ∧ vsetOf (a ++ toString k) = none := by
  unfold vgetOf vsetOf
  rw [String.toList_append]
  have h2 : "VSET".toList = ['V', 'S', 'E', 'T'] := by decide
  have h4 : "VGET".toList = ['V', 'G', 'E', 'T'] := by decide
  rcases ha with rfl | rfl
  · have h1 : "SWAP".toList = ['S', 'W', 'A', 'P'] := by decide
    rw [h1, h2, h4]
    simp [isPrefixOf]
  · have h1 : "DUP".toList = ['D', 'U', 'P'] := by decide
    rw [h1, h2, h4]
    simp [isPrefixOf]

/-- No instruction has an id that starts like a load or a store. -/
def NoVars (tab : List UInstr) : Prop := ∀ u ∈ tab, isVar u.id = false

theorem render_other {P : Prog} (hv : NoVars P.tab) (h : Heur) {i : Item} (hi : ItemOk P Plain i) (h1 : ∀ v, i ≠ .vget v) (h2 : ∀ v, i ≠ .vset v) :
    vgetOf (i.render h).2 = none ∧ vsetOf (i.render h).2 = none := by
  cases i with
  | pop => exact (by decide +kernel : vgetOf "POP" = none ∧ vsetOf "POP" = none)
  | swap k => exact other_text k (.inl rfl)
  | dup k => exact other_text k (.inr rfl)
  | vget v => exact absurd rfl (h1 v)
  | vset v => exact absurd rfl (h2 v)
  | op u =>
    have := hv u hi
    unfold isVar at this
    show vgetOf u.id = none ∧ vsetOf u.id = none
    rw [Bool.or_eq_false_iff] at this
    simpa using this

theorem render_loads {P : Prog} (hv : NoVars P.tab) (h : Heur) (l : List Item) (hl : ∀ i ∈ l, ItemOk P Plain i) (acc : List String) :
    ownLoads acc ((l.map (Item.render h)).map Prod.snd) = ownGets acc l ∧
      ((l.map (Item.render h)).map Prod.snd).filterMap vsetOf = setsOf l := by
  induction l generalizing acc with
  | nil => exact ⟨rfl, rfl⟩
  | cons i l ih =>
    have hl' : ∀ i ∈ l, ItemOk P Plain i := fun j hj => hl j (mem_cons_of_mem _ hj)
    have hi := hl i (by simp)
    simp only [map_cons, filterMap_cons, ownLoads]
    cases i with
    | vget v =>
      have e : vgetOf (Item.render h (.vget v)).2 = some v := vget_text v
      rw [e, vget_vset e]
      exact ⟨by rw [(ih hl' acc).1]; rfl, by rw [(ih hl' acc).2]; rfl⟩
    | vset v =>
      have e : vgetOf (Item.render h (.vset v)).2 = none := (vset_text v).1
      have e' : vsetOf (Item.render h (.vset v)).2 = some v := (vset_text v).2
      rw [e, e']
      exact ⟨by simp only [(ih hl' (v :: acc)).1]; rfl, by rw [(ih hl' acc).2]; rfl⟩
    | _ =>
      obtain ⟨e, e'⟩ := render_other hv h hi (by simp) (by simp)
      rw [e, e']
      exact ⟨by rw [(ih hl' acc).1]; rfl, by rw [(ih hl' acc).2]; rfl⟩

/-- The text of one try, without the instructions that are dropped. -/
theorem try_stores {P : Prog} (hP : Ok P Plain) {h : Heur} (ht : ∀ u ∈ P.tab, h.text u ≠ "SWAP1" ∧ h.text u ≠ "DUP1") (hv : NoVars P.tab)
    {maxSwap n : Nat} {p : Plan} {flips flips' : List String} {l : List Item} (hsrc : ∀ v ∈ P.src, Plain v) (hplan : ∀ o ∈ p.instr, Plain o)
    (hf : FlipOk P flips) (hl : try1 P h maxSwap n p flips = some (l, flips')) :
    (((Permute.removeUseless (l.map (Item.render h))).map Prod.snd).filterMap vsetOf).length ≤
      (initialGetCount ((Permute.removeUseless (l.map (Item.render h))).map Prod.snd)).2.1 ∧ FlipOk P flips' := by
  obtain ⟨-, h2, h3⟩ := try1_spec hP hsrc hplan hf hl
  refine ⟨?_, h3⟩
  have e := drop_vars [] (l.map (Item.render h)) (named_render ht l h2)
  simp only [reverse_nil, nil_append] at e
  unfold initialGetCount
  rw [getCountLoop_loads, Nat.zero_add, ← ownLoads_filter, ← sets_filter]
  unfold Permute.removeUseless
  rw [e, ownLoads_filter, sets_filter, (render_loads hv h l h2 []).1, (render_loads hv h l h2 []).2]
  exact try_sets hP hplan hf hl

/-- **C78, schedules.** In every schedule of the greedy scheduler, the number of values put into registers (`VSET`) is at most the number of
loads that the reparation counts as loads of values stored in the block itself. -/
theorem greedy_stores {tab : List UInstr} {src tgt : List String} (hb : BlockOk tab src tgt) (hv : NoVars tab) {deps : List (String × String)}
    {reach n : Nat} {junk : Bool} {h h' : Heur} {p p' : Plan}
    (ht : ∀ u ∈ tab, h.text u ≠ "SWAP1" ∧ h.text u ≠ "DUP1") (ht' : ∀ u ∈ tab, h'.text u ≠ "SWAP1" ∧ h'.text u ≠ "DUP1")
    (hp : ∀ o ∈ p.instr, Plain o) (hp' : ∀ o ∈ p'.instr, Plain o) {r : List (String × String)}
    (hr : greedy tab src tgt deps reach n junk h h' p p' = some r) :
    ((r.map Prod.snd).filterMap vsetOf).length ≤ (initialGetCount (r.map Prod.snd)).2.1 := by
  have hP : Ok ⟨tab, src, tgt, reach⟩ Plain := ⟨hb.uniq, hb.two, hb.inp, hb.out, hb.tgt⟩
  have hP' : Ok ⟨tab, src, tgt ++ src, reach⟩ Plain := ⟨hb.uniq, hb.two, hb.inp, hb.out, fun v hv => by
    rcases List.mem_append.1 hv with hv | hv
    · exact hb.tgt v hv
    · exact hb.src v hv⟩
  unfold greedy at hr
  dsimp only at hr
  split at hr
  · simp at hr
  rename_i l flips hl
  obtain ⟨h1, h2⟩ := try_stores hP ht hv hb.src hp (by intro u _ hu; simp at hu) hl
  split at hr
  · split at hr
    · split at hr
      · simp at hr
      rename_i l' flips' hl'
      obtain ⟨h3, -⟩ := try_stores (P := ⟨tab, src, tgt ++ src, reach⟩) hP' ht' hv hb.src hp' h2 hl'
      split at hr
      · split at hr
        · simp only [Option.some.injEq] at hr
          subst hr
          exact h3
        · simp only [Option.some.injEq] at hr
          subst hr
          exact h1
      · simp at hr
    · simp only [Option.some.injEq] at hr
      subst hr
      exact h1
  · simp at hr

-- a schedule with a store: one `VSET`, and one load counted
example : ∃ r, greedy exTab ["s2", "s3", "s4", "s0", "s1"] ["s2", "v1", "s3", "s4"] [] 3 100 false exHeur exHeur
    (exPlan [("s0", 1), ("s1", 1), ("v1", 3), ("s2", 1), ("s3", 1), ("s4", 1)]) (exPlan []) = some r ∧
    (r.map Prod.snd).filterMap vsetOf = ["s4"] ∧ (initialGetCount (r.map Prod.snd)).2.1 = 1 ∧ NoVars exTab := by
  refine ⟨_, Option.eq_some_of_isSome (by decide +kernel), by decide +kernel, by decide +kernel, by unfold NoVars; decide +kernel⟩

end Grey.Greedy
