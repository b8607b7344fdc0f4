/-
What is known about the blocks of the object is kept when a block is split at a call.
-/
import Verif.Lower.Deco
import Verif.Lower.Split
import Verif.Inline.OkAfter
namespace Grey.Lower
open List Grey.Cfg Grey.Inline Grey.Prep

section
variable {names : List String} {R : Option String → Option String} {H : Obj}

theorem not_phi_of_name (hn : ∀ f ∈ names, f ∉ ["PhiFunction", "functionReturn", "JUMP", "JUMPI", "PUSH [tag]"] ++ haltOps) {i : Instr} (hi : i.op ∈ names) :
    isPhi i = false := by
  cases h : isPhi i with
  | false => rfl
  | true =>
    unfold isPhi at h
    rw [beq_iff_eq] at h
    exact absurd (by rw [h]; simp) (hn _ hi)

/-- After an instruction that is not a phi function there are no phi functions. -/
theorem no_phi_after {l l' : List Instr} {i : Instr} (h : (l ++ i :: l') = (l ++ i :: l').filter isPhi ++ (l ++ i :: l').filter (fun i => !isPhi i))
    (hi : isPhi i = false) : ∀ j ∈ l', isPhi j = false := by
  intro j hj
  have := phisFirst_iff.1 h
  rw [pairwise_append, pairwise_cons] at this
  cases hh : isPhi j with
  | false => rfl
  | true => rw [this.2.1.1 j hj hh] at hi; cases hi

theorem partOk_first (hn : ∀ f ∈ names, f ∉ ["PhiFunction", "functionReturn", "JUMP", "JUMPI", "PUSH [tag]"] ++ haltOps) {X : Block} (hX : PartOk R names X)
    {l l' : List Instr} {i : Instr} (hl : X.instrs = l ++ i :: l') (hi : i.op ∈ names) (hnt : ¬ (l' = [] ∧ X.jumpTo = none ∧ X.fallsTo = none)) :
    PartOk R names (firstHalf l.length X) := by
  have hphi := not_phi_of_name hn hi
  have hins : (firstHalf l.length X).instrs = l ++ [i] := by
    show X.instrs.take (l.length + 1) = _
    rw [hl, take_append, take_of_length_le (by omega)]
    simp
  have hpf := hX.phisFirst
  unfold phis code at hpf
  rw [hl] at hpf
  have hafter := no_phi_after hpf hphi
  have hphis : phis (firstHalf l.length X) = phis X := by
    unfold phis
    rw [hins, hl, filter_append, filter_append, filter_cons, filter_cons]
    simp [hphi]
    intro j hj
    exact hafter j hj
  have hmem : ∀ j ∈ (firstHalf l.length X).instrs, j ∈ X.instrs := by
    intro j hj
    rw [hins] at hj
    rw [hl]
    rcases mem_append.1 hj with h | h
    · exact mem_append_left _ h
    · rw [mem_singleton] at h
      rw [h]; simp
  -- an instruction of the first half that cannot be followed by anything is the call
  have hend : ∀ p j q, (firstHalf l.length X).instrs = p ++ j :: q → ∃ q', X.instrs = p ++ j :: q' ∧ (q' = [] → j = i ∧ l' = []) := by
    intro p j q hp
    rw [hins] at hp
    refine ⟨q ++ l', ?_, ?_⟩
    · rw [hl]
      have : l ++ i :: l' = (l ++ [i]) ++ l' := by simp
      rw [this, hp]; simp
    · intro h
      obtain ⟨h1, h2⟩ := append_eq_nil_iff.1 h
      subst h1
      exact ⟨by simpa using (append_inj_right' hp rfl).symm, h2⟩
  refine ⟨?_, ?_, ?_, ?_, ?_, ?_, ?_, ?_, ?_, ?_, ?_⟩
  · have := phisFirst_sublist (l' := l ++ [i]) (l := X.instrs) (by rw [hl]; exact (append_sublist_append_left l).2 (by simp)) hX.phisFirst
    show _ = (firstHalf l.length X).instrs.filter isPhi ++ (firstHalf l.length X).instrs.filter _
    rw [hins]; exact this
  · rw [hphis]; exact hX.phiShape
  · rw [hphis]; exact hX.phiOuts
  · rw [hphis]; exact hX.phiEntries
  · intro p j q hp hj
    obtain ⟨q', h1, h2⟩ := hend p j q hp
    have h3 := (hX.onlyReturns p j q' h1 hj).1
    rw [(h2 h3).1] at hj
    exact absurd (by rw [hj]; simp) (hn _ hi)
  · intro p j q hp hj
    obtain ⟨q', h1, h2⟩ := hend p j q hp
    have h3 := (hX.ends p j q' h1 hj).1
    rw [(h2 h3).1] at hj
    exact absurd (mem_append_right _ hj) (hn _ hi)
  · intro p j q hp hj
    obtain ⟨q', h1, h2⟩ := hend p j q hp
    constructor
    · intro hR
      have h3 := (hX.tails p j q' h1 hj).1 hR
      exact absurd ⟨(h2 h3.1).2, h3.2⟩ hnt
    · rintro ⟨_, _, h⟩
      cases h
  · intro j hj; exact hX.ops j (hmem j hj)
  · intro j hj; exact hX.plain j (hmem j hj)
  · intro x hx; cases hx
  · intro j hj; exact hX.vars j (hmem j hj)

theorem partOk_second (hn : ∀ f ∈ names, f ∉ ["PhiFunction", "functionReturn", "JUMP", "JUMPI", "PUSH [tag]"] ++ haltOps) {X : Block} (hX : PartOk R names X)
    {l l' : List Instr} {i : Instr} (hl : X.instrs = l ++ i :: l') (hi : i.op ∈ names) : PartOk R names (secondHalf l.length X) := by
  have hphi := not_phi_of_name hn hi
  have hins : (secondHalf l.length X).instrs = l' := by
    show X.instrs.drop (l.length + 1) = _
    rw [hl, drop_append, drop_eq_nil_of_le (by omega)]
    simp
  have hpf := hX.phisFirst
  unfold phis code at hpf
  rw [hl] at hpf
  have hafter := no_phi_after hpf hphi
  have hphis : phis (secondHalf l.length X) = [] := by
    unfold phis
    rw [hins, filter_eq_nil_iff]
    intro j hj
    simp [hafter j hj]
  have hmem : ∀ j ∈ (secondHalf l.length X).instrs, j ∈ X.instrs := by
    intro j hj
    rw [hins] at hj
    rw [hl]; simp [hj]
  have hsub : ∀ p j q, (secondHalf l.length X).instrs = p ++ j :: q → X.instrs = (l ++ i :: p) ++ j :: q := by
    intro p j q hp
    rw [hins] at hp
    rw [hl, hp]; simp
  refine ⟨?_, ?_, ?_, ?_, ?_, ?_, ?_, ?_, ?_, ?_, ?_⟩
  · rw [hphis]
    unfold code
    rw [hins, nil_append, eq_comm, filter_eq_self]
    intro j hj
    simp [hafter j hj]
  · rw [hphis]; simp
  · rw [hphis]; simp
  · intro h; exact absurd hphis h
  · intro p j q hp hj; exact hX.onlyReturns _ j q (hsub p j q hp) hj
  · intro p j q hp hj; exact hX.ends _ j q (hsub p j q hp) hj
  · intro p j q hp hj; exact hX.tails _ j q (hsub p j q hp) hj
  · intro j hj; exact hX.ops j (hmem j hj)
  · intro j hj; exact hX.plain j (hmem j hj)
  · exact hX.plainCond
  · intro j hj; exact hX.vars j (hmem j hj)

theorem redirect_none {old new : String} {o : Option String} : redirect old new o = none ↔ o = none := by
  unfold redirect; simp

theorem partOk_other {X : Block} (hX : PartOk R names X) (b : String) (blk : Block) (x : String) : PartOk R names (fixOther b blk x X) := by
  refine ⟨hX.phisFirst, ?_, hX.phiOuts, ?_, hX.onlyReturns, ?_, ?_, hX.ops, hX.plain, hX.plainCond, hX.vars⟩
  · intro i hi
    have := hX.phiShape i hi
    refine ⟨?_, this.2⟩
    show _ = (if x ∈ blk.succs then replaceName b (secondId b) X.entries else X.entries).length
    rw [this.1]
    split
    · unfold replaceName; simp
    · rfl
  · intro hp p
    have := hX.phiEntries hp
    show p ∈ (if x ∈ blk.succs then replaceName b (secondId b) X.comesFrom else X.comesFrom) → p ∈ if x ∈ blk.succs then replaceName b (secondId b) X.entries else X.entries
    split
    · unfold replaceName
      intro h
      obtain ⟨q, hq, rfl⟩ := mem_map.1 h
      exact mem_map_of_mem (this q hq)
    · exact this p
  · intro l i l' hl hi
    have := hX.ends l i l' hl hi
    exact ⟨this.1, redirect_none.2 this.2.1, redirect_none.2 this.2.2⟩
  · intro l i l' hl hi
    rw [hX.tails l i l' hl hi]
    show _ ↔ _ ∧ redirect b (firstId b) X.jumpTo = none ∧ redirect b (firstId b) X.fallsTo = none
    rw [redirect_none, redirect_none]

end

/-! ### Names of blocks -/

theorem firstId_toList (b : String) : (firstId b).toList = b.toList ++ ['f'] := by simp [firstId]
theorem secondId_toList (b : String) : (secondId b).toList = b.toList ++ ['s'] := by simp [secondId]

theorem halves_f : Halves ['f'] := by intro c hc; simp at hc; exact Or.inl hc
theorem halves_s : Halves ['s'] := by intro c hc; simp at hc; exact Or.inr hc

section
variable {names : List String} {R : Option String → Option String} {H : Obj}

theorem fresh_halves (hP : PartsOk names R H) {c : Option String} {C : Component} (hC : H.comp c = some C) {b : String} {B : Block}
    (hB : C.body.get b = some B) {d : Option String} {D : Component} (hD : H.comp d = some D) :
    D.body.get (firstId b) = none ∧ D.body.get (secondId b) = none := by
  constructor
  · cases h : D.body.get (firstId b) with
    | none => rfl
    | some X =>
      have := (hP.blockNames c d C D hC hD b _ B X hB h ['f'] halves_f (firstId_toList b)).1
      cases this
  · cases h : D.body.get (secondId b) with
    | none => rfl
    | some X =>
      have := (hP.blockNames c d C D hC hD b _ B X hB h ['s'] halves_s (secondId_toList b)).1
      cases this

theorem same_comp (hP : PartsOk names R H) {c d : Option String} {C D : Component} (hC : H.comp c = some C) (hD : H.comp d = some D) {b : String}
    {B X : Block} (hB : C.body.get b = some B) (hX : D.body.get b = some X) : c = d :=
  (hP.blockNames c d C D hC hD b b B X hB hX [] (by intro c hc; cases hc) (by simp)).2

/-- What is known about the object is kept when a block is split at a call. -/
theorem parts_split (hP : PartsOk names R H) {c : Option String} {C : Component} (hC : H.comp c = some C) {b : String} {B : Block}
    (hB : C.body.get b = some B) {l l' : List Instr} {i : Instr} (hl : B.instrs = l ++ i :: l') (hi : i.op ∈ names)
    (hnt : ¬ (l' = [] ∧ B.jumpTo = none ∧ B.fallsTo = none)) : ∃ G', splitBlock l.length b C.body = some G' ∧ PartsOk names R (H.set c G') ∧
      SameRuns H (H.set c G') ∧ G'.start = (if C.body.start = some b then some (firstId b) else C.body.start) ∧
      ∀ x, G'.get x = if x = secondId b then some (secondHalf l.length B) else if x = firstId b then some (firstHalf l.length B) else
        if x = b then none else (C.body.get x).map (fixOther b B x) := by
  have hS := hP.sane c C hC
  have hself := hP.noSelf c C hC b B hB
  obtain ⟨hf, hs⟩ := fresh_halves hP hC hB hC
  have hok := hP.blocks c C hC b B hB
  have hphi := not_phi_of_name hP.names hi
  have hafter : ∀ j ∈ B.instrs.drop (l.length + 1), isPhi j = false := by
    have hpf := hok.phisFirst
    unfold phis code at hpf
    rw [hl] at hpf
    have := no_phi_after hpf hphi
    rw [hl, drop_append, drop_eq_nil_of_le (by omega)]
    simpa using this
  obtain ⟨G', hG', hst, hids, hget⟩ := split_spec hS hB hself hf hs l.length
  obtain ⟨G2, _, _, hG2, hsane, -⟩ := split_preserves hS hB hself hf hs l.length hafter
  rw [hG'] at hG2
  cases hG2
  have hset := comp_set hC G'
  have hfs := firstId_ne_secondId b
  have hgf : G'.get (firstId b) = some (firstHalf l.length B) := by rw [hget, if_neg hfs, if_pos rfl]
  have hgs : G'.get (secondId b) = some (secondHalf l.length B) := by rw [hget, if_pos rfl]
  -- the blocks
  have kinds : ∀ x X, G'.get x = some X → (x = secondId b ∧ X = secondHalf l.length B) ∨ (x = firstId b ∧ X = firstHalf l.length B) ∨
      (x ≠ b ∧ x ≠ firstId b ∧ x ≠ secondId b ∧ ∃ Y, C.body.get x = some Y ∧ X = fixOther b B x Y) := by
    intro x X hX
    rw [hget] at hX
    split at hX
    · rename_i h; cases hX; exact Or.inl ⟨h, rfl⟩
    · split at hX
      · rename_i h; cases hX; exact Or.inr (Or.inl ⟨h, rfl⟩)
      · split at hX
        · cases hX
        · rename_i h1 h2 h3
          obtain ⟨Y, hY, rfl⟩ := Option.map_eq_some_iff.1 hX
          exact Or.inr (Or.inr ⟨h3, h2, h1, Y, hY, rfl⟩)
  have hphis : phis (firstHalf l.length B) = phis B := by
    unfold phis firstHalf
    exact (filter_drop_phi hafter).1
  refine ⟨G', hG', ?_, split_sameRuns hC hS hB hself hf hs hafter hG', hst, hget⟩
  refine ⟨?_, ?_, ?_, ?_, ?_, ?_, ?_, hP.names, hP.ret⟩
  · intro f
    rw [hP.fns f]
    have := hset (some f)
    show _ ↔ ∃ F, (H.set c G').comp (some f) = some F
    rw [this]
    split
    · rename_i h
      subst h
      exact ⟨fun _ => ⟨_, rfl⟩, fun _ => ⟨C, hC⟩⟩
    · rfl
  · intro d D hD
    rw [hset] at hD
    split at hD
    · cases hD; exact hsane
    · exact hP.sane d D hD
  · intro d D hD x X hX
    rw [hset] at hD
    split at hD
    · cases hD
      rcases kinds x X hX with ⟨rfl, rfl⟩ | ⟨rfl, rfl⟩ | ⟨h1, h2, h3, Y, hY, rfl⟩
      · intro h
        obtain ⟨Q, hQ⟩ := hS.coherent.targets b B hB _ (mem_succs.2 (mem_succs.1 h))
        rw [hs] at hQ; cases hQ
      · intro h
        rcases mem_succs.1 h with h | h
        · cases h
        · have : secondId B.id = firstId b := Option.some.inj h
          rw [get_id hB] at this
          exact hfs this.symm
      · intro h
        have : ∀ o, redirect b (firstId b) o = some x → o = some x := by
          intro o ho
          unfold redirect at ho
          obtain ⟨t, rfl, ht⟩ := Option.map_eq_some_iff.1 ho
          split at ht
          · exact absurd ht.symm h2
          · rw [ht]
        refine hP.noSelf c C hC x Y hY ?_
        rcases mem_succs.1 h with h | h
        · exact mem_succs.2 (Or.inl (this _ h))
        · exact mem_succs.2 (Or.inr (this _ h))
    · exact hP.noSelf d D hD x X hX
  · intro d D hD s S hst' hS'
    rw [hset] at hD
    split at hD
    · cases hD
      simp only at hst' hS'
      rw [hst] at hst'
      split at hst'
      · rename_i h
        cases hst'
        rw [hgf] at hS'
        cases hS'
        rw [hphis]
        exact hP.start c C hC b B h hB
      · rcases kinds s S hS' with ⟨rfl, rfl⟩ | ⟨rfl, rfl⟩ | ⟨h1, h2, h3, Y, hY, rfl⟩
        · obtain ⟨s', S', h1, h2⟩ := hS.start
          rw [hst'] at h1; cases h1
          rw [hs] at h2; cases h2
        · obtain ⟨s', S', h1, h2⟩ := hS.start
          rw [hst'] at h1; cases h1
          rw [hf] at h2; cases h2
        · exact hP.start c C hC s Y hst' hY
    · exact hP.start d D hD s S hst' hS'
  · intro d D hD x X hX
    rw [hset] at hD
    split at hD
    · cases hD
      rcases kinds x X hX with ⟨rfl, rfl⟩ | ⟨rfl, rfl⟩ | ⟨h1, h2, h3, Y, hY, rfl⟩
      · exact partOk_second hP.names hok hl hi
      · exact partOk_first hP.names hok hl hi hnt
      · exact partOk_other (hP.blocks c C hC x Y hY) b B x
    · exact hP.blocks d D hD x X hX
  · intro f F hF
    have hF' : (H.set c G').comp (some f) = some F := hF
    rw [hset] at hF'
    split at hF'
    · rename_i h
      subst h
      cases hF'
      exact hP.args f C hC
    · exact hP.args f F hF'
  · -- names: each new name is an old one with a letter or without
    have old : ∀ d D x X, (H.set c G').comp d = some D → D.body.get x = some X → ∃ D0 x0 X0 w0, H.comp d = some D0 ∧ D0.body.get x0 = some X0 ∧
        x.toList = x0.toList ++ w0 ∧ ((w0 = [] ∧ (d = c → x0 ≠ b)) ∨ (d = c ∧ x0 = b ∧ (w0 = ['f'] ∨ w0 = ['s']))) := by
      intro d D x X hD hX
      rw [hset] at hD
      split at hD
      · rename_i hdc
        subst hdc
        cases hD
        rcases kinds x X hX with ⟨rfl, rfl⟩ | ⟨rfl, rfl⟩ | ⟨h1, h2, h3, Y, hY, rfl⟩
        · exact ⟨C, b, B, ['s'], hC, hB, secondId_toList b, Or.inr ⟨rfl, rfl, Or.inr rfl⟩⟩
        · exact ⟨C, b, B, ['f'], hC, hB, firstId_toList b, Or.inr ⟨rfl, rfl, Or.inl rfl⟩⟩
        · exact ⟨C, x, Y, [], hC, hY, by simp, Or.inl ⟨rfl, fun _ => h1⟩⟩
      · rename_i hdc
        exact ⟨D, x, X, [], hD, hX, by simp, Or.inl ⟨rfl, fun h => absurd h hdc⟩⟩
    intro d1 d2 D1 D2 hD1 hD2 x y X Y hX hY w hw hyx
    obtain ⟨E1, x0, X0, u, hE1, hX0, hxu, hu⟩ := old d1 D1 x X hD1 hX
    obtain ⟨E2, y0, Y0, v, hE2, hY0, hyv, hv⟩ := old d2 D2 y Y hD2 hY
    rw [hxu, hyv, append_assoc] at hyx
    have hu' : Halves u := by
      rcases hu with ⟨rfl, _⟩ | ⟨_, _, rfl | rfl⟩
      · intro c hc; cases hc
      · exact halves_f
      · exact halves_s
    have huw : Halves (u ++ w) := by
      intro c hc
      rcases mem_append.1 hc with h | h
      · exact hu' c h
      · exact hw c h
    rcases hv with ⟨rfl, hyb⟩ | ⟨hd2, hy0, hv⟩
    · rw [append_nil] at hyx
      obtain ⟨h1, h2⟩ := hP.blockNames d1 d2 E1 E2 hE1 hE2 x0 y0 X0 Y0 hX0 hY0 _ huw hyx
      exact ⟨(append_eq_nil_iff.1 h1).2, h2⟩
    · subst hd2 hy0
      rcases eq_nil_or_concat' (u ++ w) with h0 | ⟨z, a, hz⟩
      · -- the new name is an old one
        rw [h0, append_nil] at hyx
        have hvh : Halves v := by rcases hv with rfl | rfl; exact halves_f; exact halves_s
        have := (hP.blockNames d2 d1 E2 E1 hE2 hE1 y0 x0 Y0 X0 hY0 hX0 v hvh hyx.symm).1
        rcases hv with rfl | rfl <;> cases this
      · rw [hz, ← append_assoc] at hyx
        have hlen : v.length = 1 := by rcases hv with rfl | rfl <;> rfl
        obtain ⟨h1, h2⟩ := append_inj' hyx (by rw [hlen]; rfl)
        have hzh : Halves z := fun c hc => huw c (by rw [hz]; exact mem_append_left _ hc)
        obtain ⟨h3, h4⟩ := hP.blockNames d1 d2 E1 E2 hE1 hE2 x0 y0 X0 Y0 hX0 hY0 z hzh h1
        subst h3 h4
        have hx0 : x0 = y0 := by
          apply String.toList_injective
          rw [h1, append_nil]
        subst hx0
        rcases hu with ⟨rfl, h⟩ | ⟨_, _, hu⟩
        · exact absurd rfl (h rfl)
        · refine ⟨?_, rfl⟩
          have hlu : u.length = 1 := by rcases hu with rfl | rfl <;> rfl
          have := congrArg length hz
          rw [length_append, hlu] at this
          simp at this
          exact this

end
end Grey.Lower
