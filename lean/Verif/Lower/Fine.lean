/-
What the layout generation and the assembly need beyond what the lowering needs, and that splitting a block keeps it.
-/
import Verif.Lower.Defined
namespace Grey.Lower
open List Grey.Cfg Grey.Inline

/-- A name as the renaming of variables produces it, or a constant. -/
def Neat (x : String) : Prop := Cfg.isConst x = true ∨ ∃ n : Nat, x = "v" ++ toString n

/-- Properties of the graph of a component. If `E` holds, terminal blocks can be empty. -/
structure Fine (names : List String) (E : Prop) (G : BlockList) : Prop where
  exact : ∀ x X, G.get x = some X → X.entries = [] ∨ X.entries.Perm X.comesFrom
  joins : ∀ x X, G.get x = some X → phis X ≠ [] → 1 < X.comesFrom.length
  entry : ∀ s S, G.start = some s → G.get s = some S → S.comesFrom = [] ∧ (S.succs = [] → S.instrs ≠ [])
  defs : ∀ x X, G.get x = some X → (X.instrs.flatMap (·.outs)).Nodup
  apart : ∀ x y X Y, G.get x = some X → G.get y = some Y → x ≠ y → ∀ i ∈ X.instrs, ∀ j ∈ Y.instrs, ∀ v ∈ i.outs, v ∉ j.outs
  chain : ∀ x X z Z, G.get x = some X → X.jumpType = "sub_block" → X.fallsTo = some z → G.get z = some Z → Z.comesFrom = [x]
  exits : ∀ x X, G.get x = some X → X.jumpType ∈ ["terminal", "mainExit"] → X.jumpTo = none ∧ X.fallsTo = none
  terminal : ∀ x X, G.get x = some X → X.jumpType = "terminal" →
    (E ∧ X.instrs = []) ∨ ∃ i, X.instrs.getLast? = some i ∧ i.op ∈ haltOps ++ names
  mainExit : ∀ x X, G.get x = some X → X.jumpType = "mainExit" → ∀ i, X.instrs.getLast? = some i → i.op ∉ haltOps ++ names
  neat : ∀ x X, G.get x = some X → ∀ i ∈ X.instrs, ∀ v ∈ i.ins ++ i.outs, Neat v
  neatCond : ∀ x X, G.get x = some X → ∀ v, X.cond = some v → Neat v

/-- A component with such a graph. -/
def FineComp (names : List String) (C : Component) : Prop := Fine names False C.body ∧ C.args.Nodup ∧ (∀ v ∈ C.args, Neat v) ∧
  Defined C

theorem replace_perm {a b : String} {l l' : List String} (h : l = [] ∨ l.Perm l') : replaceName a b l = [] ∨ (replaceName a b l).Perm (replaceName a b l') := by
  rcases h with rfl | h
  · exact Or.inl rfl
  · exact Or.inr (h.map _)

theorem replace_single {a b x : String} (h : x ≠ a) : replaceName a b [x] = [x] := by simp [replaceName, h]

section
variable {names : List String} {E : Prop} {G G' : BlockList} {b : String} {B : Block} {l l' : List Instr} {i : Instr}

/-- Splitting a block at a call. -/
theorem fine_split (hG : Sane G) (hF : Fine names E G) (hB : G.get b = some B) (hself : b ∉ B.succs) (hf : G.get (firstId b) = none)
    (hs : G.get (secondId b) = none) (hl : B.instrs = l ++ i :: l') (hphi : ∀ j ∈ l', isPhi j = false)
    (hnt : ¬ (l' = [] ∧ B.jumpTo = none ∧ B.fallsTo = none))
    (hst : G'.start = if G.start = some b then some (firstId b) else G.start)
    (hget : ∀ x, G'.get x = if x = secondId b then some (secondHalf l.length B) else if x = firstId b then some (firstHalf l.length B) else
      if x = b then none else (G.get x).map (fixOther b B x)) : Fine names E G' := by
  have hbid := get_id hB
  have hfs := firstId_ne_secondId b
  have hgf : G'.get (firstId b) = some (firstHalf l.length B) := by rw [hget, if_neg hfs, if_pos rfl]
  have hgs : G'.get (secondId b) = some (secondHalf l.length B) := by rw [hget, if_pos rfl]
  have kinds : ∀ x X, G'.get x = some X → (x = secondId b ∧ X = secondHalf l.length B) ∨ (x = firstId b ∧ X = firstHalf l.length B) ∨
      (x ≠ b ∧ x ≠ firstId b ∧ x ≠ secondId b ∧ ∃ Y, G.get x = some Y ∧ X = fixOther b B x Y) := by
    intro x X hX
    rw [hget] at hX
    split at hX
    · rename_i h; cases hX; exact Or.inl ⟨h, rfl⟩
    · split at hX
      · rename_i h; cases hX; exact Or.inr (Or.inl ⟨h, rfl⟩)
      · split at hX
        · cases hX
        · rename_i h1 h2 h3
          obtain ⟨Y, hY, rfl⟩ := Option.map_eq_some_iff.1 hX
          exact Or.inr (Or.inr ⟨h3, h2, h1, Y, hY, rfl⟩)
  have hi1 : (firstHalf l.length B).instrs = l ++ [i] := by
    show B.instrs.take (l.length + 1) = _
    rw [hl, take_append, take_of_length_le (by omega)]
    simp
  have hi2 : (secondHalf l.length B).instrs = l' := by
    show B.instrs.drop (l.length + 1) = _
    rw [hl, drop_append, drop_eq_nil_of_le (by omega)]
    simp
  have m1 : ∀ j ∈ (firstHalf l.length B).instrs, j ∈ B.instrs := by
    intro j hj
    rw [hi1] at hj
    rw [hl]
    rcases mem_append.1 hj with h | h
    · exact mem_append_left _ h
    · rw [mem_singleton] at h; rw [h]; simp
  have m2 : ∀ j ∈ (secondHalf l.length B).instrs, j ∈ B.instrs := by
    intro j hj
    rw [hi2] at hj
    rw [hl]; simp [hj]
  have hd := hF.defs b B hB
  have hd' : ((l ++ [i]).flatMap (·.outs) ++ l'.flatMap (·.outs)).Nodup := by
    rw [← flatMap_append]
    rw [hl] at hd
    simpa using hd
  -- where the instructions come from
  have src : ∀ x X, G'.get x = some X → ∃ x0 X0, G.get x0 = some X0 ∧ (∀ j ∈ X.instrs, j ∈ X0.instrs) ∧
      ((x0 = b ∧ (x = firstId b ∨ x = secondId b)) ∨ (x0 = x ∧ x ≠ b)) := by
    intro x X hX
    rcases kinds x X hX with ⟨rfl, rfl⟩ | ⟨rfl, rfl⟩ | ⟨h1, h2, h3, Y, hY, rfl⟩
    · exact ⟨b, B, hB, m2, Or.inl ⟨rfl, Or.inr rfl⟩⟩
    · exact ⟨b, B, hB, m1, Or.inl ⟨rfl, Or.inl rfl⟩⟩
    · exact ⟨x, Y, hY, fun j hj => hj, Or.inr ⟨rfl, h1⟩⟩
  have lastS : l' ≠ [] → (secondHalf l.length B).instrs.getLast? = B.instrs.getLast? := by
    intro hne
    rw [hi2, hl, getLast?_append, getLast?_cons]
    cases hll : l'.getLast? with
    | none => rw [getLast?_eq_none_iff] at hll; exact absurd hll hne
    | some j => rfl
  have hne : B.jumpType ∈ ["terminal", "mainExit"] → l' ≠ [] := by
    intro ht h0
    exact hnt ⟨h0, hF.exits b B hB ht⟩
  refine ⟨?_, ?_, ?_, ?_, ?_, ?_, ?_, ?_, ?_, ?_, ?_⟩
  · intro x X hX
    rcases kinds x X hX with ⟨rfl, rfl⟩ | ⟨rfl, rfl⟩ | ⟨h1, h2, h3, Y, hY, rfl⟩
    · exact Or.inl rfl
    · exact hF.exact b B hB
    · show (if x ∈ B.succs then replaceName b (secondId b) Y.entries else Y.entries) = [] ∨
        (if x ∈ B.succs then replaceName b (secondId b) Y.entries else Y.entries).Perm
          (if x ∈ B.succs then replaceName b (secondId b) Y.comesFrom else Y.comesFrom)
      have h0 := hF.exact x Y hY
      by_cases hx : x ∈ B.succs
      · simp only [if_pos hx]; exact replace_perm h0
      · simp only [if_neg hx]; exact h0
  · intro x X hX hp
    rcases kinds x X hX with ⟨rfl, rfl⟩ | ⟨rfl, rfl⟩ | ⟨h1, h2, h3, Y, hY, rfl⟩
    · exfalso
      apply hp
      unfold phis
      rw [hi2, filter_eq_nil_iff]
      intro j hj
      rw [hphi j hj]; simp
    · refine hF.joins b B hB fun h0 => hp ?_
      unfold phis at h0 ⊢
      rw [filter_eq_nil_iff] at h0 ⊢
      exact fun j hj => h0 j (m1 j hj)
    · have := hF.joins x Y hY hp
      show 1 < (if x ∈ B.succs then replaceName b (secondId b) Y.comesFrom else Y.comesFrom).length
      split
      · unfold replaceName; rwa [length_map]
      · exact this
  · intro s S hs' hS
    rw [hst] at hs'
    by_cases hb : G.start = some b
    · rw [if_pos hb] at hs'
      obtain rfl := Option.some.inj hs'
      rw [hgf] at hS
      cases hS
      refine ⟨(hF.entry b B hb hB).1, fun h => ?_⟩
      have : (firstHalf l.length B).succs = [secondId B.id] := rfl
      rw [this] at h
      cases h
    · rw [if_neg hb] at hs'
      obtain ⟨s1, S1, e1, e2⟩ := hG.start
      rw [hs'] at e1
      obtain rfl := Option.some.inj e1
      rcases kinds s S hS with ⟨rfl, rfl⟩ | ⟨rfl, rfl⟩ | ⟨h1, h2, h3, Y, hY, rfl⟩
      · rw [hs] at e2; cases e2
      · rw [hf] at e2; cases e2
      · obtain ⟨h4, h5⟩ := hF.entry s Y hs' hY
        refine ⟨?_, fun h6 => h5 ?_⟩
        · show (if s ∈ B.succs then replaceName b (secondId b) Y.comesFrom else Y.comesFrom) = []
          rw [h4]; simp [replaceName]
        · have h6' : (redirect b (firstId b) Y.jumpTo).toList ++ (redirect b (firstId b) Y.fallsTo).toList = [] := h6
          unfold Block.succs
          cases hj : Y.jumpTo <;> cases hf' : Y.fallsTo <;> rw [hj, hf'] at h6' <;> simp [redirect] at h6' ⊢
  · intro x X hX
    rcases kinds x X hX with ⟨rfl, rfl⟩ | ⟨rfl, rfl⟩ | ⟨h1, h2, h3, Y, hY, rfl⟩
    · rw [hi2]; exact (nodup_append.1 hd').2.1
    · rw [hi1]; exact (nodup_append.1 hd').1
    · exact hF.defs x Y hY
  · intro x y X Y hX hY hxy j hj k hk v hv hv'
    obtain ⟨x0, X0, hX0, sX, cX⟩ := src x X hX
    obtain ⟨y0, Y0, hY0, sY, cY⟩ := src y Y hY
    by_cases hxy0 : x0 = y0
    · -- both are halves
      subst hxy0
      have both : (x = firstId b ∧ y = secondId b) ∨ (x = secondId b ∧ y = firstId b) := by
        rcases cX with ⟨e, h1 | h1⟩ | ⟨e, h1⟩ <;> rcases cY with ⟨e', h2 | h2⟩ | ⟨e', h2⟩
        · exact absurd (h1.trans h2.symm) hxy
        · exact Or.inl ⟨h1, h2⟩
        · exact absurd (e'.symm.trans e) h2
        · exact Or.inr ⟨h1, h2⟩
        · exact absurd (h1.trans h2.symm) hxy
        · exact absurd (e'.symm.trans e) h2
        · exact absurd (e.symm.trans e') h1
        · exact absurd (e.symm.trans e') h1
        · exact absurd (e.symm.trans e') hxy
      have key : ∀ a ∈ l ++ [i], ∀ c ∈ l', ∀ w, w ∈ a.outs → w ∉ c.outs := by
        intro a ha c hc w hw hw'
        exact (nodup_append.1 hd').2.2 w (mem_flatMap.2 ⟨a, ha, hw⟩) w (mem_flatMap.2 ⟨c, hc, hw'⟩) rfl
      rcases both with ⟨rfl, rfl⟩ | ⟨rfl, rfl⟩
      · rw [hgf] at hX; rw [hgs] at hY
        cases hX; cases hY
        rw [hi1] at hj; rw [hi2] at hk
        exact key j hj k hk v hv hv'
      · rw [hgs] at hX; rw [hgf] at hY
        cases hX; cases hY
        rw [hi2] at hj; rw [hi1] at hk
        exact key k hk j hj v hv' hv
    · exact hF.apart x0 y0 X0 Y0 hX0 hY0 hxy0 j (sX j hj) k (sY k hk) v hv hv'
  · intro x X z Z hX hj hz hZ
    rcases kinds x X hX with ⟨rfl, rfl⟩ | ⟨rfl, rfl⟩ | ⟨h1, h2, h3, Y, hY, rfl⟩
    · have hz' : B.fallsTo = some z := hz
      have hzs : z ∈ B.succs := mem_succs.2 (Or.inr hz')
      obtain ⟨Z0, hZ0⟩ := hG.coherent.targets b B hB z hzs
      rcases kinds z Z hZ with ⟨rfl, rfl⟩ | ⟨rfl, rfl⟩ | ⟨g1, g2, g3, Y, hY, rfl⟩
      · rw [hs] at hZ0; cases hZ0
      · rw [hf] at hZ0; cases hZ0
      · show (if z ∈ B.succs then replaceName b (secondId b) Y.comesFrom else Y.comesFrom) = _
        rw [if_pos hzs, hF.chain b B z Y hB hj hz' hY]
        simp [replaceName]
    · have hz' : some (secondId B.id) = some z := hz
      rw [hbid] at hz'
      obtain rfl := Option.some.inj hz'
      rw [hgs] at hZ
      cases hZ
      show [firstId B.id] = _
      rw [hbid]
    · have hj' : Y.jumpType = "sub_block" := hj
      have hz' : redirect b (firstId b) Y.fallsTo = some z := hz
      unfold redirect at hz'
      obtain ⟨z0, hz0, e0⟩ := Option.map_eq_some_iff.1 hz'
      obtain ⟨Z0, hZ0⟩ := hG.coherent.targets x Y hY z0 (mem_succs.2 (Or.inr hz0))
      have hc := hF.chain x Y z0 Z0 hY hj' hz0 hZ0
      by_cases hzb : z0 = b
      · rw [if_pos hzb] at e0
        subst e0 hzb
        rw [hgf] at hZ
        cases hZ
        rw [hB] at hZ0
        cases hZ0
        exact hc
      · rw [if_neg hzb] at e0
        subst e0
        rcases kinds z0 Z hZ with ⟨rfl, rfl⟩ | ⟨rfl, rfl⟩ | ⟨g1, g2, g3, W, hW, rfl⟩
        · rw [hs] at hZ0; cases hZ0
        · rw [hf] at hZ0; cases hZ0
        · rw [hZ0] at hW
          cases hW
          show (if z0 ∈ B.succs then replaceName b (secondId b) Z0.comesFrom else Z0.comesFrom) = _
          rw [hc, replace_single h1]
          simp
  · intro x X hX ht
    rcases kinds x X hX with ⟨rfl, rfl⟩ | ⟨rfl, rfl⟩ | ⟨h1, h2, h3, Y, hY, rfl⟩
    · exact hF.exits b B hB ht
    · have ht' : "sub_block" ∈ ["terminal", "mainExit"] := ht
      exact absurd ht' (by decide)
    · obtain ⟨e1, e2⟩ := hF.exits x Y hY ht
      refine ⟨?_, ?_⟩
      · show redirect b (firstId b) Y.jumpTo = none
        rw [e1]; rfl
      · show redirect b (firstId b) Y.fallsTo = none
        rw [e2]; rfl
  · intro x X hX ht
    rcases kinds x X hX with ⟨rfl, rfl⟩ | ⟨rfl, rfl⟩ | ⟨h1, h2, h3, Y, hY, rfl⟩
    · have ht' : B.jumpType = "terminal" := ht
      have hne' := hne (by rw [ht']; simp)
      right
      rw [lastS hne']
      rcases hF.terminal b B hB ht' with ⟨_, h0⟩ | h0
      · rw [hl] at h0; simp at h0
      · exact h0
    · have ht' : "sub_block" = "terminal" := ht
      exact absurd ht' (by decide)
    · exact hF.terminal x Y hY ht
  · intro x X hX ht
    rcases kinds x X hX with ⟨rfl, rfl⟩ | ⟨rfl, rfl⟩ | ⟨h1, h2, h3, Y, hY, rfl⟩
    · have ht' : B.jumpType = "mainExit" := ht
      have hne' := hne (by rw [ht']; simp)
      rw [lastS hne']
      exact hF.mainExit b B hB ht'
    · have ht' : "sub_block" = "mainExit" := ht
      exact absurd ht' (by decide)
    · exact hF.mainExit x Y hY ht
  · intro x X hX j hj
    obtain ⟨x0, X0, hX0, sX, _⟩ := src x X hX
    exact hF.neat x0 X0 hX0 j (sX j hj)
  · intro x X hX v hv
    rcases kinds x X hX with ⟨rfl, rfl⟩ | ⟨rfl, rfl⟩ | ⟨h1, h2, h3, Y, hY, rfl⟩
    · exact hF.neatCond b B hB v hv
    · have hv' : (none : Option String) = some v := hv
      cases hv'
    · exact hF.neatCond x Y hY v hv

end
end Grey.Lower
