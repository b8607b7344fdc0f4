/-
C23: merging a block with its only successor preserves the program.
-/
import Verif.Cfg.Split
namespace Grey.Cfg
open List

theorem redirect_self (a : String) (o : Option String) : redirect a a o = o := by
  cases o with
  | none => rfl
  | some y =>
    simp only [redirect, Option.map_some]
    split <;> simp_all

/-- The blocks other than the merged ones, after the merge of `a` and `b` (whose block is `B`). -/
def fixMerge (a b : String) (B : Block) (x : String) (y : Block) : Block :=
  { y with comesFrom := if x ∈ B.succs then replaceName b a y.comesFrom else y.comesFrom
           entries := if x ∈ B.succs then replaceName b a y.entries else y.entries }

/-- What makes two blocks mergeable: `b` is the only successor of `a`, `a` the only predecessor of `b`, `b` is neither the entry
nor does it branch back to `a`, and it has no phi functions. -/
structure Mergeable (G : BlockList) (a b : String) (A B : Block) : Prop where
  getA : G.get a = some A
  getB : G.get b = some B
  ne : a ≠ b
  succs : ∀ x, x ∈ A.succs ↔ x = b
  preds : ∀ x, x ∈ B.comesFrom ↔ x = a
  start : G.start ≠ some b
  noLoop : a ∉ B.succs
  noPhi : ∀ i ∈ B.instrs, isPhi i = false

theorem merge_spec {G : BlockList} (hG : Sane G) {a b : String} {A B : Block} (h : Mergeable G a b A B) :
    ∃ G', mergeBlocks a b G = some G' ∧ G'.start = G.start ∧ (G'.blocks.map (·.id)).Nodup ∧
      ∀ x, G'.get x = if x = a then some (mergedBlock A B) else if x = b then none else (G.get x).map (fixMerge a b B x) := by
  have hA := h.getA
  have hB := h.getB
  have hAid := get_id hA
  have hne := h.ne
  have hpreds : ∀ p ∈ A.comesFrom, ∃ P, G.get p = some P ∧ a ∈ P.succs ∧ ¬ (P.jumpTo = some a ∧ P.fallsTo = some a) := by
    intro p hp
    obtain ⟨P, hP⟩ := hG.coherent.preds a A hA p hp
    exact ⟨P, hP, (hG.coherent.edges p a P A hP hA).1 hp, hG.noDouble p P hP a⟩
  obtain ⟨G1, h1, s1, i1, g1⟩ := modifyAllSuccessors_spec (new := a) A.comesFrom G (hG.coherent.once a A hA) hpreds
  have g1' : ∀ x, G1.get x = G.get x := by
    intro x
    rw [g1]
    cases G.get x with
    | none => rfl
    | some X =>
      simp only [Option.map_some, redirect_self]
      split <;> rfl
  have hfil : (B.comesFrom.filter fun p => p != a) = [] := by
    rw [filter_eq_nil_iff]; intro p hp; rw [(h.preds p).1 hp]; simp
  have h2 : modifyAllSuccessors b a (B.comesFrom.filter fun p => p != a) G1 = some G1 := by rw [hfil]; rfl
  have htgt : ∀ x, x ∈ B.succs → ∃ X, G.get x = some X ∧ b ∈ X.comesFrom := by
    intro x hx
    obtain ⟨X, hX⟩ := hG.coherent.targets b B hB x hx
    exact ⟨X, hX, (hG.coherent.edges b x B X hB hX).2 hx⟩
  have hbself : b ∉ B.succs := fun hb =>
    hne ((h.preds b).1 ((hG.coherent.edges b b B B hB hB).2 hb)).symm
  obtain ⟨G3, h3, s3, i3, g3⟩ := modifyComesFrom_spec (G := G1) (t := B.jumpTo) (old := b) (new := a) (by
    intro x hx
    obtain ⟨X, hX, hXc⟩ := htgt x (mem_succs.2 (Or.inl hx))
    exact ⟨X, by rw [g1']; exact hX, hXc⟩)
  obtain ⟨G4, h4, s4, i4, g4⟩ := modifyComesFrom_spec (G := G3) (t := B.fallsTo) (old := b) (new := a) (by
    intro x hx
    obtain ⟨X, hX, hXc⟩ := htgt x (mem_succs.2 (Or.inr hx))
    have hnj : B.jumpTo ≠ some x := fun h' => hG.noDouble b B hB x ⟨h', hx⟩
    refine ⟨_, by rw [g3, g1', hX]; rfl, ?_⟩
    simp only [hnj, if_false]
    exact hXc)
  have hget4 : ∀ x, G4.get x = (G.get x).map (fixMerge a b B x) := by
    intro x
    rw [g4, g3, g1']
    cases hX : G.get x with
    | none => rfl
    | some X =>
      simp only [Option.map_some, Option.some.injEq]
      unfold fixMerge
      by_cases hj : B.jumpTo = some x
      · have hnf : B.fallsTo ≠ some x := fun h' => hG.noDouble b B hB x ⟨hj, h'⟩
        have : x ∈ B.succs := mem_succs.2 (Or.inl hj)
        simp [hj, hnf, this]
      · by_cases hfl : B.fallsTo = some x
        · have : x ∈ B.succs := mem_succs.2 (Or.inr hfl)
          simp [hj, hfl, this]
        · have : x ∉ B.succs := by rw [mem_succs, not_or]; exact ⟨hj, hfl⟩
          simp [hj, hfl, this]
  have hA4 : G4.get a = some A := by
    rw [hget4, hA]; simp [fixMerge, h.noLoop]
  have hB4 : G4.get b = some B := by
    rw [hget4, hB]; simp [fixMerge, hbself]
  obtain ⟨G5, h5, b5, s5⟩ := remove_succeeds hA4
  have hB5 : G5.get b = some B := by rw [get_remove h5, if_neg (Ne.symm hne)]; exact hB4
  obtain ⟨G6, h6, b6, s6⟩ := remove_succeeds hB5
  have start4 : G4.start = G.start := s4.trans (s3.trans s1)
  have ids4 : G4.blocks.map (·.id) = G.blocks.map (·.id) := i4.trans (i3.trans i1)
  have start6 : G6.start = if G.start = some a then none else G.start := by
    rw [s6, s5, start4]
    by_cases hs : G.start = some a
    · rw [if_pos hs]; simp
    · rw [if_neg hs, if_neg h.start]
  have hget6 : ∀ x, G6.get x = if x = b then none else if x = a then none else (G.get x).map (fixMerge a b B x) := by
    intro x
    rw [get_remove h6, get_remove h5, hget4]
  obtain ⟨st, S, hst, hS⟩ := hG.start
  have hmid : (mergedBlock A B).id = a := hAid
  have hne6 : G.start ≠ some a → G6.blocks ≠ [] := by
    intro hsa he
    have h1 : st ≠ b := by rintro rfl; exact h.start hst
    have h2 : st ≠ a := by rintro rfl; exact hsa hst
    have : G6.get st = some (fixMerge a b B st S) := by rw [hget6, if_neg h1, if_neg h2, hS]; rfl
    have := get_mem this
    rw [he] at this; cases this
  obtain ⟨G7, h7, s7, b7⟩ := add_succeeds (G := G6) (b := mergedBlock A B) (st := decide (G.start = some a)) (by
    intro hcase
    rw [start6]
    by_cases hs : G.start = some a
    · rw [if_pos hs]
    · exfalso
      rcases hcase with he | he
      · exact hne6 hs he
      · exact hs (by simpa using he))
  have hfresh : ∀ y ∈ G6.blocks, y.id ≠ (mergedBlock A B).id := by
    intro y hy hya
    rw [hmid] at hya
    have : a ∈ G6.blocks.map (·.id) := mem_map.2 ⟨y, hy, hya⟩
    rw [← get_isSome_iff] at this
    obtain ⟨w, hw⟩ := this
    rw [hget6, if_neg hne, if_pos rfl] at hw
    cases hw
  have b7' := b7 hfresh
  refine ⟨G7, ?_, ?_, ?_, ?_⟩
  · unfold mergeBlocks
    simp [hA, hB, h1, h2, h3, h4, h5, h6, h7]
  · rw [s7]
    by_cases hs : G.start = some a
    · rw [if_pos (Or.inr (by simpa using hs)), hmid, hs]
    · have : ¬ (G6.blocks = [] ∨ decide (G.start = some a) = true) := by
        rintro (he | he)
        · exact hne6 hs he
        · exact hs (by simpa using he)
      rw [if_neg this, start6, if_neg hs]
  · rw [b7', map_append, nodup_append]
    refine ⟨?_, by simp, ?_⟩
    · rw [b6, b5]
      have hsub : (((G4.blocks.filter fun x => x.id != a).filter fun x => x.id != b).map (·.id)) <+ G4.blocks.map (·.id) :=
        (filter_sublist.trans filter_sublist).map _
      rw [ids4] at hsub
      exact hsub.nodup hG.coherent.ids
    · intro x hx y hy
      obtain ⟨z, hz, rfl⟩ := mem_map.1 hx
      simp only [map_cons, map_nil, mem_singleton] at hy
      subst hy
      exact hfresh z hz
  · intro x
    rw [get_add h7, hmid, hget6]
    by_cases hx : x = a
    · rw [if_pos hx, if_pos hx]
    · rw [if_neg hx, if_neg hx, if_neg hx]

/-- The configuration of the original program that corresponds to one of the merged program: what comes from the merged block
comes from its second part. -/
def mergeConfig {V W : Type} (a b : String) (c : Config V W) : Config V W :=
  ⟨c.prev.map fun p => if p = a then b else p, c.cur, c.st⟩

/-- **C23.** Let `b` be the only successor of `a` and `a` the only predecessor of `b` in a well-formed graph, `b` not the entry,
without phi functions and without a branch back to `a`. Then the merge succeeds, the merged block has the instructions of
`a` followed by those of `b`, the graph stays well-formed (in particular predecessor and successor lists agree), and for
every meaning of the operations the merged and the original program behave alike. -/
theorem merge_preserves {G : BlockList} (hG : Sane G) {a b : String} {A B : Block} (h : Mergeable G a b A B) :
    ∃ G' M, mergeBlocks a b G = some G' ∧ Sane G' ∧ G'.start = G.start ∧ G'.get a = some M ∧ G'.get b = none ∧
      M.instrs = A.instrs ++ B.instrs ∧ M.succs = B.succs ∧ M.comesFrom = A.comesFrom ∧
      (∀ x, x ≠ a → x ≠ b → G'.succ x = G.succ x) ∧
      ∀ (V W : Type) (sem : Sem V W) (c : Config V W), Valid G' c →
        SameBehaviour (stepBlock sem G') c (stepBlock sem G) (mergeConfig a b c) ∧
        ∀ d, Gets (stepBlock sem G') c d → Gets (stepBlock sem G) (mergeConfig a b c) (mergeConfig a b d) := by
  have hA := h.getA
  have hB := h.getB
  have hAid := get_id hA
  have hne := h.ne
  obtain ⟨G', hm, hst, hnd, hget⟩ := merge_spec hG h
  have hga : G'.get a = some (mergedBlock A B) := by rw [hget, if_pos rfl]
  have hgb : G'.get b = none := by rw [hget, if_neg (Ne.symm hne), if_pos rfl]
  have hgo : ∀ x X, G.get x = some X → x ≠ a → x ≠ b → G'.get x = some (fixMerge a b B x X) := by
    intro x X hX h1 h2
    rw [hget, if_neg h1, if_neg h2, hX]; rfl
  have hcases : ∀ x Y, G'.get x = some Y → (x = a ∧ Y = mergedBlock A B) ∨
      (x ≠ a ∧ x ≠ b ∧ ∃ X, G.get x = some X ∧ Y = fixMerge a b B x X) := by
    intro x Y hY
    rw [hget] at hY
    by_cases h1 : x = a
    · rw [if_pos h1] at hY; cases hY; exact Or.inl ⟨h1, rfl⟩
    · rw [if_neg h1] at hY
      by_cases h2 : x = b
      · rw [if_pos h2] at hY; cases hY
      · rw [if_neg h2] at hY
        obtain ⟨X, hX, rfl⟩ := Option.map_eq_some_iff.1 hY
        exact Or.inr ⟨h1, h2, X, hX, rfl⟩
  have hms : (mergedBlock A B).succs = B.succs := rfl
  have hmc : (mergedBlock A B).comesFrom = A.comesFrom := by
    have hfil : (B.comesFrom.filter fun p => p != A.id) = [] := by
      rw [filter_eq_nil_iff, hAid]; intro p hp; rw [(h.preds p).1 hp]; simp
    simp only [mergedBlock, hfil, append_nil]
  have hbself : b ∉ B.succs := fun hb =>
    hne ((h.preds b).1 ((hG.coherent.edges b b B B hB hB).2 hb)).symm
  have haself : a ∉ A.succs := fun ha => hne ((h.succs a).1 ha)
  -- edges of other blocks
  have hob : ∀ x X, G.get x = some X → x ≠ a → b ∉ X.succs := by
    intro x X hX hxa hb
    exact hxa ((h.preds x).1 ((hG.coherent.edges x b X B hX hB).2 hb))
  have hca : ∀ x X, G.get x = some X → x ≠ b → a ∉ X.comesFrom := by
    intro x X hX hxb ha
    exact hxb ((h.succs x).1 ((hG.coherent.edges a x A X hA hX).1 ha))
  have hbA : b ∉ A.comesFrom := fun hb => h.noLoop ((hG.coherent.edges b a B A hB hA).1 hb)
  have hfs : ∀ (x : String) (X : Block), (fixMerge a b B x X).succs = X.succs := fun _ _ => rfl
  have hfc : ∀ (x : String) (X : Block), G.get x = some X → x ≠ b → ∀ y, y ∈ (fixMerge a b B x X).comesFrom ↔
      (y = a ∧ x ∈ B.succs) ∨ (y ∈ X.comesFrom ∧ y ≠ b) := by
    intro x X hX hxb y
    have hedge := hG.coherent.edges b x B X hB hX
    simp only [fixMerge]
    by_cases hx : x ∈ B.succs
    · rw [if_pos hx, mem_replaceName]
      have := hedge.2 hx
      tauto
    · rw [if_neg hx]
      have hn : b ∉ X.comesFrom := fun h' => hx (hedge.1 h')
      constructor
      · intro hy; exact Or.inr ⟨hy, by rintro rfl; exact hn hy⟩
      · rintro (⟨_, h'⟩ | ⟨hy, _⟩)
        · exact absurd h' hx
        · exact hy
  have hexists : ∀ x X, G.get x = some X → x ≠ b → ∃ Y, G'.get x = some Y := by
    intro x X hX hxb
    by_cases hxa : x = a
    · subst hxa; exact ⟨_, hga⟩
    · exact ⟨_, hgo x X hX hxa hxb⟩
  have hsane : Sane G' := by
    refine ⟨⟨hnd, ?_, ?_, ?_, ?_⟩, ?_, ?_, ?_⟩
    · intro p q P Q hP hQ
      rcases hcases p P hP with ⟨rfl, rfl⟩ | ⟨hp1, hp2, P0, hP0, rfl⟩ <;>
      rcases hcases q Q hQ with ⟨rfl, rfl⟩ | ⟨hq1, hq2, Q0, hQ0, rfl⟩
      · rw [hmc, hms]
        exact ⟨fun hh => absurd ((hG.coherent.edges _ _ A A hA hA).1 hh) haself, fun hh => absurd hh h.noLoop⟩
      · rw [hfc q Q0 hQ0 hq2, hms]
        constructor
        · rintro (⟨_, hh⟩ | ⟨hh, _⟩)
          · exact hh
          · exact absurd hh (hca q Q0 hQ0 hq2)
        · intro hh; exact Or.inl ⟨rfl, hh⟩
      · rw [hmc, hfs]; exact hG.coherent.edges p _ P0 A hP0 hA
      · rw [hfc q Q0 hQ0 hq2, hfs, ← hG.coherent.edges p q P0 Q0 hP0 hQ0]
        constructor
        · rintro (⟨hh, _⟩ | ⟨hh, _⟩)
          · exact absurd hh hp1
          · exact hh
        · intro hh; exact Or.inr ⟨hh, hp2⟩
    · intro q Q hQ x hx
      rcases hcases q Q hQ with ⟨rfl, rfl⟩ | ⟨hq1, hq2, Q0, hQ0, rfl⟩
      · rw [hmc] at hx
        obtain ⟨X, hX⟩ := hG.coherent.preds _ A hA x hx
        exact hexists x X hX (by rintro rfl; exact hbA hx)
      · rw [hfc q Q0 hQ0 hq2] at hx
        rcases hx with ⟨rfl, _⟩ | ⟨hx, hxb⟩
        · exact ⟨_, hga⟩
        · obtain ⟨X, hX⟩ := hG.coherent.preds q Q0 hQ0 x hx
          exact hexists x X hX hxb
    · intro p P hP x hx
      rcases hcases p P hP with ⟨rfl, rfl⟩ | ⟨hp1, hp2, P0, hP0, rfl⟩
      · rw [hms] at hx
        obtain ⟨X, hX⟩ := hG.coherent.targets b B hB x hx
        exact hexists x X hX (by rintro rfl; exact hbself hx)
      · rw [hfs] at hx
        obtain ⟨X, hX⟩ := hG.coherent.targets p P0 hP0 x hx
        exact hexists x X hX (by rintro rfl; exact hob p P0 hP0 hp1 hx)
    · intro q Q hQ
      rcases hcases q Q hQ with ⟨rfl, rfl⟩ | ⟨hq1, hq2, Q0, hQ0, rfl⟩
      · rw [hmc]; exact hG.coherent.once _ A hA
      · simp only [fixMerge]
        split
        · exact nodup_replaceName (hG.coherent.once q Q0 hQ0) (hca q Q0 hQ0 hq2)
        · exact hG.coherent.once q Q0 hQ0
    · intro x Y hY t ⟨hj, hfl⟩
      rcases hcases x Y hY with ⟨rfl, rfl⟩ | ⟨hq1, hq2, X, hX, rfl⟩
      · exact hG.noDouble b B hB t ⟨hj, hfl⟩
      · exact hG.noDouble x X hX t ⟨hj, hfl⟩
    · intro q Q hQ x hx
      rcases hcases q Q hQ with ⟨rfl, rfl⟩ | ⟨hq1, hq2, Q0, hQ0, rfl⟩
      · rw [hmc]; exact hG.entries _ A hA x hx
      · rw [hfc q Q0 hQ0 hq2]
        simp only [fixMerge] at hx
        by_cases hh : q ∈ B.succs
        · rw [if_pos hh, mem_replaceName] at hx
          rcases hx with ⟨rfl, _⟩ | ⟨hx, hxb⟩
          · exact Or.inl ⟨rfl, hh⟩
          · exact Or.inr ⟨hG.entries q Q0 hQ0 x hx, hxb⟩
        · rw [if_neg hh] at hx
          have hx' := hG.entries q Q0 hQ0 x hx
          refine Or.inr ⟨hx', ?_⟩
          rintro rfl
          exact hh ((hG.coherent.edges x q B Q0 hB hQ0).1 hx')
    · obtain ⟨s, S, h1, h2⟩ := hG.start
      obtain ⟨Y, hY⟩ := hexists s S h2 (by rintro rfl; exact h.start h1)
      exact ⟨s, Y, by rw [hst]; exact h1, hY⟩
  refine ⟨G', _, hm, hsane, hst, hga, hgb, rfl, hms, hmc, ?_, ?_⟩
  · intro x hxa hxb
    unfold BlockList.succ
    rw [hget, if_neg hxa, if_neg hxb]
    cases G.get x with
    | none => rfl
    | some X => rfl
  · intro V W sem c hc
    refine simulation (mergeConfig a b) (Valid G') (fun c d _ h => valid_step hsane.coherent h) ?_ hc
    intro c hc
    obtain ⟨⟨Y, hY⟩, hprev⟩ := hc
    have hphiB : B.instrs.filter isPhi = [] := by
      rw [filter_eq_nil_iff]; intro i hi; rw [h.noPhi i hi]; simp
    rcases hcases c.cur Y hY with ⟨hca', rfl⟩ | ⟨hx1, hx2, X, hX, rfl⟩
    · -- the merged block
      have hpn : ∀ p, c.prev = some p → p ≠ a := by
        rintro p hp rfl
        have := hprev p hp
        unfold BlockList.succ at this
        rw [hga, hca'] at this
        exact h.noLoop this
      have hprev' : (mergeConfig a b c).prev = c.prev := by
        unfold mergeConfig
        cases hcp : c.prev with
        | none => rfl
        | some p => simp [hpn p hcp]
      have hcur' : (mergeConfig a b c).cur = a := hca'
      have hst' : (mergeConfig a b c).st = c.st := rfl
      have henter : enter (mergedBlock A B) c.prev c.st.env = enter A c.prev c.st.env := by
        change enterWith ((A.instrs ++ B.instrs).filter isPhi) A.entries _ _ = _
        rw [filter_append, hphiB, append_nil]; rfl
      have hexec : (mergedBlock A B).instrs.filter (fun i => !isPhi i) =
          A.instrs.filter (fun i => !isPhi i) ++ B.instrs.filter (fun i => !isPhi i) := by
        simp only [mergedBlock, filter_append]
      have hstep : stepBlock sem G' c = match enter A c.prev c.st.env with
          | none => .stuck
          | some env => match execAll sem (A.instrs.filter (fun i => !isPhi i) ++ B.instrs.filter (fun i => !isPhi i))
              ⟨env, c.st.world⟩ with
            | .stop s => .halt s
            | .next s => leave sem (mergedBlock A B) s := by
        unfold stepBlock; rw [hY]
        simp only
        rw [henter, hexec]
        rfl
      have hstep' : stepBlock sem G (mergeConfig a b c) = match enter A c.prev c.st.env with
          | none => .stuck
          | some env => match execAll sem (A.instrs.filter fun i => !isPhi i) ⟨env, c.st.world⟩ with
            | .stop s => .halt s
            | .next s => leave sem A s := by
        unfold stepBlock; rw [hcur', hA]
        simp only
        rw [hprev', hst']
        rfl
      rw [hstep, hstep']
      cases enter A c.prev c.st.env with
      | none => exact Or.inl rfl
      | some env =>
        simp only
        rw [execAll_append]
        cases hE : execAll sem (A.instrs.filter fun i => !isPhi i) ⟨env, c.st.world⟩ with
        | stop s => exact Or.inl rfl
        | next s =>
          refine Or.inr ⟨⟨some a, b, s⟩, ?_, ?_⟩
          · have hbs := mem_succs.1 ((h.succs b).2 rfl)
            simp only
            unfold leave
            cases hj : A.jumpTo with
            | none =>
              cases hfl : A.fallsTo with
              | none => rw [hj, hfl] at hbs; simp at hbs
              | some t =>
                have : t = b := (h.succs t).1 (mem_succs.2 (Or.inr hfl))
                simp [this, hAid]
            | some t =>
              have ht : t = b := (h.succs t).1 (mem_succs.2 (Or.inl hj))
              cases hfl : A.fallsTo with
              | none => simp [ht, hAid]
              | some e =>
                have he : e = b := (h.succs e).1 (mem_succs.2 (Or.inr hfl))
                subst ht
                subst he
                exact absurd ⟨hj, hfl⟩ (hG.noDouble a A hA _)
          · unfold stepBlock
            simp only
            rw [hB]
            have henter2 : enter B (some a) s.env = some s.env := by
              unfold enter; rw [hphiB]; rfl
            simp only [henter2]
            cases execAll sem (B.instrs.filter fun i => !isPhi i) s with
            | stop s' => rfl
            | next s' =>
              simp only
              apply leave_map sem (mergedBlock A B) B s' _ id (by simp [mergedBlock]) (by simp [mergedBlock]) rfl
              intro t ht
              simp [mergeConfig, mergedBlock, hAid, get_id hB]
    · -- another block
      left
      have hXid := get_id hX
      have hcur' : (mergeConfig a b c).cur = c.cur := rfl
      have hst' : (mergeConfig a b c).st = c.st := rfl
      have henter : enter X (mergeConfig a b c).prev (mergeConfig a b c).st.env = enter (fixMerge a b B c.cur X) c.prev c.st.env := by
        rw [hst']
        change enterWith (X.instrs.filter isPhi) X.entries _ _ = enterWith (X.instrs.filter isPhi) (fixMerge a b B c.cur X).entries _ _
        unfold enterWith
        by_cases hpz : X.instrs.filter isPhi = []
        · rw [if_pos hpz, if_pos hpz]
        · rw [if_neg hpz, if_neg hpz]
          simp only [fixMerge, mergeConfig]
          cases hcp : c.prev with
          | none => rfl
          | some p =>
            simp only [Option.map_some, Option.bind_some]
            have hps := hprev p hcp
            have hpb : p ≠ b := by
              rintro rfl
              unfold BlockList.succ at hps
              rw [hgb] at hps
              cases hps
            have hidx : X.entries.idxOf? (if p = a then b else p) =
                (if c.cur ∈ B.succs then replaceName b a X.entries else X.entries).idxOf? p := by
              have hea : ∀ y ∈ X.entries, y ≠ a := by
                rintro y hy rfl
                exact hca _ X hX hx2 (hG.entries _ X hX _ hy)
              by_cases hmem : c.cur ∈ B.succs
              · rw [if_pos hmem]
                unfold replaceName
                by_cases hpa : p = a
                · rw [if_pos hpa, hpa]
                  have := idxOf?_map_inj (f := fun x => if x = b then a else x) (l := X.entries) (x := b) (by
                    intro y hy hyb
                    simp only [if_true] at hyb
                    by_cases h1 : y = b
                    · exact h1
                    · simp only [h1, if_false] at hyb; exact absurd hyb (hea y hy))
                  simp only [if_true] at this
                  rw [this]
                · rw [if_neg hpa]
                  have := idxOf?_map_inj (f := fun x => if x = b then a else x) (l := X.entries) (x := p) (by
                    intro y hy hyp
                    simp only [hpb, if_false] at hyp
                    by_cases h1 : y = b
                    · simp only [h1, if_true] at hyp; exact absurd hyp.symm hpa
                    · simpa only [h1, if_false] using hyp)
                  simp only [hpb, if_false] at this
                  rw [this]
              · rw [if_neg hmem]
                have : p ≠ a := by
                  rintro rfl
                  unfold BlockList.succ at hps
                  rw [hga] at hps
                  exact hmem hps
                rw [if_neg this]
            rw [hidx]
      have hstep' : stepBlock sem G (mergeConfig a b c) = match enter (fixMerge a b B c.cur X) c.prev c.st.env with
          | none => .stuck
          | some env => match execAll sem (X.instrs.filter fun i => !isPhi i) ⟨env, c.st.world⟩ with
            | .stop s => .halt s
            | .next s => leave sem X s := by
        unfold stepBlock; rw [hcur', hX]
        simp only
        rw [henter, hst']
        rfl
      rw [hstep']
      unfold stepBlock
      rw [hY]
      simp only
      cases enter (fixMerge a b B c.cur X) c.prev c.st.env with
      | none => rfl
      | some env =>
        simp only
        have : (fixMerge a b B c.cur X).instrs = X.instrs := rfl
        rw [this]
        cases execAll sem (X.instrs.filter fun i => !isPhi i) ⟨env, c.st.world⟩ with
        | stop s => rfl
        | next s =>
          simp only
          apply leave_map sem (fixMerge a b B c.cur X) X s _ id (by simp [fixMerge]) (by simp [fixMerge]) rfl
          intro t ht
          have hxa : X.id ≠ a := by rw [hXid]; exact hx1
          simp [mergeConfig, hxa, fixMerge]

/-! ### The theorem applies, and what it leaves out -/

/-- A straight line into a loop. -/
def exLine : BlockList :=
  { start := some "B0"
    terminals := ["B3"]
    blocks := [
      { id := "B0", instrs := [⟨"calldatasize", [], ["n"]⟩], jumpType := "unconditional", jumpTo := some "A" },
      { id := "A", instrs := [⟨"gas", [], ["g"]⟩], jumpType := "unconditional", fallsTo := some "B", comesFrom := ["B0"] },
      { id := "B", instrs := [⟨"calldataload", ["g"], ["x"]⟩], jumpType := "unconditional", jumpTo := some "B1", comesFrom := ["A"] },
      { id := "B1", instrs := [⟨"PhiFunction", ["x", "y"], ["z"]⟩, ⟨"lt", ["z", "n"], ["c"]⟩], jumpType := "conditional",
        jumpTo := some "B2", fallsTo := some "B3", cond := some "c", comesFrom := ["B", "B2"], entries := ["B", "B2"] },
      { id := "B2", instrs := [⟨"sstore", ["z", "n"], []⟩, ⟨"add", ["z", "0x01"], ["y"]⟩], jumpType := "unconditional",
        jumpTo := some "B1", comesFrom := ["B1"] },
      { id := "B3", instrs := [⟨"stop", [], []⟩], jumpType := "mainExit", comesFrom := ["B1"] }] }

-- The hypotheses of `merge_preserves` are met by two blocks before the loop.
example : Sane exLine ∧ Mergeable exLine "A" "B" exLine.blocks[1] exLine.blocks[2] :=
  ⟨sane_of_check (by decide +kernel),
    ⟨by decide +kernel, by decide +kernel, by decide, by intro x; simp [Block.succs, exLine], by intro x; simp [exLine],
      by decide, by decide, by decide⟩⟩

example : (mergeBlocks "A" "B" exLine).map (fun G => (G.get "B1").map (·.entries)) = some (some ["A", "B2"]) := by decide +kernel

example : (mergeBlocks "A" "B" exLine).bind (fun G => runFor exSem G 20 (init "B0" exSt)) = runFor exSem exLine 20 (init "B0" exSt) := by
  decide +kernel

/-- The second block has a phi function (with one argument: it has one predecessor). -/
def exPhi : BlockList :=
  { start := some "A"
    blocks := [
      { id := "A", instrs := [⟨"calldatasize", [], ["n"]⟩], jumpType := "unconditional", jumpTo := some "B" },
      { id := "B", instrs := [⟨"PhiFunction", ["n"], ["m"]⟩, ⟨"sstore", ["m", "m"], []⟩], jumpType := "mainExit", comesFrom := ["A"],
        entries := ["A"] }] }

/-- **C23 fails if the second block has phi functions**: the merged block keeps them and the sources of the first block. -/
theorem merge_fails_on_phi :
    Sane exPhi ∧ (runFor exSem exPhi 5 (init "A" exSt)).isSome = true ∧
      ∃ G', mergeBlocks "A" "B" exPhi = some G' ∧ Wrong (stepBlock exSem G') (init "A" exSt) :=
  ⟨sane_of_check (by decide +kernel), by decide +kernel, (mergeBlocks "A" "B" exPhi).get (by decide +kernel), by simp, .now rfl⟩

/-- A loop in which the second block branches back to the first one. -/
def exBack : BlockList :=
  { start := some "B0"
    blocks := [
      { id := "B0", instrs := [⟨"calldatasize", [], ["n"]⟩, ⟨"gas", [], ["x"]⟩], jumpType := "unconditional", jumpTo := some "A" },
      { id := "A", instrs := [⟨"PhiFunction", ["x", "y"], ["z"]⟩], jumpType := "unconditional", jumpTo := some "B",
        comesFrom := ["B0", "B"], entries := ["B0", "B"] },
      { id := "B", instrs := [⟨"add", ["z", "0x01"], ["y"]⟩, ⟨"lt", ["z", "n"], ["c"]⟩], jumpType := "conditional",
        jumpTo := some "A", fallsTo := some "E", cond := some "c", comesFrom := ["A"] },
      { id := "E", instrs := [⟨"stop", [], []⟩], jumpType := "mainExit", comesFrom := ["B"] }] }

/-- **C23 fails if the second block branches back to the first**: the merged block's predecessor list and the sources of its phi
arguments keep the name of the second block, which no longer exists, and the program gets stuck. -/
theorem merge_fails_on_back_edge :
    Sane exBack ∧ (runFor exSem exBack 20 (init "B0" exSt)).isSome = true ∧
      ∃ G', mergeBlocks "A" "B" exBack = some G' ∧ (G'.get "A").map (·.comesFrom) = some ["B0", "B"] ∧ G'.get "B" = none ∧
        G'.succ "A" = ["A", "E"] ∧ Wrong (stepBlock exSem G') (init "B0" exSt) :=
  ⟨sane_of_check (by decide +kernel), by decide +kernel, (mergeBlocks "A" "B" exBack).get (by decide +kernel), by simp,
    by decide +kernel, by decide +kernel, by decide +kernel, .later rfl (.later rfl (.now rfl))⟩

/-- The entry is the only successor of a block: a loop around the whole program. -/
def exEntry : BlockList :=
  { start := some "A"
    blocks := [
      { id := "A", instrs := [⟨"gas", [], ["g"]⟩], jumpType := "conditional", jumpTo := some "B", fallsTo := some "E", cond := some "g",
        comesFrom := ["B"] },
      { id := "B", instrs := [⟨"sstore", ["g", "g"], []⟩], jumpType := "unconditional", jumpTo := some "A", comesFrom := ["A"] },
      { id := "E", instrs := [⟨"stop", [], []⟩], jumpType := "mainExit", comesFrom := ["A"] }] }

/-- **C23 fails if the second block is the entry**: the pair is selected for merging, and the merged list has no entry. -/
theorem merge_loses_entry :
    Sane exEntry ∧ nodesToMerge [] exEntry = [("B", "A")] ∧ ∃ G', mergeBlocks "B" "A" exEntry = some G' ∧ G'.start = none :=
  ⟨sane_of_check (by decide +kernel), by decide +kernel, (mergeBlocks "B" "A" exEntry).get (by decide +kernel), by simp,
    by decide +kernel⟩

end Grey.Cfg
