/-
C22: splitting a block preserves the program.
-/
import Verif.Cfg.Check
import Mathlib.Tactic.Tauto
namespace Grey.Cfg
open List

theorem firstId_ne (b : String) : firstId b ≠ b := by
  intro h
  have := congrArg String.length h
  simp [firstId, String.length_append] at this

theorem secondId_ne (b : String) : secondId b ≠ b := by
  intro h
  have := congrArg String.length h
  simp [secondId, String.length_append] at this

theorem firstId_ne_secondId (b : String) : firstId b ≠ secondId b := by
  intro h
  have := congrArg String.toList h
  simp [firstId, secondId] at this

/-- The blocks other than the split one, after the split. -/
def fixOther (b : String) (blk : Block) (x : String) (y : Block) : Block :=
  { y with jumpTo := redirect b (firstId b) y.jumpTo, fallsTo := redirect b (firstId b) y.fallsTo
           comesFrom := if x ∈ blk.succs then replaceName b (secondId b) y.comesFrom else y.comesFrom
           entries := if x ∈ blk.succs then replaceName b (secondId b) y.entries else y.entries }

theorem redirect_of_ne {old new : String} {o : Option String} (h : o ≠ some old) : redirect old new o = o := by
  cases o with
  | none => rfl
  | some y =>
    have : y ≠ old := by rintro rfl; exact h rfl
    simp [redirect, this]

theorem split_spec {G : BlockList} (hG : Sane G) {b : String} {blk : Block} (hb : G.get b = some blk) (hself : b ∉ blk.succs)
    (hf : G.get (firstId b) = none) (hs : G.get (secondId b) = none) (k : Nat) :
    ∃ G', splitBlock k b G = some G' ∧ G'.start = (if G.start = some b then some (firstId b) else G.start) ∧
      (G'.blocks.map (·.id)).Nodup ∧
      ∀ x, G'.get x = if x = secondId b then some (secondHalf k blk) else if x = firstId b then some (firstHalf k blk) else
        if x = b then none else (G.get x).map (fixOther b blk x) := by
  have hid := get_id hb
  -- the predecessors
  have hpreds : ∀ p ∈ blk.comesFrom, ∃ P, G.get p = some P ∧ b ∈ P.succs ∧ ¬ (P.jumpTo = some b ∧ P.fallsTo = some b) := by
    intro p hp
    obtain ⟨P, hP⟩ := hG.coherent.preds b blk hb p hp
    exact ⟨P, hP, (hG.coherent.edges p b P blk hP hb).1 hp, hG.noDouble p P hP b⟩
  obtain ⟨G1, h1, s1, i1, g1⟩ := modifyAllSuccessors_spec (new := firstId b) blk.comesFrom G (hG.coherent.once b blk hb) hpreds
  have hnb : b ∉ blk.comesFrom := fun h => hself ((hG.coherent.edges b b blk blk hb hb).1 h)
  have hb1 : G1.get b = some blk := by rw [g1, hb]; simp [hnb]
  -- the successors
  have htgt : ∀ x, x ∈ blk.succs → ∃ X, G.get x = some X ∧ b ∈ X.comesFrom := by
    intro x hx
    obtain ⟨X, hX⟩ := hG.coherent.targets b blk hb x hx
    exact ⟨X, hX, (hG.coherent.edges b x blk X hb hX).2 hx⟩
  obtain ⟨G2, h2, s2, i2, g2⟩ := modifyComesFrom_spec (G := G1) (t := blk.jumpTo) (old := b) (new := secondId b) (by
    intro x hx
    obtain ⟨X, hX, hXc⟩ := htgt x (mem_succs.2 (Or.inl hx))
    refine ⟨_, by rw [g1, hX]; rfl, ?_⟩
    split <;> exact hXc)
  obtain ⟨G3, h3, s3, i3, g3⟩ := modifyComesFrom_spec (G := G2) (t := blk.fallsTo) (old := b) (new := secondId b) (by
    intro x hx
    obtain ⟨X, hX, hXc⟩ := htgt x (mem_succs.2 (Or.inr hx))
    have hnj : blk.jumpTo ≠ some x := fun h => hG.noDouble b blk hb x ⟨h, hx⟩
    refine ⟨_, by rw [g2, g1, hX]; rfl, ?_⟩
    simp only [hnj, if_false]
    split <;> exact hXc)
  have hget3 : ∀ x, x ≠ b → G3.get x = (G.get x).map (fixOther b blk x) := by
    intro x hx
    rw [g3, g2, g1]
    cases hX : G.get x with
    | none => rfl
    | some X =>
      simp only [Option.map_some, Option.some.injEq]
      have hred : (if x ∈ blk.comesFrom then
          { X with jumpTo := redirect b (firstId b) X.jumpTo, fallsTo := redirect b (firstId b) X.fallsTo } else X) =
          { X with jumpTo := redirect b (firstId b) X.jumpTo, fallsTo := redirect b (firstId b) X.fallsTo } := by
        by_cases hc : x ∈ blk.comesFrom
        · rw [if_pos hc]
        · rw [if_neg hc]
          have hns : b ∉ X.succs := fun h => hc ((hG.coherent.edges x b X blk hX hb).2 h)
          rw [mem_succs, not_or] at hns
          rw [redirect_of_ne hns.1, redirect_of_ne hns.2]
      rw [hred]
      unfold fixOther
      by_cases hj : blk.jumpTo = some x
      · have hnf : blk.fallsTo ≠ some x := fun h => hG.noDouble b blk hb x ⟨hj, h⟩
        have : x ∈ blk.succs := mem_succs.2 (Or.inl hj)
        simp [hj, hnf, this]
      · by_cases hfl : blk.fallsTo = some x
        · have : x ∈ blk.succs := mem_succs.2 (Or.inr hfl)
          simp [hj, hfl, this]
        · have : x ∉ blk.succs := by rw [mem_succs, not_or]; exact ⟨hj, hfl⟩
          simp [hj, hfl, this]
  have hb3 : G3.get b = some blk := by
    rw [g3, g2, hb1]
    have hj : blk.jumpTo ≠ some b := fun h => hself (mem_succs.2 (Or.inl h))
    have hfl : blk.fallsTo ≠ some b := fun h => hself (mem_succs.2 (Or.inr h))
    simp [hj, hfl]
  obtain ⟨G4, h4, b4, s4⟩ := remove_succeeds hb3
  have ids3 : G3.blocks.map (·.id) = G.blocks.map (·.id) := i3.trans (i2.trans i1)
  have start3 : G3.start = G.start := s3.trans (s2.trans s1)
  have hget4 := get_remove h4
  have hnone4 : ∀ y, G.get y = none → y ≠ b → ∀ z ∈ G4.blocks, z.id ≠ y := by
    intro y hy hyb z hz hzy
    have : y ∈ G4.blocks.map (·.id) := mem_map.2 ⟨z, hz, hzy⟩
    rw [← get_isSome_iff] at this
    obtain ⟨w, hw⟩ := this
    rw [hget4, if_neg hyb, hget3 y hyb, hy] at hw
    cases hw
  obtain ⟨st, S, hst, hS⟩ := hG.start
  obtain ⟨G5, h5, s5, b5⟩ := add_succeeds (G := G4) (b := firstHalf k blk) (st := decide (G.start = some b)) (by
    intro hcase
    rw [s4, start3]
    by_cases h : G.start = some b
    · rw [if_pos h]
    · exfalso
      rcases hcase with he | he
      · have hstb : st ≠ b := by rintro rfl; exact h hst
        have : G4.get st = some (fixOther b blk st S) := by
          rw [hget4, if_neg hstb, hget3 st hstb, hS]; rfl
        have := get_mem this
        rw [he] at this
        cases this
      · exact h (by simpa using he))
  have hfid : (firstHalf k blk).id = firstId b := by rw [← hid]; rfl
  have hsid : (secondHalf k blk).id = secondId b := by rw [← hid]; rfl
  have b5' := b5 (by intro y hy; rw [hfid]; exact hnone4 _ hf (firstId_ne b) y hy)
  obtain ⟨G6, h6, s6, b6⟩ := add_succeeds (G := G5) (b := secondHalf k blk) (st := false) (by
    intro hcase
    rcases hcase with he | he
    · rw [b5'] at he; simp at he
    · cases he)
  have b6' := b6 (by
    intro y hy
    rw [hsid]
    rw [b5', mem_append] at hy
    rcases hy with hy | hy
    · exact hnone4 _ hs (secondId_ne b) y hy
    · simp only [mem_singleton] at hy
      rw [hy, hfid]; exact firstId_ne_secondId b)
  refine ⟨G6, ?_, ?_, ?_, ?_⟩
  · unfold splitBlock
    simp [hb, h1, hb1, h2, h3, h4, h5, h6]
  · rw [s6]
    have hne : ¬ (G5.blocks = [] ∨ false = true) := by rw [b5']; simp
    rw [if_neg hne, s5, s4, start3]
    by_cases h : G.start = some b
    · rw [if_pos (Or.inr (by simpa using h)), hfid, if_pos h]
    · have hstb : st ≠ b := by rintro rfl; exact h hst
      have : G4.get st = some (fixOther b blk st S) := by
        rw [hget4, if_neg hstb, hget3 st hstb, hS]; rfl
      have hm := get_mem this
      have hne4 : ¬ (G4.blocks = [] ∨ decide (G.start = some b) = true) := by
        rintro (he | he)
        · rw [he] at hm; cases hm
        · exact h (by simpa using he)
      rw [if_neg hne4, if_neg h, if_neg h]
  · rw [b6', b5', b4]
    rw [map_append, map_append]
    have hn4 : ((G3.blocks.filter fun x => x.id != b).map (·.id)).Nodup := by
      have hsub : ((G3.blocks.filter fun x => x.id != b).map (·.id)) <+ G3.blocks.map (·.id) := filter_sublist.map _
      rw [ids3] at hsub
      exact hsub.nodup hG.coherent.ids
    rw [← b4] at hn4 ⊢
    simp only [map_cons, map_nil, append_assoc, cons_append, nil_append, nodup_append, nodup_cons, not_mem_nil,
      not_false_eq_true, nodup_nil, and_true, mem_cons, or_false, hn4, true_and, hfid, hsid]
    refine ⟨firstId_ne_secondId b, ?_⟩
    intro x hx y hy
    obtain ⟨z, hz, rfl⟩ := mem_map.1 hx
    rcases hy with rfl | rfl
    · exact hnone4 _ hf (firstId_ne b) z hz
    · exact hnone4 _ hs (secondId_ne b) z hz
  · intro x
    rw [get_add h6, get_add h5, hget4, hfid, hsid]
    by_cases h1 : x = secondId b
    · rw [if_pos h1, if_pos h1]
    · rw [if_neg h1, if_neg h1]
      by_cases h2 : x = firstId b
      · rw [if_pos h2, if_pos h2]
      · rw [if_neg h2, if_neg h2]
        by_cases h3 : x = b
        · rw [if_pos h3, if_pos h3]
        · rw [if_neg h3, if_neg h3, hget3 x h3]

/-- The configuration of the split program that corresponds to one of the original program: the split block is entered through
its first half and left through its second half. -/
def splitConfig {V W : Type} (b : String) (c : Config V W) : Config V W :=
  ⟨c.prev.map fun p => if p = b then secondId b else p, if c.cur = b then firstId b else c.cur, c.st⟩

theorem execAll_append {V W : Type} (sem : Sem V W) (l1 l2 : List Instr) (s : St V W) :
    execAll sem (l1 ++ l2) s = match execAll sem l1 s with
      | .next s' => execAll sem l2 s'
      | .stop s' => .stop s' := by
  induction l1 generalizing s with
  | nil => rfl
  | cons i l1 ih =>
    simp only [cons_append, execAll]
    cases execInstr sem i s with
    | next s' => exact ih s'
    | stop s' => rfl

theorem idxOf?_map_inj {f : String → String} {l : List String} {x : String} (hf : ∀ y ∈ l, f y = f x → y = x) :
    (l.map f).idxOf? (f x) = l.idxOf? x := by
  induction l with
  | nil => rfl
  | cons a l ih =>
    rw [map_cons, idxOf?_cons, idxOf?_cons]
    by_cases h : a = x
    · simp [h]
    · have h1 : ¬ f a = f x := fun h' => h (hf a mem_cons_self h')
      have e1 : (f a == f x) = false := by simpa using h1
      have e2 : (a == x) = false := by simpa using h
      rw [e1, e2, ih fun y hy => hf y (mem_cons_of_mem _ hy)]

theorem valid_step {V W : Type} {sem : Sem V W} {G : BlockList} (hG : Coherent G) {c d : Config V W}
    (h : stepBlock sem G c = .goto d) : Valid G d := by
  unfold stepBlock at h
  split at h
  · cases h
  · rename_i B hB
    have hid := get_id hB
    split at h
    · cases h
    · split at h
      · cases h
      · unfold leave at h
        have key : ∀ t s, t ∈ B.succs → Valid G (⟨some B.id, t, s⟩ : Config V W) := by
          intro t s ht
          refine ⟨hG.targets _ B hB t ht, ?_⟩
          intro p hp
          simp only [Option.some.injEq] at hp
          subst hp
          unfold BlockList.succ
          rw [hid, hB]; exact ht
        split at h
        · cases h
        · rename_i t hj hfl; cases h; exact key _ _ (mem_succs.2 (Or.inl hj))
        · rename_i t hj hfl; cases h; exact key _ _ (mem_succs.2 (Or.inr hfl))
        · rename_i t e hj hfl
          split at h
          · split at h
            · cases h; exact key _ _ (mem_succs.2 (Or.inl hj))
            · cases h; exact key _ _ (mem_succs.2 (Or.inr hfl))
          · cases h

theorem filter_drop_phi {l : List Instr} {n : Nat} (h : ∀ i ∈ l.drop n, isPhi i = false) :
    (l.take n).filter isPhi = l.filter isPhi ∧ (l.drop n).filter isPhi = [] := by
  have h2 : (l.drop n).filter isPhi = [] := by
    rw [filter_eq_nil_iff]; intro i hi; rw [h i hi]; simp
  refine ⟨?_, h2⟩
  conv_rhs => rw [← take_append_drop n l, filter_append, h2, append_nil]

/-- Leaving a block whose targets and name have been changed consistently. -/
theorem leave_map {V W : Type} (sem : Sem V W) (B B' : Block) (s : St V W) (r : Config V W → Config V W)
    (g : String → String) (hj : B'.jumpTo = B.jumpTo.map g) (hf : B'.fallsTo = B.fallsTo.map g) (hc : B'.cond = B.cond)
    (hr : ∀ t ∈ B.succs, r ⟨some B.id, t, s⟩ = ⟨some B'.id, g t, s⟩) : leave sem B' s = (leave sem B s).map r := by
  unfold leave
  rw [hj, hf, hc]
  cases h1 : B.jumpTo with
  | none =>
    cases h2 : B.fallsTo with
    | none => rfl
    | some t => simp only [Option.map_none, Option.map_some, Out.map]; rw [hr t (mem_succs.2 (Or.inr h2))]
  | some t =>
    cases h2 : B.fallsTo with
    | none => simp only [Option.map_none, Option.map_some, Out.map]; rw [hr t (mem_succs.2 (Or.inl h1))]
    | some e =>
      simp only [Option.map_some]
      cases B.cond with
      | none => rfl
      | some c =>
        simp only
        split
        · simp only [Out.map]; rw [hr t (mem_succs.2 (Or.inl h1))]
        · simp only [Out.map]; rw [hr e (mem_succs.2 (Or.inr h2))]

/-- **C22.** Let a block of a well-formed graph be split after its `k`-th instruction, with no phi function in the second half and
the two new names unused; let the block not branch to itself. Then the split succeeds, the two halves make up the
instruction list, the graph stays well-formed, and for every meaning of the operations, every execution of the old and of
the new graph behave alike: from corresponding configurations they end in the same states, get stuck alike, and the new
one passes through the configurations of the old one. -/
theorem split_preserves {G : BlockList} (hG : Sane G) {b : String} {blk : Block} (hb : G.get b = some blk)
    (hself : b ∉ blk.succs) (hf : G.get (firstId b) = none) (hs : G.get (secondId b) = none) (k : Nat)
    (hphi : ∀ i ∈ blk.instrs.drop (k + 1), isPhi i = false) :
    ∃ G' B1 B2, splitBlock k b G = some G' ∧ Sane G' ∧
      G'.get (firstId b) = some B1 ∧ G'.get (secondId b) = some B2 ∧ B1.instrs ++ B2.instrs = blk.instrs ∧
      B1.instrs = blk.instrs.take (k + 1) ∧
      (∀ p P, G.get p = some P → p ≠ b → (b ∈ P.succs ↔ firstId b ∈ G'.succ p)) ∧ B2.succs = blk.succs ∧
      ∀ (V W : Type) (sem : Sem V W) (c : Config V W), Valid G c →
        SameBehaviour (stepBlock sem G) c (stepBlock sem G') (splitConfig b c) ∧
        ∀ d, Gets (stepBlock sem G) c d → Gets (stepBlock sem G') (splitConfig b c) (splitConfig b d) := by
  have hid := get_id hb
  obtain ⟨G', hsp, hst, hnd, hget⟩ := split_spec hG hb hself hf hs k
  have hgs : G'.get (secondId b) = some (secondHalf k blk) := by rw [hget, if_pos rfl]
  have hgf : G'.get (firstId b) = some (firstHalf k blk) := by rw [hget, if_neg (firstId_ne_secondId b), if_pos rfl]
  have hgo : ∀ x X, G.get x = some X → x ≠ b → G'.get x = some (fixOther b blk x X) := by
    intro x X hX hx
    have h1 : x ≠ secondId b := by rintro rfl; rw [hs] at hX; cases hX
    have h2 : x ≠ firstId b := by rintro rfl; rw [hf] at hX; cases hX
    rw [hget, if_neg h1, if_neg h2, if_neg hx, hX]; rfl
  have hcases : ∀ x Y, G'.get x = some Y → (x = secondId b ∧ Y = secondHalf k blk) ∨ (x = firstId b ∧ Y = firstHalf k blk) ∨
      (x ≠ b ∧ x ≠ firstId b ∧ x ≠ secondId b ∧ ∃ X, G.get x = some X ∧ Y = fixOther b blk x X) := by
    intro x Y hY
    rw [hget] at hY
    by_cases h1 : x = secondId b
    · rw [if_pos h1] at hY; cases hY; exact Or.inl ⟨h1, rfl⟩
    · rw [if_neg h1] at hY
      by_cases h2 : x = firstId b
      · rw [if_pos h2] at hY; cases hY; exact Or.inr (Or.inl ⟨h2, rfl⟩)
      · rw [if_neg h2] at hY
        by_cases h3 : x = b
        · rw [if_pos h3] at hY; cases hY
        · rw [if_neg h3] at hY
          obtain ⟨X, hX, rfl⟩ := Option.map_eq_some_iff.1 hY
          exact Or.inr (Or.inr ⟨h3, h2, h1, X, hX, rfl⟩)
  have hredm : ∀ (o : Option String) (x : String), redirect b (firstId b) o = some x ↔ (x = firstId b ∧ o = some b) ∨ (o = some x ∧ x ≠ b) := by
    intro o x
    cases o with
    | none => simp [redirect]
    | some y =>
      by_cases h : y = b
      · subst h
        simp only [redirect, Option.map_some, if_true, Option.some.injEq, and_true]
        constructor
        · rintro rfl; exact Or.inl rfl
        · rintro (rfl | ⟨rfl, h⟩)
          · rfl
          · exact absurd rfl h
      · simp only [redirect, Option.map_some, h, if_false, Option.some.injEq, and_false, false_or]
        constructor
        · rintro rfl; exact ⟨rfl, h⟩
        · rintro ⟨h, _⟩; exact h
  have hfs : ∀ (x : String) (X : Block) (y : String), y ∈ (fixOther b blk x X).succs ↔ (y = firstId b ∧ b ∈ X.succs) ∨ (y ∈ X.succs ∧ y ≠ b) := by
    intro x X y
    rw [mem_succs]
    simp only [fixOther]
    rw [hredm, hredm, mem_succs, mem_succs]
    tauto
  have hfc : ∀ (x : String) (X : Block), G.get x = some X → ∀ (y : String), y ∈ (fixOther b blk x X).comesFrom ↔
      (y = secondId b ∧ x ∈ blk.succs) ∨ (y ∈ X.comesFrom ∧ y ≠ b) := by
    intro x X hX y
    have hedge := hG.coherent.edges b x blk X hb hX
    simp only [fixOther]
    by_cases h : x ∈ blk.succs
    · rw [if_pos h, mem_replaceName]
      have := hedge.2 h
      tauto
    · rw [if_neg h]
      have hn : b ∉ X.comesFrom := fun h' => h (hedge.1 h')
      constructor
      · intro hy; exact Or.inr ⟨hy, by rintro rfl; exact hn hy⟩
      · rintro (⟨_, h'⟩ | ⟨hy, _⟩)
        · exact absurd h' h
        · exact hy
  have hexists : ∀ x X, G.get x = some X → x ≠ b → ∃ Y, G'.get x = some Y := fun x X hX hx => ⟨_, hgo x X hX hx⟩
  have hnf : ∀ x X, G.get x = some X → x ≠ firstId b := by rintro x X hX rfl; rw [hf] at hX; cases hX
  have hns : ∀ x X, G.get x = some X → x ≠ secondId b := by rintro x X hX rfl; rw [hs] at hX; cases hX
  have hsuccex : ∀ q Q, G.get q = some Q → ∀ x ∈ Q.succs, x ≠ firstId b ∧ x ≠ secondId b := by
    intro q Q hQ x hx
    obtain ⟨X, hX⟩ := hG.coherent.targets q Q hQ x hx
    exact ⟨hnf x X hX, hns x X hX⟩
  have hpredex : ∀ q Q, G.get q = some Q → ∀ x ∈ Q.comesFrom, x ≠ firstId b ∧ x ≠ secondId b := by
    intro q Q hQ x hx
    obtain ⟨X, hX⟩ := hG.coherent.preds q Q hQ x hx
    exact ⟨hnf x X hX, hns x X hX⟩
  have hs1 : (firstHalf k blk).succs = [secondId b] := by rw [← hid]; rfl
  have hs2 : (secondHalf k blk).succs = blk.succs := rfl
  have hc1 : (firstHalf k blk).comesFrom = blk.comesFrom := rfl
  have hc2 : (secondHalf k blk).comesFrom = [firstId b] := by rw [← hid]; rfl
  have hsane : Sane G' := by
    refine ⟨⟨hnd, ?_, ?_, ?_, ?_⟩, ?_, ?_, ?_⟩
    · intro p q P Q hP hQ
      rcases hcases p P hP with ⟨rfl, rfl⟩ | ⟨rfl, rfl⟩ | ⟨hp1, hp2, hp3, P0, hP0, rfl⟩ <;>
      rcases hcases q Q hQ with ⟨rfl, rfl⟩ | ⟨rfl, rfl⟩ | ⟨hq1, hq2, hq3, Q0, hQ0, rfl⟩
      · rw [hc2, hs2]
        simp only [mem_singleton]
        exact ⟨fun h => absurd h.symm (firstId_ne_secondId b), fun h => absurd rfl (hsuccex b blk hb _ h).2⟩
      · rw [hc1, hs2]
        exact ⟨fun h => absurd rfl (hpredex b blk hb _ h).2, fun h => absurd rfl (hsuccex b blk hb _ h).1⟩
      · rw [hfc q Q0 hQ0, hs2]
        constructor
        · rintro (⟨_, h⟩ | ⟨h, _⟩)
          · exact h
          · exact absurd rfl (hpredex q Q0 hQ0 _ h).2
        · intro h; exact Or.inl ⟨rfl, h⟩
      · rw [hc2, hs1]; simp
      · rw [hc1, hs1]
        simp only [mem_singleton]
        exact ⟨fun h => absurd rfl (hpredex b blk hb _ h).1, fun h => absurd h (firstId_ne_secondId b)⟩
      · rw [hfc q Q0 hQ0, hs1]
        simp only [mem_singleton]
        constructor
        · rintro (⟨h, _⟩ | ⟨h, _⟩)
          · exact absurd h (firstId_ne_secondId b)
          · exact absurd rfl (hpredex q Q0 hQ0 _ h).1
        · intro h; exact absurd h hq3
      · rw [hc2, hfs p P0]
        simp only [mem_singleton]
        constructor
        · intro h; exact absurd h hp2
        · rintro (⟨h, _⟩ | ⟨h, _⟩)
          · exact absurd h.symm (firstId_ne_secondId b)
          · exact absurd rfl (hsuccex p P0 hP0 _ h).2
      · rw [hc1, hfs p P0, hG.coherent.edges p b P0 blk hP0 hb]
        constructor
        · intro h; exact Or.inl ⟨rfl, h⟩
        · rintro (⟨_, h⟩ | ⟨h, _⟩)
          · exact h
          · exact absurd rfl (hsuccex p P0 hP0 _ h).1
      · rw [hfc q Q0 hQ0, hfs p P0, hG.coherent.edges p q P0 Q0 hP0 hQ0]
        constructor
        · rintro (⟨h, _⟩ | ⟨h, _⟩)
          · exact absurd h hp3
          · exact Or.inr ⟨h, hq1⟩
        · rintro (⟨h, _⟩ | ⟨h, _⟩)
          · exact absurd h hq2
          · exact Or.inr ⟨h, hp1⟩
    · intro q Q hQ x hx
      rcases hcases q Q hQ with ⟨rfl, rfl⟩ | ⟨rfl, rfl⟩ | ⟨hq1, hq2, hq3, Q0, hQ0, rfl⟩
      · rw [hc2, mem_singleton] at hx; subst hx; exact ⟨_, hgf⟩
      · rw [hc1] at hx
        obtain ⟨X, hX⟩ := hG.coherent.preds b blk hb x hx
        refine hexists x X hX ?_
        rintro rfl; exact hself ((hG.coherent.edges x x blk blk hb hb).1 hx)
      · rw [hfc q Q0 hQ0] at hx
        rcases hx with ⟨rfl, _⟩ | ⟨hx, hxb⟩
        · exact ⟨_, hgs⟩
        · obtain ⟨X, hX⟩ := hG.coherent.preds q Q0 hQ0 x hx
          exact hexists x X hX hxb
    · intro p P hP x hx
      rcases hcases p P hP with ⟨rfl, rfl⟩ | ⟨rfl, rfl⟩ | ⟨hp1, hp2, hp3, P0, hP0, rfl⟩
      · rw [hs2] at hx
        obtain ⟨X, hX⟩ := hG.coherent.targets b blk hb x hx
        exact hexists x X hX (by rintro rfl; exact hself hx)
      · rw [hs1, mem_singleton] at hx; subst hx; exact ⟨_, hgs⟩
      · rw [hfs] at hx
        rcases hx with ⟨rfl, _⟩ | ⟨hx, hxb⟩
        · exact ⟨_, hgf⟩
        · obtain ⟨X, hX⟩ := hG.coherent.targets p P0 hP0 x hx
          exact hexists x X hX hxb
    · intro q Q hQ
      rcases hcases q Q hQ with ⟨rfl, rfl⟩ | ⟨rfl, rfl⟩ | ⟨hq1, hq2, hq3, Q0, hQ0, rfl⟩
      · rw [hc2]; simp
      · rw [hc1]; exact hG.coherent.once b blk hb
      · simp only [fixOther]
        split
        · exact nodup_replaceName (hG.coherent.once q Q0 hQ0) fun h => (hpredex q Q0 hQ0 _ h).2 rfl
        · exact hG.coherent.once q Q0 hQ0
    · intro x Y hY t ⟨hj, hfl⟩
      rcases hcases x Y hY with ⟨rfl, rfl⟩ | ⟨rfl, rfl⟩ | ⟨hq1, hq2, hq3, X, hX, rfl⟩
      · exact hG.noDouble b blk hb t ⟨hj, hfl⟩
      · simp [firstHalf] at hj
      · simp only [fixOther] at hj hfl
        rw [hredm] at hj hfl
        rcases hj with ⟨rfl, hj⟩ | ⟨hj, _⟩ <;> rcases hfl with ⟨h, hfl⟩ | ⟨hfl, _⟩
        · exact hG.noDouble x X hX _ ⟨hj, hfl⟩
        · exact (hsuccex x X hX _ (mem_succs.2 (Or.inr hfl))).1 rfl
        · subst h; exact (hsuccex x X hX _ (mem_succs.2 (Or.inl hj))).1 rfl
        · exact hG.noDouble x X hX _ ⟨hj, hfl⟩
    · intro q Q hQ x hx
      rcases hcases q Q hQ with ⟨rfl, rfl⟩ | ⟨rfl, rfl⟩ | ⟨hq1, hq2, hq3, Q0, hQ0, rfl⟩
      · simp [secondHalf] at hx
      · exact hG.entries b blk hb x hx
      · rw [hfc q Q0 hQ0]
        simp only [fixOther] at hx
        by_cases h : q ∈ blk.succs
        · rw [if_pos h, mem_replaceName] at hx
          rcases hx with ⟨rfl, _⟩ | ⟨hx, hxb⟩
          · exact Or.inl ⟨rfl, h⟩
          · exact Or.inr ⟨hG.entries q Q0 hQ0 x hx, hxb⟩
        · rw [if_neg h] at hx
          have hx' := hG.entries q Q0 hQ0 x hx
          refine Or.inr ⟨hx', ?_⟩
          rintro rfl
          exact h ((hG.coherent.edges x q blk Q0 hb hQ0).1 hx')
    · by_cases h : G.start = some b
      · exact ⟨firstId b, _, by rw [hst, if_pos h], hgf⟩
      · obtain ⟨s, S, h1, h2⟩ := hG.start
        have hsb : s ≠ b := by rintro rfl; exact h h1
        exact ⟨s, _, by rw [hst, if_neg h]; exact h1, hgo s S h2 hsb⟩
  refine ⟨G', _, _, hsp, hsane, hgf, hgs, take_append_drop _ _, rfl, ?_, hs2, ?_⟩
  · intro p P hP hpb
    unfold BlockList.succ
    rw [hgo p P hP hpb]
    simp only
    rw [hfs]
    constructor
    · intro h; exact Or.inl ⟨rfl, h⟩
    · rintro (⟨_, h⟩ | ⟨h, _⟩)
      · exact h
      · exact absurd rfl (hsuccex p P hP _ h).1
  · intro V W sem c hc
    refine simulation (splitConfig b) (Valid G) (fun c d _ h => valid_step hG.coherent h) ?_ hc
    intro c hc
    obtain ⟨⟨X, hX⟩, hprev⟩ := hc
    obtain ⟨hphi1, hphi2⟩ := filter_drop_phi hphi
    by_cases hcb : c.cur = b
    · -- the split block
      have hXb : X = blk := by rw [hcb, hb] at hX; cases hX; rfl
      subst hXb
      have hpn : ∀ p, c.prev = some p → p ≠ b := by
        rintro p hp rfl
        have := hprev p hp
        unfold BlockList.succ at this
        rw [hb, hcb] at this
        exact hself this
      have hprev' : (splitConfig b c).prev = c.prev := by
        unfold splitConfig
        cases hcp : c.prev with
        | none => rfl
        | some p => simp [hpn p hcp]
      have hcur' : (splitConfig b c).cur = firstId b := by simp [splitConfig, hcb]
      have hst' : (splitConfig b c).st = c.st := rfl
      have henter : enter (firstHalf k X) (splitConfig b c).prev (splitConfig b c).st.env = enter X c.prev c.st.env := by
        rw [hprev', hst']
        change enterWith ((X.instrs.take (k + 1)).filter isPhi) X.entries _ _ = _
        rw [hphi1]; rfl
      have hexec : X.instrs.filter (fun i => !isPhi i) = (firstHalf k X).instrs.filter (fun i => !isPhi i) ++
          (secondHalf k X).instrs.filter (fun i => !isPhi i) := by
        simp only [firstHalf, secondHalf]
        rw [← filter_append, take_append_drop]
      have hstep : stepBlock sem G c = match enter X c.prev c.st.env with
          | none => .stuck
          | some env => match execAll sem (X.instrs.filter fun i => !isPhi i) ⟨env, c.st.world⟩ with
            | .stop s => .halt s
            | .next s => leave sem X s := by
        unfold stepBlock; rw [hX]; rfl
      have hstep' : stepBlock sem G' (splitConfig b c) = match enter X c.prev c.st.env with
          | none => .stuck
          | some env => match execAll sem ((firstHalf k X).instrs.filter fun i => !isPhi i) ⟨env, c.st.world⟩ with
            | .stop s => .halt s
            | .next s => leave sem (firstHalf k X) s := by
        unfold stepBlock; rw [hcur', hgf]
        simp only
        rw [henter, hst']
        rfl
      rw [hstep, hstep', hexec]
      cases enter X c.prev c.st.env with
      | none => exact Or.inl rfl
      | some env =>
        simp only
        rw [execAll_append]
        cases hE : execAll sem ((firstHalf k X).instrs.filter fun i => !isPhi i) ⟨env, c.st.world⟩ with
        | stop s => exact Or.inl rfl
        | next s =>
          refine Or.inr ⟨⟨some (firstId b), secondId b, s⟩, ?_, ?_⟩
          · simp only [leave, firstHalf, hid]
          · unfold stepBlock
            simp only
            rw [hgs]
            have henter2 : enter (secondHalf k X) (some (firstId b)) s.env = some s.env := by
              change enterWith ((X.instrs.drop (k + 1)).filter isPhi) [] _ _ = _
              rw [hphi2]; rfl
            simp only [henter2]
            cases execAll sem ((secondHalf k X).instrs.filter fun i => !isPhi i) s with
            | stop s' => rfl
            | next s' =>
              simp only
              apply leave_map sem X (secondHalf k X) s' _ id (by simp [secondHalf]) (by simp [secondHalf]) rfl
              intro t ht
              have htb : t ≠ b := by rintro rfl; exact hself ht
              simp [splitConfig, htb, hid, secondHalf]
    · -- another block
      left
      have hcur' : (splitConfig b c).cur = c.cur := by simp [splitConfig, hcb]
      have hst' : (splitConfig b c).st = c.st := rfl
      have hXid := get_id hX
      have henter : enter (fixOther b blk c.cur X) (splitConfig b c).prev (splitConfig b c).st.env = enter X c.prev c.st.env := by
        rw [hst']
        change enterWith (X.instrs.filter isPhi) (fixOther b blk c.cur X).entries _ _ = enterWith _ _ _ _
        unfold enterWith
        by_cases hpz : X.instrs.filter isPhi = []
        · rw [if_pos hpz, if_pos hpz]
        · rw [if_neg hpz, if_neg hpz]
          simp only [fixOther, splitConfig]
          cases hcp : c.prev with
          | none => rfl
          | some p =>
            simp only [Option.map_some, Option.bind_some]
            have hps := hprev p hcp
            have hpe : ∃ P, G.get p = some P := by
              unfold BlockList.succ at hps
              cases hP : G.get p with
              | none => rw [hP] at hps; cases hps
              | some P => exact ⟨P, rfl⟩
            obtain ⟨P, hP⟩ := hpe
            have hidx : (if c.cur ∈ blk.succs then replaceName b (secondId b) X.entries else X.entries).idxOf?
                (if p = b then secondId b else p) = X.entries.idxOf? p := by
              by_cases hm : c.cur ∈ blk.succs
              · rw [if_pos hm]
                unfold replaceName
                apply idxOf?_map_inj (f := fun x => if x = b then secondId b else x)
                intro y hy hyp
                have hys : y ≠ secondId b := (hpredex _ X hX y (hG.entries _ X hX y hy)).2
                have hpss : p ≠ secondId b := hns p P hP
                by_cases h1 : y = b <;> by_cases h2 : p = b
                · rw [h1, h2]
                · simp only [h1, h2, if_true, if_false] at hyp; exact absurd hyp.symm hpss
                · simp only [h1, h2, if_true, if_false] at hyp; exact absurd hyp hys
                · simpa only [h1, h2, if_false] using hyp
              · rw [if_neg hm]
                have : p ≠ b := by
                  rintro rfl
                  unfold BlockList.succ at hps
                  rw [hb] at hps
                  exact hm hps
                rw [if_neg this]
            rw [hidx]
      have hstep' : stepBlock sem G' (splitConfig b c) = match enter X c.prev c.st.env with
          | none => .stuck
          | some env => match execAll sem (X.instrs.filter fun i => !isPhi i) ⟨env, c.st.world⟩ with
            | .stop s => .halt s
            | .next s => leave sem (fixOther b blk c.cur X) s := by
        unfold stepBlock; rw [hcur', hgo _ X hX hcb]
        simp only
        rw [henter, hst']
        rfl
      rw [hstep']
      unfold stepBlock
      rw [hX]
      simp only
      cases enter X c.prev c.st.env with
      | none => rfl
      | some env =>
        simp only
        cases execAll sem (X.instrs.filter fun i => !isPhi i) ⟨env, c.st.world⟩ with
        | stop s => rfl
        | next s =>
          simp only
          apply leave_map sem X (fixOther b blk c.cur X) s _ (fun x => if x = b then firstId b else x) rfl rfl rfl
          intro t ht
          have hxb : X.id ≠ b := by rw [hXid]; exact hcb
          simp [splitConfig, hxb, fixOther]

/-! ### The theorem applies, and what it leaves out -/

-- The hypotheses of `split_preserves` are met by the head of the loop, split after the phi function.
example : ∃ G', splitBlock 0 "B1" exLoop = some G' ∧ Sane G' ∧ G'.succ "B2" = ["B1f"] ∧ G'.succ "B1s" = ["B2", "B3"] := by
  obtain ⟨G', _, _, h, hs, -⟩ := split_preserves (G := exLoop) (sane_of_check (by decide +kernel)) (b := "B1") (blk := exLoop.blocks[1])
    (by decide +kernel) (by decide +kernel) (by decide +kernel) (by decide +kernel) 0 (by decide +kernel)
  refine ⟨G', h, hs, ?_⟩
  have : splitBlock 0 "B1" exLoop = some ((splitBlock 0 "B1" exLoop).get (by decide +kernel)) := by simp
  rw [this] at h
  cases h
  decide +kernel

-- ... and the split program runs as the original one.
example : (splitBlock 0 "B1" exLoop).bind (fun G => runFor exSem G 20 (init "B0" exSt)) = runFor exSem exLoop 10 (init "B0" exSt) := by
  decide +kernel

/-- A program whose second block branches to itself. -/
def exSelf : BlockList :=
  { start := some "B0"
    blocks := [
      { id := "B0", instrs := [], jumpType := "unconditional", jumpTo := some "B1" },
      { id := "B1", instrs := [⟨"gas", [], ["g"]⟩, ⟨"calldataload", ["g"], ["c"]⟩], jumpType := "conditional", jumpTo := some "B1",
        fallsTo := some "B2", cond := some "c", comesFrom := ["B0", "B1"] },
      { id := "B2", instrs := [⟨"stop", [], []⟩], jumpType := "mainExit", comesFrom := ["B1"] }] }

/-- **C22 fails for blocks that branch to themselves**: the split raises an exception (the code asserts that the block still has
itself as a successor, or looks up its first half before it is added). -/
theorem split_fails_on_self_loop : Sane exSelf ∧ splitBlock 0 "B1" exSelf = none :=
  ⟨sane_of_check (by decide +kernel), by decide +kernel⟩

/-- A conditional branch with the same target twice (its predecessor list is as the parser makes it). -/
def exDouble : BlockList :=
  { start := some "B0"
    blocks := [
      { id := "B0", instrs := [⟨"callvalue", [], ["c"]⟩], jumpType := "conditional", jumpTo := some "B1", fallsTo := some "B1",
        cond := some "c" },
      { id := "B1", instrs := [⟨"gas", [], ["g"]⟩, ⟨"sstore", ["g", "g"], []⟩], jumpType := "mainExit", comesFrom := ["B0"] }] }

/-- **C22 fails for a predecessor with two edges to the block**: only one of them is redirected, and the program gets stuck on the
other. -/
theorem split_fails_on_double_edge :
    Coherent exDouble ∧ ∃ G', splitBlock 0 "B1" exDouble = some G' ∧ G'.succ "B0" = ["B1f", "B1"] ∧ G'.get "B1" = none ∧
      (runFor exSem exDouble 5 (init "B0" exSt)).isSome = true ∧
      Wrong (stepBlock { exSem with truth := fun _ => false } G') (init "B0" exSt) := by
  refine ⟨⟨by decide +kernel, ?_, ?_, ?_, ?_⟩, (splitBlock 0 "B1" exDouble).get (by decide +kernel), by simp, by decide +kernel,
    by decide +kernel, by decide +kernel, ?_⟩
  · intro p q P Q hP hQ
    have : (exDouble.blocks.all fun P => exDouble.blocks.all fun Q => decide (P.id ∈ Q.comesFrom ↔ Q.id ∈ P.succs)) = true := by
      decide +kernel
    simp only [all_eq_true, decide_eq_true_eq] at this
    have := this P (get_mem hP) Q (get_mem hQ)
    rwa [get_id hP, get_id hQ] at this
  · intro q Q hQ x hx
    have : (exDouble.blocks.all fun Q => Q.comesFrom.all fun x => (exDouble.get x).isSome) = true := by decide +kernel
    simp only [all_eq_true, Option.isSome_iff_exists] at this
    exact this Q (get_mem hQ) x hx
  · intro q Q hQ x hx
    have : (exDouble.blocks.all fun Q => Q.succs.all fun x => (exDouble.get x).isSome) = true := by decide +kernel
    simp only [all_eq_true, Option.isSome_iff_exists] at this
    exact this Q (get_mem hQ) x hx
  · intro q Q hQ
    have : (exDouble.blocks.all fun Q => decide Q.comesFrom.Nodup) = true := by decide +kernel
    simp only [all_eq_true, decide_eq_true_eq] at this
    exact this Q (get_mem hQ)
  · exact .later rfl (.now rfl)

end Grey.Cfg
