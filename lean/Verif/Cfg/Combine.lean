/-
C24: successive merges. The renaming dictionary always leads to the block which a node has become part of, and the whole
pass preserves the program.
-/
import Verif.Cfg.Merge
import Mathlib.Logic.Relation
namespace Grey.Cfg
open List

/-! ### The union-find dictionary -/

/-- `own x` is the block that `x` has become part of; `t` bounds the length of the paths in the dictionary. -/
structure Forest (ren own : String → String) (t : String → Nat) (n : Nat) : Prop where
  root : ∀ x, ren x = x → own x = x
  up : ∀ x, ren x ≠ x → own x = own (ren x) ∧ t x < t (ren x)
  top : ∀ x, t x ≤ n

theorem Forest.own_root {ren own : String → String} {t : String → Nat} {n : Nat} (h : Forest ren own t n) :
    ∀ (k : Nat) (x : String), n - t x ≤ k → ren (own x) = own x ∧ t x ≤ t (own x) ∧ (own x = x → ren x = x) := by
  intro k
  induction k with
  | zero =>
    intro x hk
    by_cases hr : ren x = x
    · rw [h.root x hr]; exact ⟨hr, Nat.le_refl _, fun _ => hr⟩
    · have := (h.up x hr).2; have := h.top (ren x); omega
  | succ k ih =>
    intro x hk
    by_cases hr : ren x = x
    · rw [h.root x hr]; exact ⟨hr, Nat.le_refl _, fun _ => hr⟩
    · obtain ⟨ho, ht⟩ := h.up x hr
      obtain ⟨h1, h2, _⟩ := ih (ren x) (by have := h.top (ren x); omega)
      rw [ho]
      refine ⟨h1, by omega, ?_⟩
      intro he
      rw [he] at h2
      omega

theorem unionFind_spec {own : String → String} {t : String → Nat} {n : Nat} :
    ∀ (f : Nat) (ren : String → String) (x : String), Forest ren own t n → n - t x < f →
      ∃ ren', unionFind f ren x = some (own x, ren') ∧ Forest ren' own t n ∧ ∀ y, ren' y = y ↔ ren y = y := by
  intro f
  induction f with
  | zero => intro ren x _ h; omega
  | succ f ih =>
    intro ren x h hf
    unfold unionFind
    by_cases hr : ren x = x
    · rw [if_pos hr]
      exact ⟨ren, by rw [h.root x hr], h, fun _ => Iff.rfl⟩
    · rw [if_neg hr]
      obtain ⟨ho, ht⟩ := h.up x hr
      obtain ⟨ren', h1, h2, h3⟩ := ih ren (ren x) h (by have := h.top (ren x); omega)
      rw [h1]
      obtain ⟨hroot, hle, _⟩ := h.own_root _ (ren x) (Nat.le_refl _)
      have hne : own (ren x) ≠ x := by
        intro he; rw [he] at hle; omega
      refine ⟨fun y => if y = x then own (ren x) else ren' y, by rw [← ho, ho]; rfl, ⟨?_, ?_, h.top⟩, ?_⟩
      · intro y hy
        by_cases hyx : y = x
        · subst hyx; simp only [if_true] at hy; exact absurd hy hne
        · simp only [hyx, if_false] at hy; exact h2.root y hy
      · intro y hy
        by_cases hyx : y = x
        · subst hyx
          simp only [if_true]
          refine ⟨?_, by omega⟩
          rw [ho]
          exact (h.root _ hroot).symm
        · simp only [hyx, if_false] at hy ⊢
          exact h2.up y hy
      · intro y
        by_cases hyx : y = x
        · subst hyx; simp only [if_true]; exact ⟨fun h => absurd h hne, fun h => absurd h hr⟩
        · simp only [hyx, if_false]; exact h3 y

/-- Registering the merge of the roots `a` and `b`. -/
theorem Forest.merge {ren own : String → String} {t : String → Nat} {n : Nat} (h : Forest ren own t n) {a b : String}
    (ha : own a = a) (hb : own b = b) (hne : a ≠ b) :
    ∃ t', Forest (fun y => if y = a ∨ y = b then a else ren y) (fun x => if own x = b then a else own x) t' (n + 1) := by
  have hra : ren a = a := (h.own_root _ a (Nat.le_refl _)).2.2 ha
  have hrb : ren b = b := (h.own_root _ b (Nat.le_refl _)).2.2 hb
  refine ⟨fun x => if ren x = x ∧ x ≠ b then n + 1 else t x, ?_, ?_, ?_⟩
  · intro x hx
    by_cases hxa : x = a
    · subst hxa; simp [ha, hne]
    · by_cases hxb : x = b
      · subst hxb; simp only [or_true, if_true] at hx; exact absurd hx.symm hxa
      · simp only [hxa, hxb, or_self, if_false] at hx
        have := h.root x hx
        simp [this, hxb]
  · intro x hx
    by_cases hxa : x = a
    · subst hxa; simp at hx
    · by_cases hxb : x = b
      · subst hxb
        simp only [or_true, if_true, hb, ha, hne, if_false]
        refine ⟨trivial, ?_⟩
        simp only [hrb, ne_eq, not_true, and_false, if_false, hra, hne, not_false_iff, and_self, if_true]
        exact Nat.lt_succ_of_le (h.top x)
      · simp only [hxa, hxb, or_self, if_false] at hx ⊢
        obtain ⟨h1, h2⟩ := h.up x hx
        refine ⟨by rw [h1], ?_⟩
        simp only [hx, false_and, if_false]
        split
        · exact Nat.lt_succ_of_le (h.top x)
        · exact h2
  · intro x
    split
    · exact Nat.le_refl _
    · exact Nat.le_succ_of_le (h.top x)

/-! ### The pass -/

/-- What is required of the graph besides being well-formed, for the pairs `P` that will be merged: a block merged into its
predecessor is not the entry and has no phi functions, and no run of merged blocks ends in a branch back to its head. -/
structure Runs (G : BlockList) (P : String → String → Prop) : Prop where
  only : ∀ u v, P u v → (∀ x, x ∈ G.succ u ↔ x = v) ∧ ∀ x, v ∈ G.succ x ↔ x = u
  start : ∀ u v, P u v → G.start ≠ some v
  noPhi : ∀ u v, P u v → ∀ B, G.get v = some B → ∀ i ∈ B.instrs, isPhi i = false
  noLoop : ∀ h w, Relation.TransGen P h w → h ∉ G.succ w

/-- The state of the loop: `H` is the current graph, obtained from `G`. -/
structure LoopInv (G : BlockList) (P : String → String → Prop) (own : String → String) (H : BlockList) (rest : List (String × String)) :
    Prop where
  sane : Sane H
  start : H.start = G.start
  chain : ∀ x, Relation.ReflTransGen P (own x) x
  idem : ∀ x, own (own x) = own x
  gone : ∀ x, G.get x = none → own x = x
  alive : ∀ x, (∃ X, H.get x = some X) ↔ (own x = x ∧ ∃ X, G.get x = some X)
  tail : ∀ x X, H.get x = some X → ∃ w, Relation.ReflTransGen P x w ∧ own w = x ∧ X.succs = G.succ w
  pairs : ∀ p ∈ rest, own p.2 = p.2 ∧ (∀ X, H.get (own p.1) = some X → ∀ x, x ∈ X.succs ↔ x = p.2) ∧
    (∀ X, H.get p.2 = some X → (∀ x, x ∈ X.comesFrom ↔ x = own p.1) ∧ ∀ i ∈ X.instrs, isPhi i = false)

theorem loop_step {G : BlockList} {P : String → String → Prop} {own : String → String} {H : BlockList}
    {rest : List (String × String)} {u v : String} (hR : Runs G P) (hexu : ∃ X, G.get u = some X) (hexv : ∃ X, G.get v = some X)
    (hP : P u v) (hsec : ∀ p ∈ rest, p.2 ≠ v)
    (h : LoopInv G P own H ((u, v) :: rest)) :
    own u ≠ v ∧ (∃ A B, Mergeable H (own u) v A B) ∧ ∃ H', mergeBlocks (own u) v H = some H' ∧ LoopInv G P (fun x => if own x = v then own u else own x) H' rest ∧
      ∀ (V W : Type) (sem : Sem V W) (s : String) (st : St V W), G.start = some s →
        SameBehaviour (stepBlock sem H) (init s st) (stepBlock sem H') (init s st) := by
  obtain ⟨hv, hsu, hpv⟩ := h.pairs (u, v) mem_cons_self
  simp only at hv hsu hpv
  have hexo : ∃ X, G.get (own u) = some X := by
    cases hg : G.get (own u) with
    | some X => exact ⟨X, rfl⟩
    | none =>
      exfalso
      rcases Relation.ReflTransGen.cases_head (h.chain u) with he | ⟨c, hc, _⟩
      · obtain ⟨X, hX⟩ := hexu; rw [he, hX] at hg; cases hg
      · have := (((hR.only _ _ hc).1 c).2 rfl)
        unfold BlockList.succ at this
        rw [hg] at this; cases this
  obtain ⟨A, hA⟩ := (h.alive (own u)).2 ⟨h.idem u, hexo⟩
  obtain ⟨B, hB⟩ := (h.alive v).2 ⟨hv, hexv⟩
  have htr : Relation.TransGen P (own u) v := Relation.TransGen.tail' (h.chain u) hP
  have hne : own u ≠ v := by
    intro he
    rw [he] at htr
    rcases Relation.TransGen.tail'_iff.1 htr with ⟨c, hc, hcv⟩
    have hvc : v ∈ G.succ c := ((hR.only c v hcv).1 v).2 rfl
    rcases Relation.reflTransGen_iff_eq_or_transGen.1 hc with hc' | hc'
    · rw [hc'] at hvc hcv
      exact hR.noLoop v v (Relation.TransGen.single hcv) hvc
    · exact hR.noLoop v c hc' hvc
  have hloop : own u ∉ B.succs := by
    obtain ⟨w, hw1, hw2, hw3⟩ := h.tail v B hB
    rw [hw3]
    exact hR.noLoop _ _ (Relation.TransGen.trans_left htr hw1)
  have hm : Mergeable H (own u) v A B :=
    ⟨hA, hB, hne, hsu A hA, (hpv B hB).1, by rw [h.start]; exact hR.start u v hP, hloop, (hpv B hB).2⟩
  obtain ⟨H', hmg, hst', _, hget'⟩ := merge_spec h.sane hm
  obtain ⟨H'', M, hmg', hsane', -, -, -, -, -, hmc, -, hbeh⟩ := merge_preserves h.sane hm
  rw [hmg] at hmg'
  cases hmg'
  have hgo : H'.get (own u) = some (mergedBlock A B) := by rw [hget', if_pos rfl]
  have hmcA : (mergedBlock A B).comesFrom = A.comesFrom := by
    have hAid := get_id hA
    have hfil : (B.comesFrom.filter fun p => p != A.id) = [] := by
      rw [filter_eq_nil_iff, hAid]; intro p hp; rw [(hm.preds p).1 hp]; simp
    simp only [mergedBlock, hfil, append_nil]
  refine ⟨hne, ⟨A, B, hm⟩, H', hmg, ⟨hsane', hst'.trans h.start, ?_, ?_, ?_, ?_, ?_, ?_⟩, ?_⟩
  · intro x
    by_cases hx : own x = v
    · simp only [hx, if_true]
      have := h.chain x
      rw [hx] at this
      exact htr.to_reflTransGen.trans this
    · simp only [hx, if_false]; exact h.chain x
  · intro x
    by_cases hx : own x = v
    · simp only [hx, if_true, h.idem, hne, if_false]
    · simp only [hx, if_false, h.idem]
  · intro x hx
    have := h.gone x hx
    by_cases hxv : own x = v
    · obtain ⟨X, hX⟩ := hexv
      rw [this] at hxv; rw [hxv, hX] at hx; cases hx
    · simp only [hxv, if_false]; exact this
  · intro x
    by_cases hxu : x = own u
    · subst hxu
      simp only [h.idem, hne, if_false, true_and]
      exact ⟨fun _ => hexo, fun _ => ⟨_, hgo⟩⟩
    · by_cases hxv : x = v
      · subst hxv
        simp only [hv, if_true]
        rw [hget', if_neg hxu, if_pos rfl]
        constructor
        · rintro ⟨_, h⟩; cases h
        · rintro ⟨he, _⟩; exact absurd he hne
      · rw [hget', if_neg hxu, if_neg hxv]
        have := h.alive x
        have hl : (∃ X, (H.get x).map (fixMerge (own u) v B x) = some X) ↔ ∃ X, H.get x = some X := by
          cases H.get x <;> simp
        rw [hl, this]
        by_cases hox : own x = v
        · simp only [hox, if_true]
          constructor
          · rintro ⟨he, _⟩; exact absurd he.symm hxv
          · rintro ⟨he, _⟩; exact absurd he.symm hxu
        · simp only [hox, if_false]
  · intro x X hX
    by_cases hxu : x = own u
    · subst hxu
      rw [hgo] at hX
      cases hX
      obtain ⟨w, hw1, hw2, hw3⟩ := h.tail v B hB
      exact ⟨w, htr.to_reflTransGen.trans hw1, by simp [hw2], hw3⟩
    · rw [hget', if_neg hxu] at hX
      by_cases hxv : x = v
      · rw [if_pos hxv] at hX; cases hX
      · rw [if_neg hxv] at hX
        obtain ⟨X0, hX0, rfl⟩ := Option.map_eq_some_iff.1 hX
        obtain ⟨w, hw1, hw2, hw3⟩ := h.tail x X0 hX0
        refine ⟨w, hw1, ?_, hw3⟩
        simp only [hw2, hxv, if_false]
  · intro p hp
    obtain ⟨h1, h2, h3⟩ := h.pairs p (mem_cons_of_mem _ hp)
    have hpv' := hsec p hp
    have hone : own p.1 ≠ own u := by
      intro he
      have := h2 A (by rw [he]; exact hA) v
      exact hpv' (this.1 ((hsu A hA v).2 rfl)).symm
    refine ⟨by simp only [h1, hpv', if_false], ?_, ?_⟩
    · intro X hX
      by_cases hov : own p.1 = v
      · simp only [hov, if_true] at hX
        rw [hgo] at hX
        cases hX
        intro x
        exact h2 B (by rw [hov]; exact hB) x
      · simp only [hov, if_false] at hX
        rw [hget', if_neg hone, if_neg hov] at hX
        obtain ⟨X0, hX0, rfl⟩ := Option.map_eq_some_iff.1 hX
        exact h2 X0 hX0
    · intro X hX
      by_cases hpu : p.2 = own u
      · rw [hpu, hgo] at hX
        cases hX
        have h3' := h3 A (by rw [hpu]; exact hA)
        have hov : own p.1 ≠ v := by
          intro hov
          have hin : v ∈ A.comesFrom := (h3'.1 v).2 hov.symm
          exact hloop ((h.sane.coherent.edges v (own u) B A hB hA).1 hin)
        refine ⟨?_, ?_⟩
        · intro x
          rw [hmcA]
          simp only [hov, if_false]
          exact h3'.1 x
        · intro i hi
          have hi' : i ∈ A.instrs ++ B.instrs := hi
          rcases mem_append.1 hi' with hi | hi
          · exact h3'.2 i hi
          · exact (hpv B hB).2 i hi
      · rw [hget', if_neg hpu, if_neg hpv'] at hX
        obtain ⟨X0, hX0, rfl⟩ := Option.map_eq_some_iff.1 hX
        have h3' := h3 X0 hX0
        refine ⟨?_, h3'.2⟩
        intro x
        have hedge := h.sane.coherent.edges v p.2 B X0 hB hX0
        simp only [fixMerge]
        by_cases hov : own p.1 = v
        · have hmem : p.2 ∈ B.succs := hedge.1 ((h3'.1 v).2 hov.symm)
          rw [if_pos hmem, mem_replaceName, if_pos hov, h3'.1, h3'.1, hov]
          simp
        · have hmem : p.2 ∉ B.succs := fun hm' => hov ((h3'.1 v).1 (hedge.2 hm')).symm
          rw [if_neg hmem, if_neg hov]
          exact h3'.1 x
  · intro V W sem s st hs
    have hvalid : Valid H' (init s st : Config V W) := by
      obtain ⟨s', S, hs1, hs2⟩ := hsane'.start
      rw [hst', h.start, hs] at hs1
      cases hs1
      exact ⟨⟨S, hs2⟩, by intro p hp; cases hp⟩
    exact ((hbeh V W sem (init s st) hvalid).1).symm

theorem mergeLoop_spec {G : BlockList} {P : String → String → Prop} (hR : Runs G P) (n : Nat) :
    ∀ (ps : List (String × String)) (H : BlockList) (ren own : String → String) (t : String → Nat) (k : Nat),
      Forest ren own t k → k + ps.length < n → LoopInv G P own H ps →
      (∀ p ∈ ps, P p.1 p.2 ∧ (∃ X, G.get p.1 = some X) ∧ ∃ X, G.get p.2 = some X) → (ps.map (·.2)).Nodup →
      ∃ H' own', mergeLoop n ps H ren = some H' ∧ LoopInv G P own' H' [] ∧ (∀ p ∈ ps, own' p.1 = own' p.2) ∧
        (∀ x y, own x = own y → own' x = own' y) ∧
        (∀ R : BlockList → BlockList → Prop, (∀ X, R X X) → (∀ X Y Z, R X Y → R Y Z → R X Z) →
          (∀ X a b A B X', Sane X → Mergeable X a b A B → mergeBlocks a b X = some X' → R X X') → R H H') ∧
        ∀ (V W : Type) (sem : Sem V W) (s : String) (st : St V W), G.start = some s →
          SameBehaviour (stepBlock sem H) (init s st) (stepBlock sem H') (init s st) := by
  intro ps
  induction ps with
  | nil =>
    intro H ren own t k hF hk hI hP hnd
    exact ⟨H, own, rfl, hI, by simp, fun _ _ h => h, fun R h1 _ _ => h1 H, fun _ _ _ _ _ _ => ⟨fun _ => Iff.rfl, Iff.rfl⟩⟩
  | cons p ps ih =>
    obtain ⟨u, v⟩ := p
    intro H ren own t k hF hk hI hP hnd
    simp only [length_cons] at hk
    obtain ⟨hPuv, hexu, hexv⟩ := hP (u, v) mem_cons_self
    simp only [map_cons, nodup_cons] at hnd
    obtain ⟨r1, hr1, hF1, _⟩ := unionFind_spec n ren u hF (by omega)
    obtain ⟨r2, hr2, hF2, _⟩ := unionFind_spec n r1 v hF1 (by omega)
    have hv : own v = v := (hI.pairs (u, v) mem_cons_self).1
    obtain ⟨hne, ⟨A, B, hAB⟩, H', hm, hI', hbeh⟩ := loop_step hR hexu hexv hPuv
      (fun p hp he => hnd.1 (mem_map.2 ⟨p, hp, he⟩)) hI
    obtain ⟨t', hF'⟩ := hF2.merge (hI.idem u) hv hne
    obtain ⟨H'', own', h1, h2, h3, h4, h6, h5⟩ := ih H' _ _ t' (k + 1) hF' (by omega) hI'
      (fun p hp => hP p (mem_cons_of_mem _ hp)) hnd.2
    refine ⟨H'', own', ?_, h2, ?_, ?_, ?_, ?_⟩
    · unfold mergeLoop
      rw [hr1]
      simp only [Option.bind_some]
      rw [hr2]
      simp only [Option.bind_some, hv]
      rw [hm]
      simp only [Option.bind_some]
      exact h1
    · intro p hp
      rcases mem_cons.1 hp with rfl | hp
      · apply h4
        simp [hv, hne]
      · exact h3 p hp
    · intro x y hxy
      apply h4
      simp [hxy]
    · intro R r1 r2 r3
      exact r2 _ _ _ (r3 H _ _ A B H' hI.sane hAB hm) (h6 R r1 r2 r3)
    · intro V W sem s st hs
      exact (hbeh V W sem s st hs).trans (h5 V W sem s st hs)

theorem mem_nodes_of_get {G : BlockList} {x : String} {X : Block} (h : G.get x = some X) : x ∈ G.nodes :=
  mem_append.2 (Or.inl (get_isSome_iff.1 ⟨X, h⟩))

theorem nodes_of_coherent {G : BlockList} (h : Coherent G) : G.nodes = G.blocks.map (·.id) := by
  unfold BlockList.nodes
  have : (G.blocks.flatMap (·.succs)).filter (fun x => !G.blocks.any fun y => y.id == x) = [] := by
    rw [filter_eq_nil_iff]
    intro x hx
    obtain ⟨b, hb, hxb⟩ := mem_flatMap.1 hx
    obtain ⟨B, hB⟩ := get_isSome_iff.2 (mem_map.2 ⟨b, hb, rfl⟩)
    have hbB : b = B := by
      have h1 := get_mem hB
      have h2 := get_id hB
      exact inj_on_of_nodup_map h.ids hb h1 h2.symm
    subst hbB
    obtain ⟨Q, hQ⟩ := h.targets _ _ hB x hxb
    have : G.blocks.any (fun y => y.id == x) = true := by
      rw [any_eq_true]; exact ⟨Q, get_mem hQ, by simpa using get_id hQ⟩
    simp [this]
  rw [this, append_nil]

/-- The pairs found by the code: `v` is the only successor of `u` and `u` the only predecessor of `v`. -/
theorem nodesToMerge_spec {names : List String} {G : BlockList} {u v : String}
    (h : (u, v) ∈ nodesToMerge names G) :
    (∃ A, G.get u = some A) ∧ (∃ B, G.get v = some B) ∧ (∀ x, x ∈ G.succ u ↔ x = v) ∧ ∀ x, v ∈ G.succ x ↔ x = u := by
  unfold nodesToMerge at h
  obtain ⟨u', hu', hm⟩ := mem_filterMap.1 h
  split at hm
  · rename_i A w hA hw
    split at hm
    · rename_i B hB
      split at hm
      · rename_i hc
        simp only [Option.some.injEq, Prod.mk.injEq] at hm
        obtain ⟨rfl, rfl⟩ := hm
        have hsu : ∀ x, x ∈ G.succ u' ↔ x = w := by
          intro x
          rw [← mem_eraseDups, hw]; simp
        refine ⟨⟨A, hA⟩, ⟨B, hB⟩, hsu, ?_⟩
        simp only [Bool.and_eq_true, decide_eq_true_eq] at hc
        have hdeg := hc.1
        unfold BlockList.inDegree at hdeg
        have hwu : w ∈ G.succ u' := (hsu w).2 rfl
        intro x
        constructor
        · intro hx
          have hxn : x ∈ G.nodes := by
            cases hg : G.get x with
            | none => unfold BlockList.succ at hx; rw [hg] at hx; cases hx
            | some X => exact mem_nodes_of_get hg
          obtain ⟨z, hz⟩ := length_eq_one_iff.1 hdeg
          have h1 : x ∈ G.nodes.filter fun p => decide (w ∈ G.succ p) := mem_filter.2 ⟨hxn, by simpa using hx⟩
          have h2 : u' ∈ G.nodes.filter fun p => decide (w ∈ G.succ p) := mem_filter.2 ⟨hu', by simpa using hwu⟩
          rw [hz, mem_singleton] at h1 h2
          rw [h1, h2]
        · rintro rfl; exact hwu
      · cases hm
    · cases hm
  · cases hm

theorem nodesToMerge_nodup {names : List String} {G : BlockList} (hG : Coherent G) :
    ((nodesToMerge names G).map (·.2)).Nodup := by
  have hfst : ((nodesToMerge names G).map (·.1)).Nodup := by
    have hn : G.nodes.Nodup := by rw [nodes_of_coherent hG]; exact hG.ids
    have : (nodesToMerge names G).map (·.1) <+ G.nodes := by
      unfold nodesToMerge
      rw [map_filterMap]
      generalize G.nodes = l
      induction l with
      | nil => simp
      | cons a l ih =>
        rw [filterMap_cons]
        split
        · exact ih.cons _
        · rename_i b hb
          have : b = a := by
            simp only [Option.map_eq_some_iff] at hb
            obtain ⟨p, hp, rfl⟩ := hb
            split at hp
            · split at hp
              · split at hp
                · cases hp; rfl
                · cases hp
              · cases hp
            · cases hp
          rw [this]
          exact ih.cons_cons _
    exact this.nodup hn
  have hnd : (nodesToMerge names G).Nodup := Nodup.of_map _ hfst
  apply Nodup.map_on ?_ hnd
  intro p hp q hq he
  obtain ⟨u, v⟩ := p
  obtain ⟨u', v'⟩ := q
  simp only at he
  subst he
  have h1 := nodesToMerge_spec hp
  have h2 := nodesToMerge_spec hq
  have : u = u' := (h2.2.2.2 u).1 ((h1.2.2.1 v).2 rfl)
  rw [this]

/-- What the pass does: merges of pairs of blocks that satisfy `Mergeable`, one after another. -/
theorem combine_core {names : List String} {G : BlockList} (hG : Sane G)
    (hstart : ∀ p ∈ nodesToMerge names G, G.start ≠ some p.2)
    (hphi : ∀ p ∈ nodesToMerge names G, ∀ B, G.get p.2 = some B → ∀ i ∈ B.instrs, isPhi i = false)
    (hloop : ∀ h w, Relation.TransGen (fun u v => (u, v) ∈ nodesToMerge names G) h w → h ∉ G.succ w) :
    ∃ G', combineBlocks names G = some G' ∧ Sane G' ∧ G'.start = G.start ∧
      (∃ own : String → String, (∀ p ∈ nodesToMerge names G, own p.1 = own p.2) ∧
        (∀ x, Relation.ReflTransGen (fun u v => (u, v) ∈ nodesToMerge names G) (own x) x) ∧
        ∀ x, (∃ X, G'.get x = some X) ↔ own x = x ∧ ∃ X, G.get x = some X) ∧
      (∀ R : BlockList → BlockList → Prop, (∀ X, R X X) → (∀ X Y Z, R X Y → R Y Z → R X Z) →
        (∀ X a b A B X', Sane X → Mergeable X a b A B → mergeBlocks a b X = some X' → R X X') → R G G') ∧
      ∀ (V W : Type) (sem : Sem V W) (s : String) (st : St V W), G.start = some s →
        SameBehaviour (stepBlock sem G) (init s st) (stepBlock sem G') (init s st) := by
  have hR : Runs G (fun u v => (u, v) ∈ nodesToMerge names G) :=
    ⟨fun u v h => (nodesToMerge_spec h).2.2, fun u v h => hstart _ h, fun u v h => hphi _ h, hloop⟩
  have hF : Forest id id (fun _ => 0) 0 := ⟨fun _ _ => rfl, fun x h => absurd rfl h, fun _ => Nat.le_refl _⟩
  have hsucc : ∀ x X, G.get x = some X → X.succs = G.succ x := by
    intro x X hX; unfold BlockList.succ; rw [hX]
  have hI : LoopInv G (fun u v => (u, v) ∈ nodesToMerge names G) id G (nodesToMerge names G) := by
    refine ⟨hG, rfl, fun x => .refl, fun x => rfl, fun _ _ => rfl, fun x => by simp, ?_, ?_⟩
    · intro x X hX; exact ⟨x, .refl, rfl, hsucc x X hX⟩
    · intro p hp
      obtain ⟨⟨A, hA⟩, ⟨B, hB⟩, h1, h2⟩ := nodesToMerge_spec (u := p.1) (v := p.2) hp
      refine ⟨rfl, ?_, ?_⟩
      · intro X hX x
        rw [hsucc _ X hX]; exact h1 x
      · intro X hX
        refine ⟨?_, hphi p hp X hX⟩
        intro x
        constructor
        · intro hx
          obtain ⟨Q, hQ⟩ := hG.coherent.preds _ X hX x hx
          have := (hG.coherent.edges x p.2 Q X hQ hX).1 hx
          rw [hsucc x Q hQ] at this
          exact (h2 x).1 this
        · intro hx
          have hx' : x = p.1 := hx
          subst hx'
          refine (hG.coherent.edges p.1 p.2 A X hA hX).2 ?_
          rw [hsucc _ A hA]; exact (h1 _).2 rfl
  obtain ⟨H', own', h1, h2, h3, _, h6, h5⟩ := mergeLoop_spec hR ((nodesToMerge names G).length + 1) (nodesToMerge names G) G id id
    (fun _ => 0) 0 hF (by omega) hI
    (fun p hp => by
      obtain ⟨u, v⟩ := p
      have := nodesToMerge_spec hp
      exact ⟨hp, this.1, this.2.1⟩)
    (nodesToMerge_nodup hG.coherent)
  exact ⟨H', h1, h2.sane, h2.start, ⟨own', h3, h2.chain, h2.alive⟩, h6, h5⟩

/-- **C24.** Merge all pairs that the code finds, in the order of the nodes of the graph, where the blocks of later pairs may
have been merged before. If no second block of a pair is the entry or has phi functions and no run of merged blocks ends
in a branch back to its head, then no step fails, the graph stays well-formed with the same entry, of each pair both nodes
are in the same block in the end, and the program behaves as before. -/
theorem combine_preserves {names : List String} {G : BlockList} (hG : Sane G)
    (hstart : ∀ p ∈ nodesToMerge names G, G.start ≠ some p.2)
    (hphi : ∀ p ∈ nodesToMerge names G, ∀ B, G.get p.2 = some B → ∀ i ∈ B.instrs, isPhi i = false)
    (hloop : ∀ h w, Relation.TransGen (fun u v => (u, v) ∈ nodesToMerge names G) h w → h ∉ G.succ w) :
    ∃ G', combineBlocks names G = some G' ∧ Sane G' ∧ G'.start = G.start ∧
      (∃ own : String → String, (∀ p ∈ nodesToMerge names G, own p.1 = own p.2) ∧
        (∀ x, Relation.ReflTransGen (fun u v => (u, v) ∈ nodesToMerge names G) (own x) x) ∧
        ∀ x, (∃ X, G'.get x = some X) ↔ own x = x ∧ ∃ X, G.get x = some X) ∧
      ∀ (V W : Type) (sem : Sem V W) (s : String) (st : St V W), G.start = some s →
        SameBehaviour (stepBlock sem G) (init s st) (stepBlock sem G') (init s st) := by
  obtain ⟨G', h1, h2, h3, h4, -, h5⟩ := combine_core hG hstart hphi hloop
  exact ⟨G', h1, h2, h3, h4, h5⟩

/-- A sufficient condition for the third hypothesis that can be computed. -/
theorem noLoop_of_check {l : List (String × String)} {G : BlockList} (h : ∀ p ∈ l, ∀ q ∈ l, p.1 ∉ G.succ q.2) :
    ∀ a w, Relation.TransGen (fun u v => (u, v) ∈ l) a w → a ∉ G.succ w := by
  intro a w ht
  obtain ⟨c, hc, -⟩ := Relation.TransGen.head'_iff.1 ht
  obtain ⟨d, -, hd⟩ := Relation.TransGen.tail'_iff.1 ht
  exact h _ hc _ hd

-- Three blocks in a row, `A` last in the node order, so that the second merge uses the dictionary.
def exRun : BlockList := { exLine with blocks := exLine.blocks.reverse }

example : nodesToMerge [] exRun = [("A", "B"), ("B0", "A")] := by decide +kernel

example : ∃ G', combineBlocks [] exRun = some G' ∧ Sane G' ∧ G'.blocks.map (·.id) = ["B3", "B2", "B1", "B0"] ∧
    (G'.get "B0").map (·.instrs.map (·.op)) = some ["calldatasize", "gas", "calldataload"] := by
  obtain ⟨G', h, hs, -⟩ := combine_preserves (names := []) (G := exRun) (sane_of_check (by decide +kernel)) (by decide +kernel)
    (by
      intro p hp B hB
      have hl : nodesToMerge [] exRun = [("A", "B"), ("B0", "A")] := by decide +kernel
      rw [hl] at hp
      simp only [mem_cons, not_mem_nil, or_false] at hp
      rcases hp with rfl | rfl
      · have : exRun.get "B" = some exLine.blocks[2] := by decide +kernel
        rw [this] at hB; cases hB; decide
      · have : exRun.get "A" = some exLine.blocks[1] := by decide +kernel
        rw [this] at hB; cases hB; decide)
    (noLoop_of_check (by decide +kernel))
  refine ⟨G', h, hs, ?_⟩
  have : combineBlocks [] exRun = some ((combineBlocks [] exRun).get (by decide +kernel)) := by simp
  rw [this] at h
  cases h
  decide +kernel

-- The pass fails on a graph whose entry is the target of a pair (C23, `merge_loses_entry`): the removal that follows has no start.
theorem combineRemove_fails_on_entry : Sane exEntry ∧ combineRemove [] exEntry = none :=
  ⟨sane_of_check (by decide +kernel), by decide +kernel⟩

end Grey.Cfg
