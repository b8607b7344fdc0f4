/-
Combining blocks and removing blocks keeps what the lowering needs, and leaves no first halves but those that end with calls.
-/
import Verif.Front.Inline
namespace Grey.Front
open List Grey.Cfg Grey.Inline Grey.Prep Grey.Lower

/-- More properties of the graph of a component: `P` holds for its instructions, `Q` for conditions, and it returns if `ret`. -/
structure Whole (names : List String) (R : String → Prop) (main : Bool) (P : Instr → Prop) (Q : String → Prop) (ret : Prop) (G : BlockList) :
    Prop where
  part : Part names R main G
  shape : ∀ x X, G.get x = some X → ∀ i ∈ phis X, i.ins.length = X.entries.length ∧ ∃ v, i.outs = [v]
  first : ∀ x X, G.get x = some X → X.instrs = phis X ++ code X
  outs : ∀ x X, G.get x = some X → ((phis X).flatMap (·.outs)).Nodup
  onlyReturns : ∀ x X, G.get x = some X → ∀ j i, X.instrs[j]? = some i → i.op = "functionReturn" →
    X.jumpType = "FunctionReturn" ∧ j + 1 = X.instrs.length
  noSelf : ∀ x X, G.get x = some X → x ∉ X.succs
  start : ∀ s T, G.start = some s → G.get s = some T → phis T = []
  instrs : ∀ x X, G.get x = some X → ∀ i ∈ X.instrs, P i
  conds : ∀ x X, G.get x = some X → ∀ v, X.cond = some v → Q v
  returns : (∃ x X, G.get x = some X ∧ X.jumpType = "FunctionReturn") ↔ ret

/-- Where a block comes from: it ends like a block of `G`. -/
def EndsLike (G G' : BlockList) : Prop :=
  ∀ x X', G'.get x = some X' → ∃ w W pre, G.get w = some W ∧ X'.instrs = pre ++ W.instrs ∧ X'.jumpType = W.jumpType ∧ X'.jumpTo = W.jumpTo ∧
    X'.fallsTo = W.fallsTo

section
variable {names : List String} {R : String → Prop} {main : Bool} {P : Instr → Prop} {Q : String → Prop} {ret : Prop}
  {G G' : BlockList} {a b : String} {A B : Block}

/-- The blocks after a merge. -/
theorem merge_kinds (m : Mergeable G a b A B)
    (hget : ∀ x, G'.get x = if x = a then some (mergedBlock A B) else if x = b then none else (G.get x).map (fixMerge a b B x))
    {x : String} {X' : Block} (hX : G'.get x = some X') :
    (x = a ∧ X' = mergedBlock A B) ∨ (x ≠ a ∧ x ≠ b ∧ ∃ X, G.get x = some X ∧ X' = fixMerge a b B x X) := by
  rw [hget] at hX
  split at hX
  · next h => exact Or.inl ⟨h, (Option.some.inj hX).symm⟩
  · next h =>
    split at hX
    · cases hX
    · next h2 =>
      obtain ⟨X, h3, h4⟩ := Option.map_eq_some_iff.1 hX
      exact Or.inr ⟨h, h2, X, h3, h4.symm⟩

theorem merge_edge (m : Mergeable G a b A B)
    (hget : ∀ x, G'.get x = if x = a then some (mergedBlock A B) else if x = b then none else (G.get x).map (fixMerge a b B x))
    {u v : String} : v ∈ G'.succ u ↔ (u = a ∧ v ∈ B.succs) ∨ (u ≠ a ∧ u ≠ b ∧ v ∈ G.succ u) := by
  rw [mem_succ]
  constructor
  · rintro ⟨U, hU, hv⟩
    rcases merge_kinds m hget hU with ⟨rfl, rfl⟩ | ⟨h1, h2, X, hX, rfl⟩
    · exact Or.inl ⟨rfl, hv⟩
    · exact Or.inr ⟨h1, h2, mem_succ.2 ⟨X, hX, hv⟩⟩
  · rintro (⟨rfl, hv⟩ | ⟨h1, h2, hv⟩)
    · exact ⟨mergedBlock A B, by rw [hget, if_pos rfl], hv⟩
    · obtain ⟨X, hX, hv⟩ := mem_succ.1 hv
      exact ⟨fixMerge a b B u X, by rw [hget, if_neg h1, if_neg h2, hX]; rfl, hv⟩

theorem merge_reach (m : Mergeable G a b A B) (hb : ∀ x, b ∈ G.succ x → x = a)
    (hget : ∀ x, G'.get x = if x = a then some (mergedBlock A B) else if x = b then none else (G.get x).map (fixMerge a b B x))
    {s x : String} (hs : s ≠ b) (h : Graph.Reach G.succ s x) : Graph.Reach G'.succ s (if x = b then a else x) := by
  induction h with
  | refl => rw [if_neg hs]; exact .refl
  | tail _ he ih =>
    rename_i u v _
    by_cases hv : v = b
    · subst hv
      rw [if_pos rfl]
      have := hb u he
      subst this
      rwa [if_neg m.ne] at ih
    · rw [if_neg hv]
      refine ih.tail ((merge_edge m hget).2 ?_)
      by_cases hu : u = b
      · subst hu
        rw [if_pos rfl]
        obtain ⟨U, hU, hv'⟩ := mem_succ.1 he
        rw [m.getB] at hU
        cases hU
        exact Or.inl ⟨rfl, hv'⟩
      · rw [if_neg hu]
        by_cases hua : u = a
        · subst hua
          obtain ⟨U, hU, hv'⟩ := mem_succ.1 he
          rw [m.getA] at hU
          cases hU
          exact absurd ((m.succs v).1 hv') hv
        · exact Or.inr ⟨hua, hu, he⟩

theorem merged_phis (m : Mergeable G a b A B) : phis (mergedBlock A B) = phis A := by
  show (A.instrs ++ B.instrs).filter isPhi = _
  rw [filter_append, show B.instrs.filter isPhi = [] from filter_eq_nil_iff.2 fun i hi => by rw [m.noPhi i hi]; simp, append_nil]
  rfl

theorem merged_code (m : Mergeable G a b A B) : code (mergedBlock A B) = code A ++ B.instrs := by
  show (A.instrs ++ B.instrs).filter _ = _
  rw [filter_append, show B.instrs.filter (fun i => !isPhi i) = B.instrs from filter_eq_self.2 fun i hi => by rw [m.noPhi i hi]; rfl]
  rfl

/-- Merging two blocks keeps the properties. -/
theorem merge_whole (hG : Sane G) (m : Mergeable G a b A B) (he : mergeBlocks a b G = some G') (W : Whole names R main P Q ret G) :
    Whole names R main P Q ret G' ∧ EndsLike G G' := by
  obtain ⟨G2, h1, hst, -, hget⟩ := merge_spec hG m
  rw [he] at h1
  obtain rfl := Option.some.inj h1
  have hAB : b ∈ G.succ a := mem_succ.2 ⟨A, m.getA, (m.succs b).2 rfl⟩
  have hAsu : A.succs ≠ [] := fun h0 => by have := (m.succs b).2 rfl; rw [h0] at this; cases this
  have hbpred : ∀ x, b ∈ G.succ x → x = a := by
    intro x hx
    obtain ⟨X, hX, hb⟩ := mem_succ.1 hx
    exact (m.preds x).1 ((hG.coherent.edges x b X B hX m.getB).2 hb)
  have hBfull : ¬ (B.instrs = [] ∧ B.succs = []) := fun h0 => W.part.full b B m.getB h0.2 h0.1 a hAB
  have hAid := get_id m.getA
  have hAret : A.jumpType ≠ "FunctionReturn" := by
    intro hj
    have := exits_kind (W.part.kinds a A m.getA) hj
    exact hAsu (succs_nil.2 ⟨this.2.1, this.2.2.1⟩)
  have hkinds := fun {x X'} => merge_kinds (x := x) (X' := X') m hget
  refine ⟨⟨⟨?_, ?_, ?_, ?_, ?_⟩, ?_, ?_, ?_, ?_, ?_, ?_, ?_, ?_, ?_⟩, ?_⟩
  · intro x X' hX' j i hj
    rcases hkinds hX' with ⟨rfl, rfl⟩ | ⟨_, _, X, hX, rfl⟩
    · have hj' : (A.instrs ++ B.instrs)[j]? = some i := hj
      have hl : (mergedBlock A B).instrs.length = A.instrs.length + B.instrs.length := by
        show (A.instrs ++ B.instrs).length = _
        rw [length_append]
      rw [hl, show (mergedBlock A B).succs = B.succs from rfl]
      by_cases hlt : j < A.instrs.length
      · rw [getElem?_append_left hlt] at hj'
        refine (W.part.placed x A m.getA j i hj').congr ?_
        constructor
        · rintro ⟨_, h2⟩; exact absurd h2 hAsu
        · rintro ⟨h2, h3⟩
          exact absurd ⟨length_eq_zero_iff.1 (by omega), h3⟩ hBfull
      · rw [getElem?_append_right (by omega)] at hj'
        refine (W.part.placed b B m.getB _ i hj').congr ?_
        have := (List.getElem?_eq_some_iff.1 hj').1
        constructor <;> rintro ⟨h2, h3⟩ <;> exact ⟨by omega, h3⟩
    · exact W.part.placed x X hX j i hj
  · intro x X' hX' hp p hpc
    rcases hkinds hX' with ⟨rfl, rfl⟩ | ⟨_, _, X, hX, rfl⟩
    · rw [merged_phis m] at hp
      have hpc' : p ∈ A.comesFrom ++ B.comesFrom.filter (fun p => p != A.id) := hpc
      rcases mem_append.1 hpc' with h2 | h2
      · exact W.part.phiEntries x A m.getA hp p h2
      · obtain ⟨h3, h4⟩ := mem_filter.1 h2
        rw [hAid, (m.preds p).1 h3] at h4
        simp at h4
    · have h0 := W.part.phiEntries x X hX hp
      have hpc' : p ∈ (if x ∈ B.succs then replaceName b a X.comesFrom else X.comesFrom) := hpc
      show p ∈ (if x ∈ B.succs then replaceName b a X.entries else X.entries)
      split at hpc'
      · next hx =>
        rw [if_pos hx]
        unfold replaceName at hpc' ⊢
        obtain ⟨q, hq, rfl⟩ := mem_map.1 hpc'
        exact mem_map.2 ⟨q, h0 q hq, rfl⟩
      · next hx => rw [if_neg hx]; exact h0 p hpc'
  · intro x X' hX'
    rcases hkinds hX' with ⟨rfl, rfl⟩ | ⟨_, _, X, hX, rfl⟩
    · refine (W.part.kinds b B m.getB).congr rfl rfl rfl rfl ?_
      rintro - ⟨i, h2, h3⟩
      refine ⟨i, ?_, h3⟩
      show (A.instrs ++ B.instrs).getLast? = _
      rw [getLast?_append, h2]; rfl
    · exact W.part.kinds x X hX
  · intro s hs x X' hX'
    rw [hst] at hs
    have hsb : s ≠ b := fun e => m.start (e ▸ hs)
    have key := fun {x} => merge_reach (s := s) (x := x) m hbpred hget hsb
    rcases hkinds hX' with ⟨rfl, rfl⟩ | ⟨h2, h3, X, hX, rfl⟩
    · left
      rcases W.part.live s hs x A m.getA with h4 | ⟨_, h4⟩
      · have := key h4
        rwa [if_neg m.ne] at this
      · exact absurd h4 hAsu
    · rcases W.part.live s hs x X hX with h4 | h4
      · left
        have := key h4
        rwa [if_neg h3] at this
      · exact Or.inr h4
  · intro x X' hX' hsu hin p hp
    rcases hkinds hX' with ⟨rfl, rfl⟩ | ⟨h2, h3, X, hX, rfl⟩
    · have hin' : A.instrs ++ B.instrs = [] := hin
      exact hBfull ⟨(append_eq_nil_iff.1 hin').2, hsu⟩
    · have hf := W.part.full x X hX hsu hin
      rcases (merge_edge m hget).1 hp with ⟨_, h4⟩ | ⟨_, _, h4⟩
      · exact hf b (mem_succ.2 ⟨B, m.getB, h4⟩)
      · exact hf p h4
  · intro x X' hX' i hi
    rcases hkinds hX' with ⟨rfl, rfl⟩ | ⟨h2, h3, X, hX, rfl⟩
    · rw [merged_phis m] at hi
      exact W.shape x A m.getA i hi
    · obtain ⟨h4, h5⟩ := W.shape x X hX i hi
      refine ⟨?_, h5⟩
      show _ = (if x ∈ B.succs then replaceName b a X.entries else X.entries).length
      split
      · unfold replaceName; rw [length_map]; exact h4
      · exact h4
  · intro x X' hX'
    rcases hkinds hX' with ⟨rfl, rfl⟩ | ⟨h2, h3, X, hX, rfl⟩
    · rw [merged_phis m, merged_code m, ← append_assoc, ← W.first x A m.getA]; rfl
    · exact W.first x X hX
  · intro x X' hX'
    rcases hkinds hX' with ⟨rfl, rfl⟩ | ⟨h2, h3, X, hX, rfl⟩
    · rw [merged_phis m]; exact W.outs x A m.getA
    · exact W.outs x X hX
  · intro x X' hX' j i hj ho
    rcases hkinds hX' with ⟨rfl, rfl⟩ | ⟨h2, h3, X, hX, rfl⟩
    · have hj' : (A.instrs ++ B.instrs)[j]? = some i := hj
      by_cases hlt : j < A.instrs.length
      · rw [getElem?_append_left hlt] at hj'
        exact absurd (W.onlyReturns x A m.getA j i hj' ho).1 hAret
      · rw [getElem?_append_right (by omega)] at hj'
        obtain ⟨h2, h3⟩ := W.onlyReturns b B m.getB _ i hj' ho
        refine ⟨h2, ?_⟩
        show j + 1 = (A.instrs ++ B.instrs).length
        rw [length_append]; omega
    · exact W.onlyReturns x X hX j i hj ho
  · intro x X' hX'
    rcases hkinds hX' with ⟨rfl, rfl⟩ | ⟨h2, h3, X, hX, rfl⟩
    · exact m.noLoop
    · exact W.noSelf x X hX
  · intro s T hs hT
    rw [hst] at hs
    rcases hkinds hT with ⟨rfl, rfl⟩ | ⟨h2, h3, X, hX, rfl⟩
    · rw [merged_phis m]; exact W.start s A hs m.getA
    · exact W.start s X hs hX
  · intro x X' hX' i hi
    rcases hkinds hX' with ⟨rfl, rfl⟩ | ⟨h2, h3, X, hX, rfl⟩
    · have hi' : i ∈ A.instrs ++ B.instrs := hi
      rcases mem_append.1 hi' with h2 | h2
      · exact W.instrs x A m.getA i h2
      · exact W.instrs b B m.getB i h2
    · exact W.instrs x X hX i hi
  · intro x X' hX' v hv
    rcases hkinds hX' with ⟨rfl, rfl⟩ | ⟨h2, h3, X, hX, rfl⟩
    · exact W.conds b B m.getB v hv
    · exact W.conds x X hX v hv
  · rw [← W.returns]
    constructor
    · rintro ⟨x, X', hX', hj⟩
      rcases hkinds hX' with ⟨rfl, rfl⟩ | ⟨h2, h3, X, hX, rfl⟩
      · exact ⟨b, B, m.getB, hj⟩
      · exact ⟨x, X, hX, hj⟩
    · rintro ⟨x, X, hX, hj⟩
      by_cases hxb : x = b
      · subst hxb
        rw [m.getB] at hX
        cases hX
        exact ⟨a, mergedBlock A B, by rw [hget, if_pos rfl], hj⟩
      · by_cases hxa : x = a
        · subst hxa
          rw [m.getA] at hX
          cases hX
          exact absurd hj hAret
        · exact ⟨x, fixMerge a b B x X, by rw [hget, if_neg hxa, if_neg hxb, hX]; rfl, hj⟩
  · intro x X' hX'
    rcases hkinds hX' with ⟨rfl, rfl⟩ | ⟨h2, h3, X, hX, rfl⟩
    · exact ⟨b, B, A.instrs, m.getB, rfl, rfl, rfl, rfl⟩
    · exact ⟨x, X, [], hX, rfl, rfl, rfl, rfl⟩

/-- Merging two blocks keeps what the phases after the lowering need. -/
theorem merge_fine {ns : List String} {E : Prop} (hG : Sane G) (m : Mergeable G a b A B) (he : mergeBlocks a b G = some G')
    (W : Whole names R main P Q ret G) (hF : Fine ns E G) : Fine ns E G' := by
  obtain ⟨G2, h1, hst, -, hget⟩ := merge_spec hG m
  rw [he] at h1
  obtain rfl := Option.some.inj h1
  have hAB : b ∈ G.succ a := mem_succ.2 ⟨A, m.getA, (m.succs b).2 rfl⟩
  have hAid := get_id m.getA
  have hBfull : ¬ (B.instrs = [] ∧ B.succs = []) := fun h0 => W.part.full b B m.getB h0.2 h0.1 a hAB
  have hkinds := fun {x X'} => merge_kinds (x := x) (X' := X') m hget
  have hcomes : (mergedBlock A B).comesFrom = A.comesFrom := by
    show A.comesFrom ++ B.comesFrom.filter (fun p => p != A.id) = _
    rw [filter_eq_nil_iff.2, append_nil]
    intro p hp
    rw [(m.preds p).1 hp, hAid]; simp
  have hfc : ∀ x X, (fixMerge a b B x X).comesFrom = if x ∈ B.succs then replaceName b a X.comesFrom else X.comesFrom := fun _ _ => rfl
  have hBlast : B.jumpType ∈ ["terminal", "mainExit"] → B.instrs ≠ [] := fun hj h0 => hBfull ⟨h0, succs_nil.2 (hF.exits b B m.getB hj)⟩
  have hlast : B.instrs ≠ [] → (mergedBlock A B).instrs.getLast? = B.instrs.getLast? := by
    intro hne
    show (A.instrs ++ B.instrs).getLast? = _
    rw [getLast?_append]
    cases hl : B.instrs.getLast? with
    | none => rw [getLast?_eq_none_iff] at hl; exact absurd hl hne
    | some i => rfl
  -- where instructions come from
  have src : ∀ x X', G'.get x = some X' → ∀ i ∈ X'.instrs, ∃ y Y, G.get y = some Y ∧ i ∈ Y.instrs ∧ (y = x ∨ (x = a ∧ y = b)) := by
    intro x X' hX' i hi
    rcases hkinds hX' with ⟨rfl, rfl⟩ | ⟨h2, h3, X, hX, rfl⟩
    · have hi' : i ∈ A.instrs ++ B.instrs := hi
      rcases mem_append.1 hi' with h2 | h2
      · exact ⟨x, A, m.getA, h2, Or.inl rfl⟩
      · exact ⟨b, B, m.getB, h2, Or.inr ⟨rfl, rfl⟩⟩
    · exact ⟨x, X, hX, hi, Or.inl rfl⟩
  refine ⟨?_, ?_, ?_, ?_, ?_, ?_, ?_, ?_, ?_, ?_, ?_⟩
  · intro x X' hX'
    rcases hkinds hX' with ⟨rfl, rfl⟩ | ⟨h2, h3, X, hX, rfl⟩
    · rw [hcomes]; exact hF.exact x A m.getA
    · have h0 := hF.exact x X hX
      rw [hfc]
      show (if x ∈ B.succs then replaceName b a X.entries else X.entries) = [] ∨ (if x ∈ B.succs then replaceName b a X.entries else X.entries).Perm _
      by_cases hx : x ∈ B.succs
      · simp only [if_pos hx]; exact replace_perm h0
      · simp only [if_neg hx]; exact h0
  · intro x X' hX' hp
    rcases hkinds hX' with ⟨rfl, rfl⟩ | ⟨h2, h3, X, hX, rfl⟩
    · rw [hcomes]
      rw [merged_phis m] at hp
      exact hF.joins x A m.getA hp
    · have := hF.joins x X hX hp
      rw [hfc]
      split
      · unfold replaceName; rwa [length_map]
      · exact this
  · intro s S hs hS
    rw [hst] at hs
    rcases hkinds hS with ⟨rfl, rfl⟩ | ⟨h2, h3, X, hX, rfl⟩
    · refine ⟨by rw [hcomes]; exact (hF.entry s A hs m.getA).1, fun h0 h1 => ?_⟩
      have h1' : A.instrs ++ B.instrs = [] := h1
      exact hBfull ⟨(append_eq_nil_iff.1 h1').2, h0⟩
    · obtain ⟨h4, h5⟩ := hF.entry s X hs hX
      refine ⟨?_, h5⟩
      rw [hfc, h4]
      split <;> rfl
  · intro x X' hX'
    rcases hkinds hX' with ⟨rfl, rfl⟩ | ⟨h2, h3, X, hX, rfl⟩
    · show ((A.instrs ++ B.instrs).flatMap (·.outs)).Nodup
      rw [flatMap_append, nodup_append]
      refine ⟨hF.defs x A m.getA, hF.defs b B m.getB, ?_⟩
      intro v hv w hw e
      subst e
      obtain ⟨i, hi, hv⟩ := mem_flatMap.1 hv
      obtain ⟨j, hj, hw⟩ := mem_flatMap.1 hw
      exact hF.apart x b A B m.getA m.getB m.ne i hi j hj v hv hw
    · exact hF.defs x X hX
  · intro x y X' Y' hX' hY' hxy i hi j hj
    obtain ⟨x0, X0, h2, h3, h4⟩ := src x X' hX' i hi
    obtain ⟨y0, Y0, h5, h6, h7⟩ := src y Y' hY' j hj
    refine hF.apart x0 y0 X0 Y0 h2 h5 ?_ i h3 j h6
    have hnb : ∀ z Z, G'.get z = some Z → z ≠ b := by
      rintro z Z hZ rfl
      rw [hget, if_neg (Ne.symm m.ne), if_pos rfl] at hZ; cases hZ
    rcases h4 with rfl | ⟨rfl, rfl⟩ <;> rcases h7 with rfl | ⟨rfl, rfl⟩
    · exact hxy
    · exact hnb _ _ hX'
    · exact (hnb _ _ hY').symm
    · exact absurd rfl hxy
  · intro x X' z Z' hX' hj hz hZ'
    rcases hkinds hX' with ⟨rfl, rfl⟩ | ⟨h2, h3, X, hX, rfl⟩
    · have hz' : B.fallsTo = some z := hz
      have hzs : z ∈ B.succs := mem_succs.2 (Or.inr hz')
      rcases hkinds hZ' with ⟨rfl, rfl⟩ | ⟨h4, h5, Z, hZ, rfl⟩
      · exact absurd hzs m.noLoop
      · rw [hfc, if_pos hzs, hF.chain b B z Z m.getB hj hz' hZ]
        simp [replaceName]
    · have hz' : X.fallsTo = some z := hz
      have hzs : z ∈ X.succs := mem_succs.2 (Or.inr hz')
      rcases hkinds hZ' with ⟨rfl, rfl⟩ | ⟨h4, h5, Z, hZ, rfl⟩
      · rw [hcomes]
        exact hF.chain x X z A hX hj hz' m.getA
      · have hc := hF.chain x X z Z hX hj hz' hZ
        rw [hfc, if_neg, hc]
        intro hzB
        have := (hG.coherent.edges b z B Z m.getB hZ).2 hzB
        rw [hc, mem_singleton] at this
        exact h3 this.symm
  · intro x X' hX' hj
    rcases hkinds hX' with ⟨rfl, rfl⟩ | ⟨h2, h3, X, hX, rfl⟩
    · exact hF.exits b B m.getB hj
    · exact hF.exits x X hX hj
  · intro x X' hX' hj
    rcases hkinds hX' with ⟨rfl, rfl⟩ | ⟨h2, h3, X, hX, rfl⟩
    · have hj' : B.jumpType = "terminal" := hj
      have hne := hBlast (by rw [hj']; simp)
      rw [hlast hne]
      rcases hF.terminal b B m.getB hj with ⟨_, h2⟩ | h2
      · exact absurd h2 hne
      · exact Or.inr h2
    · exact hF.terminal x X hX hj
  · intro x X' hX' hj
    rcases hkinds hX' with ⟨rfl, rfl⟩ | ⟨h2, h3, X, hX, rfl⟩
    · have hj' : B.jumpType = "mainExit" := hj
      rw [hlast (hBlast (by rw [hj']; simp))]
      exact hF.mainExit b B m.getB hj
    · exact hF.mainExit x X hX hj
  · intro x X' hX' i hi
    obtain ⟨y, Y, h2, h3, _⟩ := src x X' hX' i hi
    exact hF.neat y Y h2 i h3
  · intro x X' hX' v hv
    rcases hkinds hX' with ⟨rfl, rfl⟩ | ⟨h2, h3, X, hX, rfl⟩
    · exact hF.neatCond b B m.getB v hv
    · exact hF.neatCond x X hX v hv

/-- Merging two blocks keeps that variables are used only where they are defined. -/
theorem merge_defined {args : List String} (hG : Sane G) (hexact : ∀ x X, G.get x = some X → X.entries = [] ∨ X.entries.Perm X.comesFrom)
    (m : Mergeable G a b A B) (he : mergeBlocks a b G = some G') (hD : Defined ⟨args, G⟩) : Defined ⟨args, G'⟩ := by
  obtain ⟨G2, h1, hst, -, hget⟩ := merge_spec hG m
  rw [he] at h1
  obtain rfl := Option.some.inj h1
  have hkinds := fun {x X'} => merge_kinds (x := x) (X' := X') m hget
  have hcB : code B = B.instrs := filter_eq_self.2 fun i hi => by rw [m.noPhi i hi]; rfl
  have hpB : ∀ i ∈ phis B, False := fun i hi => by
    have := m.noPhi i (mem_filter.1 hi).1
    rw [(mem_filter.1 hi).2] at this; cases this
  have hAB : b ∈ A.succs := (m.succs b).2 rfl
  have toB : ∀ {vs : List String}, Clear ⟨args, G⟩ vs a [] → Clear ⟨args, G⟩ vs b B.instrs := by
    intro vs h
    rw [← hcB]
    exact .edge h m.getA hAB m.getB fun v _ i hi => absurd (hpB i hi) id
  have path : ∀ {vs : List String} {x : String} {is : List Instr}, Clear ⟨args, G'⟩ vs x is →
      (x = a → (∃ i js, is = i :: js ++ B.instrs ∧ Clear ⟨args, G⟩ vs a (i :: js)) ∨ Clear ⟨args, G⟩ vs b is) ∧ (x ≠ a → Clear ⟨args, G⟩ vs x is) := by
    intro vs x is h
    have enterA : ∀ {js : List Instr}, Clear ⟨args, G⟩ vs a js →
        (∃ i js', js ++ B.instrs = i :: js' ++ B.instrs ∧ Clear ⟨args, G⟩ vs a (i :: js')) ∨ Clear ⟨args, G⟩ vs b (js ++ B.instrs) := by
      intro js h
      cases js with
      | nil => exact Or.inr (toB h)
      | cons i js => exact Or.inl ⟨i, js, rfl, h⟩
    induction h with
    | start hs hS ha hp =>
      rename_i s S
      have hs' : G.start = some s := hst ▸ hs
      rcases hkinds hS with ⟨rfl, rfl⟩ | ⟨h1, h2, X, hX, rfl⟩
      · rw [merged_phis m] at hp
        rw [merged_code m]
        exact ⟨fun _ => enterA (.start hs' m.getA ha hp), fun h => absurd rfl h⟩
      · exact ⟨fun e => absurd e h1, fun _ => Clear.start (S := X) hs' hX ha hp⟩
    | instr _ ho ih =>
      refine ⟨fun e => ?_, fun e => .instr (ih.2 e) ho⟩
      rcases ih.1 e with ⟨i, js, h1, h2⟩ | h2
      · rw [cons_append, cons.injEq] at h1
        obtain ⟨rfl, rfl⟩ := h1
        exact enterA (.instr h2 ho)
      · exact Or.inr (.instr h2 ho)
    | edge _ hX ht hT hp ih =>
      rename_i x t X T _
      have step : ∃ y Y, Clear ⟨args, G⟩ vs y [] ∧ G.get y = some Y ∧ t ∈ Y.succs := by
        rcases hkinds hX with ⟨rfl, rfl⟩ | ⟨h1, h2, Y, hY, rfl⟩
        · rcases ih.1 rfl with ⟨i, js, h1, -⟩ | h2
          · cases h1
          · exact ⟨b, B, h2, m.getB, ht⟩
        · exact ⟨x, Y, ih.2 h1, hY, ht⟩
      obtain ⟨y, Y, h1, h2, h3⟩ := step
      rcases hkinds hT with ⟨rfl, rfl⟩ | ⟨h4, h5, Z, hZ, rfl⟩
      · rw [merged_phis m] at hp
        rw [merged_code m]
        exact ⟨fun _ => enterA (.edge h1 h2 h3 m.getA hp), fun h => absurd rfl h⟩
      · exact ⟨fun e => absurd e h4, fun _ => Clear.edge (T := Z) h1 h2 h3 hZ hp⟩
  have src : ∀ x X', G'.get x = some X' → ∀ i ∈ X'.instrs, ∃ y Y, G.get y = some Y ∧ i ∈ Y.instrs := by
    intro x X' hX' i hi
    rcases hkinds hX' with ⟨rfl, rfl⟩ | ⟨h1, h2, Y, hY, rfl⟩
    · rcases mem_append.1 (show i ∈ A.instrs ++ B.instrs from hi) with h | h
      · exact ⟨_, A, m.getA, h⟩
      · exact ⟨b, B, m.getB, h⟩
    · exact ⟨x, Y, hY, hi⟩
  -- the blocks that the arguments of phi functions come from
  have hent : ∀ {y : String} {Y : Block} {p : String} {P : Block}, G.get y = some Y → p ∈ Y.entries → G.get p = some P → y ∈ P.succs := by
    intro y Y p P hY hp hP
    rcases hexact y Y hY with h | h
    · rw [h] at hp; cases hp
    · exact (hG.coherent.edges p y P Y hP hY).1 (h.subset hp)
  refine ⟨?_, ?_, ?_, ?_, ?_⟩
  · intro x X i hX hi v hv
    obtain ⟨y, Y, hY, h⟩ := src x X hX i hi
    exact hD.args y Y i hY h v hv
  · intro x X i hX hi v hv
    obtain ⟨y, Y, hY, h⟩ := src x X hX i hi
    exact hD.noConst y Y i hY h v hv
  · intro x X j js hX hsuf v hv hc hcl
    rcases hkinds hX with ⟨rfl, rfl⟩ | ⟨h1, h2, Y, hY, rfl⟩
    · rcases (path hcl).1 rfl with ⟨i, is, h1, h2⟩ | h2
      · rw [cons_append, cons.injEq] at h1
        obtain ⟨rfl, rfl⟩ := h1
        obtain ⟨A', hA', h3⟩ := clear_at h2
        rw [show A' = A from Option.some.inj (hA'.symm.trans m.getA)] at h3
        exact hD.ins _ A j is m.getA h3 v hv hc h2
      · obtain ⟨B', hB', h3⟩ := clear_at h2
        rw [show B' = B from Option.some.inj (hB'.symm.trans m.getB)] at h3
        exact hD.ins b B j js m.getB h3 v hv hc h2
    · exact hD.ins x Y j js hY hsuf v hv hc ((path hcl).2 h1)
  · intro x X v hX hv hc hcl
    rcases hkinds hX with ⟨rfl, rfl⟩ | ⟨h1, h2, Y, hY, rfl⟩
    · rcases (path hcl).1 rfl with ⟨i, is, h1, -⟩ | h2
      · cases h1
      · exact hD.cond b B v m.getB hv hc h2
    · exact hD.cond x Y v hY hv hc ((path hcl).2 h1)
  · intro x X j hX hj k p v hp hv hc hcl
    have plain : ∀ {y : String} {Y : Block}, G.get y = some Y → y ≠ b → p ∈ Y.entries → p ≠ a := by
      rintro y Y hY hyb hpe rfl
      exact hyb ((m.succs y).1 (hent hY hpe m.getA))
    rcases hkinds hX with ⟨rfl, rfl⟩ | ⟨h1, h2, Y, hY, rfl⟩
    · rw [merged_phis m] at hj
      have hp' : A.entries[k]? = some p := hp
      exact hD.phis _ A j m.getA hj k p v hp' hv hc ((path hcl).2 (plain m.getA m.ne (mem_of_getElem? hp')))
    · have hp' : (if x ∈ B.succs then replaceName b a Y.entries else Y.entries)[k]? = some p := hp
      split at hp'
      · unfold replaceName at hp'
        rw [getElem?_map] at hp'
        obtain ⟨q, hq, e⟩ := Option.map_eq_some_iff.1 hp'
        split at e
        · next hqb =>
          subst hqb
          rcases (path hcl).1 e.symm with ⟨i, is, h3, -⟩ | h3
          · cases h3
          · exact hD.phis x Y j hY hj k q v hq hv hc h3
        · subst e
          exact hD.phis x Y j hY hj k q v hq hv hc ((path hcl).2 (plain hY h2 (mem_of_getElem? hq)))
      · exact hD.phis x Y j hY hj k p v hp' hv hc ((path hcl).2 (plain hY h2 (mem_of_getElem? hp')))

theorem EndsLike.trans {G1 G2 G3 : BlockList} (h1 : EndsLike G1 G2) (h2 : EndsLike G2 G3) : EndsLike G1 G3 := by
  intro x X hX
  obtain ⟨w, W, pre, hW, e1, e2, e3, e4⟩ := h2 x X hX
  obtain ⟨v, V, pre', hV, d1, d2, d3, d4⟩ := h1 w W hW
  exact ⟨v, V, pre ++ pre', hV, by rw [e1, d1, append_assoc], e2.trans d2, e3.trans d3, e4.trans d4⟩

/-- Two blocks that follow each other without branches and joins are combined, if the first one does not end with a call or a jump. -/
theorem pair_mem {ns : List String} (hG : Sane G) {u v : String} {U : Block} (hU : G.get u = some U) (hs : U.succs = [v])
    (hp : ∀ y, v ∈ G.succ y → y = u) (hl : ∀ i, U.instrs.getLast? = some i → i.op ∉ ns ++ ["JUMP", "JUMPI"]) : (u, v) ∈ nodesToMerge ns G := by
  obtain ⟨V, hV⟩ := hG.coherent.targets u U hU v (by rw [hs]; simp)
  have hsu : G.succ u = [v] := by unfold BlockList.succ; rw [hU]; exact hs
  have hdeg : G.inDegree v = 1 := by
    unfold BlockList.inDegree
    have hnd : G.nodes.Nodup := by rw [nodes_of_coherent hG.coherent]; exact hG.coherent.ids
    have hmem : ∀ p, p ∈ G.nodes.filter (fun p => decide (v ∈ G.succ p)) ↔ p = u := by
      intro p
      rw [mem_filter, decide_eq_true_eq]
      constructor
      · exact fun h => hp p h.2
      · rintro rfl; exact ⟨mem_nodes_of_get hU, by rw [hsu]; simp⟩
    have hnd' := hnd.filter fun p => decide (v ∈ G.succ p)
    generalize G.nodes.filter (fun p => decide (v ∈ G.succ p)) = l at hmem hnd'
    rcases l with _ | ⟨p, _ | ⟨q, l⟩⟩
    · have := (hmem u).2 rfl; cases this
    · rfl
    · have h1 := (hmem p).1 (by simp)
      have h2 := (hmem q).1 (by simp)
      rw [h1, h2] at hnd'
      simp at hnd'
  have hall : mergeAllowed ns U V = true := by
    unfold mergeAllowed
    cases hlast : U.instrs.getLast? with
    | none => simp
    | some i => simp only; rw [decide_eq_true (hl i hlast)]; simp
  unfold nodesToMerge
  rw [mem_filterMap]
  refine ⟨u, mem_nodes_of_get hU, ?_⟩
  have he : (G.succ u).eraseDups = [v] := by rw [hsu]; rfl
  rw [hU, he]
  simp only
  rw [hV]
  simp only
  rw [hdeg, hall]
  rfl

/-- Combining and removing. -/
theorem combine_whole {ns : List String} (hG : Sane G) (ht : Tidy G) (he : combineRemove ns G = some G') (W : Whole names R main P Q ret G)
    (hns : ∀ x X, G.get x = some X → ∀ i ∈ X.instrs, i.op ∉ ns ++ ["JUMP", "JUMPI"] ∨ i.op ∈ ns)
    (hc : ∀ x X z, G.get x = some X → X.jumpType = "sub_block" → X.fallsTo = some z → ∀ y, z ∈ G.succ y → y = x) :
    Sane G' ∧ Whole names R main P Q ret G' ∧ (∀ x X, G'.get x = some X → ∃ X0, G.get x = some X0) ∧
    (∀ x X, G'.get x = some X → X.jumpType = "sub_block" → ∃ i, X.instrs.getLast? = some i ∧ i.op ∈ ns) ∧ (Fine ns True G → Fine ns False G' ∧ ∀ args, Defined ⟨args, G⟩ → Defined ⟨args, G'⟩) := by
  obtain ⟨G1, h1, h2, h3, ⟨own, o1, o2, o3⟩, h4, -⟩ := combine_core (names := ns) hG (tidy_start ht) (tidy_phi ht) (tidy_loop ht)
  obtain ⟨W1, E1, F1⟩ := h4 (fun X Y => Whole names R main P Q ret X → Whole names R main P Q ret Y ∧ EndsLike X Y ∧
      (Fine ns True X → Fine ns True Y ∧ ∀ args, Defined ⟨args, X⟩ → Defined ⟨args, Y⟩))
    (fun X hX => ⟨hX, fun x X' hx => ⟨x, X', [], hx, rfl, rfl, rfl, rfl⟩, fun h => ⟨h, fun _ h => h⟩⟩)
    (fun X Y Z a b hX => ⟨(b (a hX).1).1, (a hX).2.1.trans (b (a hX).1).2.1, fun h =>
      ⟨((b (a hX).1).2.2 ((a hX).2.2 h).1).1, fun as hd => ((b (a hX).1).2.2 ((a hX).2.2 h).1).2 as (((a hX).2.2 h).2 as hd)⟩⟩)
    (fun X a b A B X' hX hm he hW => ⟨(merge_whole hX hm he hW).1, (merge_whole hX hm he hW).2, fun h =>
      ⟨merge_fine hX hm he hW h, fun _ hd => merge_defined hX h.exact hm he hd⟩⟩) W
  obtain ⟨s, S, hs, hS⟩ := h2.start
  obtain ⟨G2, r1, r2, r3, r4, r5, r6, r7, -⟩ := remove_unreachable h2.coherent hs hS
  have hG2 : G' = G2 := by
    unfold combineRemove at he
    rw [h1] at he
    have he' : removeBlocks G1 = some G' := he
    rw [r1] at he'
    exact (Option.some.inj he').symm
  subst hG2
  have hback : ∀ {x X}, G'.get x = some X → Graph.Reach G1.succ s x ∧ G1.get x = some X := by
    intro x X hX
    by_cases hr : Graph.Reach G1.succ s x
    · exact ⟨hr, by rw [← r6 x hr]; exact hX⟩
    · rw [r7 x hr] at hX; cases hX
  have hlive : ∀ {x X}, G1.get x = some X → X.instrs ≠ [] ∨ X.succs ≠ [] → Graph.Reach G1.succ s x := by
    intro x X hX hne
    rcases W1.part.live s hs x X hX with h5 | ⟨h5, h6⟩
    · exact h5
    · rcases hne with h7 | h7
      · exact absurd h5 h7
      · exact absurd h6 h7
  have hedge : ∀ {x y}, y ∈ G'.succ x ↔ Graph.Reach G1.succ s x ∧ y ∈ G1.succ x := by
    intro x y
    rw [mem_succ, mem_succ]
    constructor
    · rintro ⟨X, hX, hy⟩
      exact ⟨(hback hX).1, X, (hback hX).2, hy⟩
    · rintro ⟨hr, X, hX, hy⟩
      exact ⟨X, by rw [r6 x hr]; exact hX, hy⟩
  have hreach : ∀ {x}, Graph.Reach G1.succ s x → Graph.Reach G'.succ s x := by
    intro x hx
    induction hx with
    | refl => exact .refl
    | tail hu he ih => exact ih.tail (hedge.2 ⟨hu, he⟩)
  have hsane : Sane G' := by
    refine remove_coherent h2 hs ?_ r1
    intro q Q' hQ _ p hp
    obtain ⟨P', hP⟩ := h2.coherent.preds q Q' hQ p hp
    refine hlive hP (Or.inr fun h0 => ?_)
    have := (h2.coherent.edges p q P' Q' hP hQ).1 hp
    rw [h0] at this; cases this
  refine ⟨hsane, ⟨⟨?_, ?_, ?_, ?_, ?_⟩, ?_, ?_, ?_, ?_, ?_, ?_, ?_, ?_, ?_⟩, ?_, ?_, ?_⟩
  · exact fun x X hX => W1.part.placed x X (hback hX).2
  · exact fun x X hX => W1.part.phiEntries x X (hback hX).2
  · exact fun x X hX => W1.part.kinds x X (hback hX).2
  · intro s' hs' x X hX
    rw [r2] at hs'
    obtain rfl := Option.some.inj hs'
    exact Or.inl (hreach (hback hX).1)
  · intro x X hX h5 h6 p hp
    exact W1.part.full x X (hback hX).2 h5 h6 p (hedge.1 hp).2
  · exact fun x X hX => W1.shape x X (hback hX).2
  · exact fun x X hX => W1.first x X (hback hX).2
  · exact fun x X hX => W1.outs x X (hback hX).2
  · exact fun x X hX => W1.onlyReturns x X (hback hX).2
  · exact fun x X hX => W1.noSelf x X (hback hX).2
  · intro s' T hs' hT
    rw [r2] at hs'
    obtain rfl := Option.some.inj hs'
    exact W1.start s T hs (hback hT).2
  · exact fun x X hX => W1.instrs x X (hback hX).2
  · exact fun x X hX => W1.conds x X (hback hX).2
  · rw [← W1.returns]
    constructor
    · rintro ⟨x, X, hX, hj⟩
      exact ⟨x, X, (hback hX).2, hj⟩
    · rintro ⟨x, X, hX, hj⟩
      obtain ⟨_, _, _, i, h5, _⟩ := exits_kind (W1.part.kinds x X hX) hj
      have hr := hlive hX (Or.inl (by intro h0; rw [h0] at h5; simp at h5))
      exact ⟨x, X, by rw [r6 x hr]; exact hX, hj⟩
  · intro x X hX
    exact ((o3 x).1 ⟨X, (hback hX).2⟩).2
  · intro x X hX hj
    have hX1 := (hback hX).2
    obtain ⟨w, W', pre, hW, e1, e2, e3, e4⟩ := E1 x X hX1
    obtain ⟨z, hz, hj0⟩ : ∃ z, X.fallsTo = some z ∧ X.jumpTo = none := by
      rcases W1.part.kinds x X hX1 with ⟨h5, _⟩ | ⟨h5, _⟩ | ⟨h5, _⟩ | ⟨h5, _⟩ | ⟨_, h5, z, h6⟩
      · rw [hj] at h5; exact absurd h5 (by decide)
      · rw [hj] at h5; exact absurd h5 (by decide)
      · rw [hj] at h5; exact absurd h5 (by decide)
      · rw [hj] at h5; exact absurd h5 (by decide)
      · exact ⟨z, h6, h5⟩
    by_contra hno
    have hsu : W'.succs = [z] := by
      unfold Block.succs
      rw [← e3, ← e4, hj0, hz]; rfl
    have hpair : (w, z) ∈ nodesToMerge ns G := by
      refine pair_mem hG hW hsu (hc w W' z hW (e2.symm.trans hj) (e4.symm.trans hz)) fun i hi => ?_
      rcases hns w W' hW i (mem_of_getLast? hi) with h5 | h5
      · exact h5
      · exact absurd ⟨i, by rw [e1, getLast?_append, hi]; rfl, h5⟩ hno
    obtain ⟨Z, hZ⟩ := h2.coherent.targets x X hX1 z (mem_succs.2 (Or.inr hz))
    have hoz : own z = z := ((o3 z).1 ⟨Z, hZ⟩).1
    have how : own w = z := (o1 _ hpair).trans hoz
    have hpath := o2 w
    rw [how] at hpath
    have hzw : z ∈ G.succ w := mem_succ.2 ⟨W', hW, by rw [hsu]; simp⟩
    rcases Relation.reflTransGen_iff_eq_or_transGen.1 hpath with h5 | h5
    · exact W.noSelf w W' hW (by rw [hsu, h5]; simp)
    · exact tidy_loop ht z w h5 hzw
  · intro hF0
    obtain ⟨hF, hD⟩ := F1 hF0
    refine ⟨⟨fun x X hX => hF.exact x X (hback hX).2, fun x X hX => hF.joins x X (hback hX).2, ?_, fun x X hX => hF.defs x X (hback hX).2,
      fun x y X Y hX hY => hF.apart x y X Y (hback hX).2 (hback hY).2, fun x X z Z hX hj hz hZ => hF.chain x X z Z (hback hX).2 hj hz (hback hZ).2,
      fun x X hX => hF.exits x X (hback hX).2, ?_, fun x X hX => hF.mainExit x X (hback hX).2, fun x X hX => hF.neat x X (hback hX).2,
      fun x X hX => hF.neatCond x X (hback hX).2⟩, ?_⟩
    · intro s' S' hs' hS'
      rw [r2] at hs'
      obtain rfl := Option.some.inj hs'
      exact hF.entry s S' hs (hback hS').2
    · intro x X hX hj
      obtain ⟨hr, hX1⟩ := hback hX
      rcases hF.terminal x X hX1 hj with ⟨_, h5⟩ | h5
      · exfalso
        have hsu : X.succs = [] := succs_nil.2 (hF.exits x X hX1 (by rw [hj]; simp))
        rcases Relation.ReflTransGen.cases_tail hr with h6 | ⟨y, _, h6⟩
        · subst h6
          exact (hF.entry x X hs hX1).2 hsu h5
        · exact W1.part.full x X hX1 hsu h5 y h6
      · exact Or.inr h5
    · intro args h0
      have h5 := hD args h0
      have path : ∀ {vs : List String} {x : String} {is : List Instr}, Clear ⟨args, G'⟩ vs x is → Clear ⟨args, G1⟩ vs x is := by
        intro vs x is h
        induction h with
        | start hs' hS ha hp => exact .start (show G1.start = _ from hs.trans (r2.symm.trans hs')) (hback hS).2 ha hp
        | instr _ ho ih => exact .instr ih ho
        | edge _ hX ht hT hp ih => exact .edge ih (hback hX).2 ht (hback hT).2 hp
      exact ⟨fun x X i hX => h5.args x X i (hback hX).2, fun x X i hX => h5.noConst x X i (hback hX).2,
        fun x X i is hX hs v hv hc h => h5.ins x X i is (hback hX).2 hs v hv hc (path h),
        fun x X v hX hv hc h => h5.cond x X v (hback hX).2 hv hc (path h),
        fun x X i hX hi k p v hp hv hc h => h5.phis x X i (hback hX).2 hi k p v hp hv hc (path h)⟩

end

end Grey.Front
