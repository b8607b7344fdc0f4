/-
Inlining a call keeps what the lowering needs.
-/
import Verif.Front.Part
namespace Grey.Front
open List Grey.Cfg Grey.Inline Grey.Prep Grey.Lower

theorem succs_nil {X : Block} : X.succs = [] ↔ X.jumpTo = none ∧ X.fallsTo = none := by
  unfold Block.succs
  rw [append_eq_nil_iff]
  cases X.jumpTo <;> cases X.fallsTo <;> simp

theorem exits_kind {main : Bool} {X : Block} (h : Kind main X) (hj : X.jumpType = "FunctionReturn") :
    main = false ∧ X.jumpTo = none ∧ X.fallsTo = none ∧ ∃ i, X.instrs.getLast? = some i ∧ i.op = "functionReturn" := by
  rcases h with ⟨h1, _⟩ | ⟨h1, _⟩ | ⟨_, h2⟩ | ⟨h1, _⟩ | ⟨h1, _⟩
  · rw [hj] at h1; exact absurd h1 (by decide)
  · rw [hj] at h1; exact absurd h1 (by decide)
  · exact h2
  · rw [hj] at h1; exact absurd h1 (by decide)
  · rw [hj] at h1; exact absurd h1 (by decide)

/-- A block with its names replaced and its neighbours changed is of the same kind. -/
theorem Kind.congr {main : Bool} {X Y : Block} (h : Kind main X) (ht : Y.jumpType = X.jumpType) (hj : Y.jumpTo.isSome = X.jumpTo.isSome)
    (hf : Y.fallsTo.isSome = X.fallsTo.isSome) (hc : Y.cond.isSome = X.cond.isSome)
    (hl : X.jumpType = "FunctionReturn" → (∃ i, X.instrs.getLast? = some i ∧ i.op = "functionReturn") →
      ∃ i, Y.instrs.getLast? = some i ∧ i.op = "functionReturn") : Kind main Y := by
  have none_of : ∀ {o o' : Option String}, o'.isSome = o.isSome → o = none → o' = none := by
    intro o o' e h0; subst h0; simpa using e
  have some_of : ∀ {o o' : Option String}, o'.isSome = o.isSome → (∃ y, o = some y) → ∃ y, o' = some y := by
    rintro o o' e ⟨y, rfl⟩; exact Option.isSome_iff_exists.1 (by rw [e]; rfl)
  rcases h with ⟨h1, h2, h3⟩ | ⟨h1, h2, h3, h4⟩ | ⟨h1, h2, h3, h4, h5⟩ | ⟨h1, h2, h3⟩ | ⟨h1, h2, h3⟩
  · exact Or.inl ⟨ht.trans h1, some_of hj h2, none_of hf h3⟩
  · exact Or.inr (Or.inl ⟨ht.trans h1, some_of hj h2, some_of hf h3, some_of hc h4⟩)
  · exact Or.inr (Or.inr (Or.inl ⟨ht.trans h1, h2, none_of hj h3, none_of hf h4, hl h1 h5⟩))
  · exact Or.inr (Or.inr (Or.inr (Or.inl ⟨by rw [ht]; exact h1, none_of hj h2, none_of hf h3⟩)))
  · exact Or.inr (Or.inr (Or.inr (Or.inr ⟨ht.trans h1, none_of hj h2, some_of hf h3⟩)))

section
variable {names : List String} {R : String → Prop} {Src : Instr → Prop}
variable {O O' : Obj} {h : Option String} {f : String} {H F : Component} {s b : String} {k : Nat} {blk : Block} {call : Instr}
  {G' : BlockList} (S : Site O h f H F s b k blk call) (Sh : Shape F call s b k blk H.body G') (A : After O O' h f H G')
  (M : Mid names R Src O)

include S M

theorem call_at : R f ↔ ¬ (blk.instrs.drop (k + 1) = [] ∧ blk.succs = []) := by
  have h1 := ((M.part h H S.comp).placed b blk S.block k call S.callAt).call (by rw [S.op]; exact M.fns f F S.fn)
  rw [S.op] at h1
  have h2 : blk.instrs.drop (k + 1) = [] ↔ k + 1 = blk.instrs.length := by
    have := (List.getElem?_eq_some_iff.1 S.callAt).1
    rw [drop_eq_nil_iff]; omega
  rw [h2, ← h1, not_not]

theorem returns_nil : F.body.returns = [] ↔ ¬ R f := by
  rw [← M.rets f F S.fn]
  constructor
  · rintro h0 ⟨x, X, hX, hj⟩
    have := (S.exits.returns x).2 ⟨X, hX, hj⟩
    rw [h0] at this; cases this
  · intro hn
    rw [eq_nil_iff_forall_not_mem]
    intro x hx
    obtain ⟨X, hX, hj⟩ := (S.exits.returns x).1 hx
    exact hn ⟨x, X, hX, hj⟩

/-- If the function does not return, nothing is left after the call. -/
theorem after_call (hr : F.body.returns = []) : blk.instrs.drop (k + 1) = [] ∧ blk.succs = [] := by
  by_contra hc
  exact (returns_nil S M).1 hr ((call_at S M).2 hc)

theorem start_live : ∀ x X, F.body.get x = some X → X.instrs ≠ [] ∨ X.succs ≠ [] → Graph.Reach F.body.succ s x := by
  intro x X hX hne
  rcases (M.part (some f) F S.fn).live s S.start x X hX with h1 | ⟨h1, h2⟩
  · exact h1
  · rcases hne with h3 | h3
    · exact absurd h1 h3
    · exact absurd h2 h3

include Sh

theorem reach_callee {u : String} (hu : Graph.Reach F.body.succ s u) : Graph.Reach G'.succ (firstId b) u := by
  induction hu with
  | refl => exact .single ((edge_iff S Sh).2 (Or.inr (Or.inl ⟨rfl, rfl⟩)))
  | tail _ he ih => exact ih.tail ((edge_iff S Sh).2 (Or.inr (Or.inr (Or.inl (mem_succ.1 he)))))

theorem reach_second (hr : F.body.returns ≠ []) : Graph.Reach G'.succ (firstId b) (secondId b) := by
  obtain ⟨e, he⟩ := exists_mem_of_ne_nil _ hr
  obtain ⟨E, hE⟩ := S.ret_get he
  obtain ⟨i, pre, h1, _⟩ := S.ret_block he hE
  have := reach_callee S Sh M (start_live S M e E hE (Or.inl (by rw [h1]; simp)))
  exact this.tail ((edge_iff S Sh).2 (Or.inr (Or.inr (Or.inr ⟨he, rfl⟩))))

theorem reach_host {s0 x : String} (hx : Graph.Reach H.body.succ s0 x) : Graph.Reach G'.succ (inOf b s0) (inOf b x) := by
  induction hx with
  | refl => exact .refl
  | tail _ he ih =>
    rename_i x y _
    have hin : Graph.Reach G'.succ (inOf b x) (outOf b x) := by
      unfold inOf outOf
      split
      · next hxb =>
        refine reach_second S Sh M fun h0 => ?_
        obtain ⟨X, hX, hy⟩ := mem_succ.1 he
        rw [hxb, S.block] at hX
        cases hX
        rw [(after_call S M h0).2] at hy
        cases hy
      · exact .refl
    exact (ih.trans hin).tail ((edge_iff S Sh).2 (Or.inl ⟨x, y, rfl, rfl, he⟩))

omit M in
theorem start_after {s' : String} (hs : G'.start = some s') : ∃ s0, H.body.start = some s0 ∧ s' = inOf b s0 := by
  rw [Sh.start] at hs
  by_cases hb : H.body.start = some b
  · rw [if_pos hb] at hs
    exact ⟨b, hb, by rw [inOf, if_pos rfl]; exact (Option.some.inj hs).symm⟩
  · rw [if_neg hb] at hs
    refine ⟨s', hs, ?_⟩
    rw [inOf, if_neg]
    rintro rfl; exact hb hs

omit M in
theorem not_in_second {x y : String} (hy : y ∈ H.body.succ x) : inOf b y ≠ secondId b := by
  obtain ⟨Y, hY⟩ := (host_block S hy).2
  unfold inOf
  split
  · exact firstId_ne_secondId b
  · exact (S.H_ne hY).2.1

omit Sh in
theorem first_live {s0 : String} (hs : H.body.start = some s0) : Graph.Reach H.body.succ s0 b := by
  rcases (M.part h H S.comp).live s0 hs b blk S.block with h1 | ⟨h1, _⟩
  · exact h1
  · have := S.call_mem
    rw [h1] at this; cases this

variable (hphi : "PhiFunction" ∉ names)

include hphi in
theorem placed_after : ∀ x X, G'.get x = some X → ∀ j i, X.instrs[j]? = some i →
    At names R i.op (j + 1 = X.instrs.length ∧ X.succs = []) := by
  intro x X' hX' j i' hj
  have PH := (M.part h H S.comp).placed
  have PF := (M.part (some f) F S.fn).placed
  rcases Site.kinds Sh hX' with ⟨rfl, rfl⟩ | ⟨rfl, rfl⟩ | ⟨X, hX, rfl⟩ | ⟨X, hxb, hX, rfl⟩
  · have hj' : ((phisOf F call ++ blk.instrs.drop (k + 1)).map (renameInstr (outMap F call)))[j]? = some i' := hj
    rw [getElem?_map] at hj'
    obtain ⟨i, hi, rfl⟩ := Option.map_eq_some_iff.1 hj'
    by_cases hlt : j < (phisOf F call).length
    · rw [getElem?_append_left hlt] at hi
      have := S.phisOf_phi (mem_of_getElem? hi)
      unfold isPhi at this
      have e : i.op = "PhiFunction" := by simpa using this
      show At names R i.op _
      rw [e]
      exact At.phi hphi _
    · rw [getElem?_append_right (by omega), getElem?_drop] at hi
      refine (PH b blk S.block _ i hi).congr ?_
      rw [Site.succs_second]
      have hl : (renameBlock (outMap F call) (secondBlock F call b k blk)).instrs.length = (phisOf F call).length + (blk.instrs.length - (k + 1)) := by
        show ((phisOf F call ++ blk.instrs.drop (k + 1)).map (renameInstr (outMap F call))).length = _
        rw [length_map, length_append, length_drop]
      have := (List.getElem?_eq_some_iff.1 hi).1
      rw [hl]
      constructor <;> rintro ⟨h1, h2⟩ <;> exact ⟨by omega, h2⟩
  · have hj' : ((blk.instrs.take k).map (renameInstr (outMap F call)))[j]? = some i' := hj
    rw [getElem?_map] at hj'
    obtain ⟨i, hi, rfl⟩ := Option.map_eq_some_iff.1 hj'
    have hlt := (List.getElem?_eq_some_iff.1 hi).1
    have hk := (List.getElem?_eq_some_iff.1 S.callAt).1
    rw [length_take] at hlt
    rw [getElem?_take_of_lt (by omega)] at hi
    refine (PH b blk S.block j i hi).congr ?_
    rw [Site.succs_first]
    constructor
    · rintro ⟨h1, _⟩; omega
    · rintro ⟨_, h1⟩; cases h1
  · have hj' := hj
    rw [S.callee_instrs, getElem?_map] at hj'
    obtain ⟨i, hi, rfl⟩ := Option.map_eq_some_iff.1 hj'
    have hl : (renameBlock (outMap F call) (calleeBlock F call s b x X)).instrs.length =
        (if x ∈ F.body.returns then X.instrs.dropLast else X.instrs).length := by rw [S.callee_instrs, length_map]
    rw [hl, S.succs_callee hX]
    by_cases hx : x ∈ F.body.returns
    · rw [if_pos hx] at hi ⊢
      rw [if_pos hx]
      have hlt := (List.getElem?_eq_some_iff.1 hi).1
      rw [length_dropLast] at hlt
      rw [getElem?_dropLast, if_pos (by omega)] at hi
      refine (PF x X hX j i hi).congr ?_
      constructor
      · rintro ⟨h1, _⟩; omega
      · rintro ⟨_, h1⟩; cases h1
    · rw [if_neg hx] at hi ⊢
      rw [if_neg hx]
      exact PF x X hX j i hi
  · have hj' : (X.instrs.map (renameInstr (outMap F call)))[j]? = some i' := hj
    rw [getElem?_map] at hj'
    obtain ⟨i, hi, rfl⟩ := Option.map_eq_some_iff.1 hj'
    refine (PH x X hX j i hi).congr ?_
    rw [Site.succs_other, show (renameBlock (outMap F call) (fixOther b blk x X)).instrs.length = X.instrs.length from by
      show (X.instrs.map (renameInstr (outMap F call))).length = _
      rw [length_map]]
    simp

theorem phiEntries_after : ∀ x X, G'.get x = some X → phis X ≠ [] → ∀ p ∈ X.comesFrom, p ∈ X.entries := by
  intro x X' hX' hp p hpc
  rcases Site.kinds Sh hX' with ⟨rfl, rfl⟩ | ⟨rfl, rfl⟩ | ⟨X, hX, rfl⟩ | ⟨X, hxb, hX, rfl⟩
  · have hpc' : p ∈ F.body.returns := hpc
    show p ∈ entriesOf F call
    rw [S.second_phis] at hp
    obtain ⟨i, hi⟩ := exists_mem_of_ne_nil (phisOf F call) (by intro h0; rw [h0] at hp; exact hp rfl)
    obtain ⟨_, _, _, _, e, _⟩ := S.phisOf_mem hi
    rw [e]; exact hpc'
  · rw [S.first_phis] at hp
    exact (M.part h H S.comp).phiEntries b blk S.block (by intro h0; rw [h0] at hp; exact hp rfl) p hpc
  · rw [S.callee_phis hX] at hp
    have hp' : phis X ≠ [] := by intro h0; rw [h0] at hp; exact hp rfl
    have hpc' : p ∈ (if x = s then X.comesFrom ++ [firstId b] else X.comesFrom) := hpc
    have hxs : x ≠ s := by
      rintro rfl
      obtain ⟨q, _, _, h1, _⟩ := (M.tidy (some f) F S.fn).joins x X hX hp'
      exact (M.tidy (some f) F S.fn).entry x q S.start h1
    rw [if_neg hxs] at hpc'
    exact (M.part (some f) F S.fn).phiEntries x X hX hp' p hpc'
  · have hp' : phis X ≠ [] := by
      intro h0
      apply hp
      rw [phis_rename, show phis (fixOther b blk x X) = phis X from rfl, h0]; rfl
    have h0 := (M.part h H S.comp).phiEntries x X hX hp'
    have hpc' : p ∈ (if x ∈ blk.succs then replaceName b (secondId b) X.comesFrom else X.comesFrom) := hpc
    show p ∈ (if x ∈ blk.succs then replaceName b (secondId b) X.entries else X.entries)
    split at hpc'
    · next hx =>
      rw [if_pos hx]
      unfold replaceName at hpc' ⊢
      obtain ⟨q, hq, rfl⟩ := mem_map.1 hpc'
      exact mem_map.2 ⟨q, h0 q hq, rfl⟩
    · next hx => rw [if_neg hx]; exact h0 p hpc'

theorem kinds_after : ∀ x X, G'.get x = some X → Kind h.isNone X := by
  intro x X' hX'
  rcases Site.kinds Sh hX' with ⟨rfl, rfl⟩ | ⟨rfl, rfl⟩ | ⟨X, hX, rfl⟩ | ⟨X, hxb, hX, rfl⟩
  · refine ((M.part h H S.comp).kinds b blk S.block).congr rfl rfl rfl ?_ ?_
    · show (blk.cond.map _).isSome = _
      rw [Option.isSome_map]
    · rintro - ⟨i, h3, h4⟩
      refine ⟨renameInstr (outMap F call) i, ?_, h4⟩
      show ((phisOf F call ++ blk.instrs.drop (k + 1)).map (renameInstr (outMap F call))).getLast? = _
      rw [S.split, getLast?_append] at h3
      have hne : blk.instrs.drop (k + 1) ≠ [] := by
        intro h0
        rw [h0] at h3
        simp only [getLast?_singleton, Option.some_or, Option.some.injEq] at h3
        rw [← h3, S.op] at h4
        have := S.noReturn
        rw [← h4, S.fn] at this
        cases this
      rw [getLast?_map, getLast?_append]
      rw [getLast?_cons, Option.some_or] at h3
      cases hd : (blk.instrs.drop (k + 1)).getLast? with
      | none => rw [getLast?_eq_none_iff] at hd; exact absurd hd hne
      | some j =>
        rw [hd] at h3
        simp only [Option.getD_some, Option.some.injEq] at h3
        rw [h3]; rfl
  · exact Or.inr (Or.inr (Or.inr (Or.inr ⟨rfl, rfl, s, rfl⟩)))
  · have hk := (M.part (some f) F S.fn).kinds x X hX
    by_cases hx : x ∈ F.body.returns
    · have hj := (S.exits.returns x).1 hx
      obtain ⟨Y, hY, hj⟩ := hj
      rw [hX] at hY
      cases hY
      left
      refine ⟨?_, ⟨secondId b, ?_⟩, ?_⟩
      · show (if X.jumpType = "FunctionReturn" then "unconditional" else X.jumpType) = _
        rw [if_pos hj]
      · show (if x ∈ F.body.returns then some (secondId b) else X.jumpTo) = _
        rw [if_pos hx]
      · exact (S.returns_jump hX hx).2
    · have hj : X.jumpType ≠ "FunctionReturn" := fun hj => hx ((S.exits.returns x).2 ⟨X, hX, hj⟩)
      have hk' : Kind h.isNone X := by
        rcases hk with h1 | h1 | h1 | h1
        · exact Or.inl h1
        · exact Or.inr (Or.inl h1)
        · exact absurd h1.1 hj
        · exact Or.inr (Or.inr (Or.inr h1))
      refine hk'.congr ?_ ?_ rfl ?_ fun h1 => absurd h1 hj
      · show (if X.jumpType = "FunctionReturn" then "unconditional" else X.jumpType) = _
        rw [if_neg hj]
      · show (if x ∈ F.body.returns then some (secondId b) else X.jumpTo).isSome = _
        rw [if_neg hx]
      · show ((X.cond.map _).map _).isSome = _
        rw [Option.isSome_map, Option.isSome_map]
  · refine ((M.part h H S.comp).kinds x X hX).congr rfl ?_ ?_ ?_ ?_
    · show (redirect b (firstId b) X.jumpTo).isSome = _
      unfold redirect; rw [Option.isSome_map]
    · show (redirect b (firstId b) X.fallsTo).isSome = _
      unfold redirect; rw [Option.isSome_map]
    · show (X.cond.map _).isSome = _
      rw [Option.isSome_map]
    · rintro - ⟨i, h3, h4⟩
      refine ⟨renameInstr (outMap F call) i, ?_, h4⟩
      show (X.instrs.map (renameInstr (outMap F call))).getLast? = _
      rw [getLast?_map, h3]; rfl

theorem live_after : ∀ s', G'.start = some s' → ∀ x X, G'.get x = some X → Graph.Reach G'.succ s' x ∨ (X.instrs = [] ∧ X.succs = []) := by
  intro s' hs' x X' hX'
  obtain ⟨s0, hs0, rfl⟩ := start_after S Sh hs'
  have hfirst : Graph.Reach G'.succ (inOf b s0) (firstId b) := by
    have := reach_host S Sh M (first_live S M hs0)
    rwa [show inOf b b = firstId b from by simp [inOf]] at this
  rcases Site.kinds Sh hX' with ⟨rfl, rfl⟩ | ⟨rfl, rfl⟩ | ⟨X, hX, rfl⟩ | ⟨X, hxb, hX, rfl⟩
  · by_cases hr : F.body.returns = []
    · right
      obtain ⟨h1, h2⟩ := after_call S M hr
      refine ⟨?_, by rw [Site.succs_second]; exact h2⟩
      show (phisOf F call ++ blk.instrs.drop (k + 1)).map _ = []
      rw [h1, append_nil]
      unfold phisOf retsOf
      rw [hr]
      rfl
    · exact Or.inl (hfirst.trans (reach_second S Sh M hr))
  · exact Or.inl hfirst
  · by_cases hx : Graph.Reach F.body.succ s x
    · exact Or.inl (hfirst.trans (reach_callee S Sh M hx))
    · right
      rcases (M.part (some f) F S.fn).live s S.start x X hX with h1 | ⟨h1, h2⟩
      · exact absurd h1 hx
      · have hr : x ∉ F.body.returns := by
          intro hr
          obtain ⟨_, _, h3, _⟩ := S.ret_block hr hX
          rw [h1] at h3; simp at h3
        rw [S.callee_instrs, S.succs_callee hX, if_neg hr, if_neg hr, h1, h2]
        exact ⟨rfl, rfl⟩
  · rcases (M.part h H S.comp).live s0 hs0 x X hX with h1 | ⟨h1, h2⟩
    · left
      have := reach_host S Sh M h1
      rwa [show inOf b x = x from by simp [inOf, hxb]] at this
    · right
      refine ⟨?_, by rw [Site.succs_other, h2]; rfl⟩
      show X.instrs.map _ = []
      rw [h1]; rfl

theorem full_after : ∀ x X, G'.get x = some X → X.succs = [] → X.instrs = [] → ∀ p, x ∉ G'.succ p := by
  intro x X' hX' hsu hin p hp
  rcases Site.kinds Sh hX' with ⟨rfl, rfl⟩ | ⟨rfl, rfl⟩ | ⟨X, hX, rfl⟩ | ⟨X, hxb, hX, rfl⟩
  · have hin' : (phisOf F call ++ blk.instrs.drop (k + 1)).map (renameInstr (outMap F call)) = [] := hin
    rw [map_eq_nil_iff, append_eq_nil_iff] at hin'
    rw [Site.succs_second] at hsu
    have hr : F.body.returns = [] := by
      rw [returns_nil S M, call_at S M, not_not]
      exact ⟨hin'.2, hsu⟩
    rcases (edge_iff S Sh).1 hp with ⟨y, z, _, e, hz⟩ | ⟨_, e⟩ | ⟨X, hX, hv⟩ | ⟨h1, _⟩
    · exact not_in_second S Sh hz e.symm
    · obtain ⟨T, hT⟩ := S.start_get
      exact (S.F_ne hT).2.1 e.symm
    · obtain ⟨T, hT⟩ := S.saneF.coherent.targets p X hX _ hv
      exact (S.F_ne hT).2.1 rfl
    · rw [hr] at h1; cases h1
  · rw [Site.succs_first] at hsu; cases hsu
  · by_cases hx : x ∈ F.body.returns
    · rw [S.succs_callee hX, if_pos hx] at hsu; cases hsu
    · rw [S.succs_callee hX, if_neg hx] at hsu
      rw [S.callee_instrs, if_neg hx, map_eq_nil_iff] at hin
      have hf := (M.part (some f) F S.fn).full x X hX hsu hin
      rcases (edge_iff S Sh).1 hp with ⟨y, z, _, e, hz⟩ | ⟨_, e⟩ | h1 | ⟨_, e⟩
      · obtain ⟨Z, hZ⟩ := (host_block S hz).2
        unfold inOf at e
        split at e
        · exact (S.F_ne hX).1 e
        · rw [← e] at hZ
          rw [(S.H_ne hZ).2.2] at hX; cases hX
      · subst e
        exact M.startFull (some f) F S.fn x X S.start hX hsu hin
      · exact hf p (mem_succ.2 h1)
      · exact (S.F_ne hX).2.1 e
  · rw [Site.succs_other, map_eq_nil_iff] at hsu
    have hin' : X.instrs.map (renameInstr (outMap F call)) = [] := hin
    rw [map_eq_nil_iff] at hin'
    have hf := (M.part h H S.comp).full x X hX hsu hin'
    rcases (edge_iff S Sh).1 hp with ⟨y, z, _, e, hz⟩ | ⟨_, e⟩ | ⟨Y, hY, hv⟩ | ⟨_, e⟩
    · unfold inOf at e
      split at e
      · exact (S.H_ne hX).1 e
      · rw [← e] at hz
        exact hf y hz
    · obtain ⟨T, hT⟩ := S.start_get
      rw [← e, (S.H_ne hX).2.2] at hT; cases hT
    · obtain ⟨T, hT⟩ := S.saneF.coherent.targets p Y hY _ hv
      rw [(S.H_ne hX).2.2] at hT; cases hT
    · exact (S.H_ne hX).2.1 e

theorem chain_after : ∀ x X z, G'.get x = some X → X.jumpType = "sub_block" → X.fallsTo = some z → ∀ y, z ∈ G'.succ y → y = x := by
  intro x X' z hX' hj hz y hy
  rcases Site.kinds Sh hX' with ⟨rfl, rfl⟩ | ⟨rfl, rfl⟩ | ⟨X, hX, rfl⟩ | ⟨X, hxb, hX, rfl⟩
  · have hz' : blk.fallsTo = some z := hz
    have hzs : z ∈ blk.succs := mem_succs.2 (Or.inr hz')
    obtain ⟨Z, hZ⟩ := S.saneH.coherent.targets b blk S.block z hzs
    have hzb : z ≠ b := fun e => S.self (e ▸ hzs)
    rcases (edge_iff S Sh).1 hy with ⟨u, v, rfl, e, hv⟩ | ⟨_, e⟩ | ⟨Y, hY, hv⟩ | ⟨_, e⟩
    · unfold inOf at e
      split at e
      · exact absurd e (S.H_ne hZ).1
      · rw [← e] at hv
        rw [M.chain h H S.comp b blk z S.block hj hz' u hv]
        simp [outOf]
    · obtain ⟨T, hT⟩ := S.start_get
      rw [← e, (S.H_ne hZ).2.2] at hT; cases hT
    · obtain ⟨T, hT⟩ := S.saneF.coherent.targets y Y hY _ hv
      rw [(S.H_ne hZ).2.2] at hT; cases hT
    · exact absurd e (S.H_ne hZ).2.1
  · have hz' : some s = some z := hz
    obtain rfl := Option.some.inj hz'
    obtain ⟨T, hT⟩ := S.start_get
    rcases (edge_iff S Sh).1 hy with ⟨u, v, rfl, e, hv⟩ | ⟨e, _⟩ | ⟨Y, hY, hv⟩ | ⟨_, e⟩
    · obtain ⟨V, hV⟩ := (host_block S hv).2
      unfold inOf at e
      split at e
      · exact absurd e (S.F_ne hT).1
      · rw [← e] at hV
        rw [(S.H_ne hV).2.2] at hT; cases hT
    · exact e
    · exact absurd (mem_succ.2 ⟨Y, hY, hv⟩) ((M.tidy (some f) F S.fn).entry s y S.start)
    · exact absurd e (S.F_ne hT).2.1
  · have hj' : (if X.jumpType = "FunctionReturn" then "unconditional" else X.jumpType) = "sub_block" := hj
    split at hj'
    · exact absurd hj' (by decide)
    · have hz' : X.fallsTo = some z := hz
      obtain ⟨Z, hZ⟩ := S.saneF.coherent.targets x X hX z (mem_succs.2 (Or.inr hz'))
      rcases (edge_iff S Sh).1 hy with ⟨u, v, rfl, e, hv⟩ | ⟨_, e⟩ | h1 | ⟨_, e⟩
      · obtain ⟨V, hV⟩ := (host_block S hv).2
        unfold inOf at e
        split at e
        · exact absurd e (S.F_ne hZ).1
        · rw [← e] at hV
          rw [(S.H_ne hV).2.2] at hZ; cases hZ
      · subst e
        exact absurd (mem_succ.2 ⟨X, hX, mem_succs.2 (Or.inr hz')⟩) ((M.tidy (some f) F S.fn).entry z x S.start)
      · exact M.chain (some f) F S.fn x X z hX hj' hz' y (mem_succ.2 h1)
      · exact absurd e (S.F_ne hZ).2.1
  · have hz' : redirect b (firstId b) X.fallsTo = some z := hz
    unfold redirect at hz'
    obtain ⟨z0, hz0, e0⟩ := Option.map_eq_some_iff.1 hz'
    have hj' : X.jumpType = "sub_block" := hj
    have hzs : z0 ∈ H.body.succ x := mem_succ.2 ⟨X, hX, mem_succs.2 (Or.inr hz0)⟩
    have ez : z = inOf b z0 := by
      unfold inOf
      rw [← e0]
    obtain ⟨Z, hZ⟩ := (host_block S hzs).2
    have hzne : z ≠ secondId b ∧ F.body.get z = none := by
      rw [ez]
      unfold inOf
      split
      · exact ⟨firstId_ne_secondId b, S.freshF.2⟩
      · exact (S.H_ne hZ).2
    rcases (edge_iff S Sh).1 hy with ⟨u, v, rfl, e, hv⟩ | ⟨_, e⟩ | ⟨Y, hY, hv⟩ | ⟨_, e⟩
    · rw [ez] at e
      have := in_inj S ⟨Z, hZ⟩ (host_block S hv).2 e
      rw [← this] at hv
      rw [M.chain h H S.comp x X z0 hX hj' hz0 u hv]
      simp [outOf, hxb]
    · obtain ⟨T, hT⟩ := S.start_get
      rw [← e, hzne.2] at hT; cases hT
    · obtain ⟨T, hT⟩ := S.saneF.coherent.targets y Y hY _ hv
      rw [hzne.2] at hT; cases hT
    · exact absurd e hzne.1

theorem returns_after : Returns ⟨H.args, G'⟩ ↔ Returns H := by
  constructor
  · rintro ⟨x, X', hX', hj⟩
    rcases Site.kinds Sh hX' with ⟨rfl, rfl⟩ | ⟨rfl, rfl⟩ | ⟨X, hX, rfl⟩ | ⟨X, hxb, hX, rfl⟩
    · exact ⟨b, blk, S.block, hj⟩
    · have : "sub_block" = "FunctionReturn" := hj
      exact absurd this (by decide)
    · have hj' : (if X.jumpType = "FunctionReturn" then "unconditional" else X.jumpType) = "FunctionReturn" := hj
      split at hj'
      · exact absurd hj' (by decide)
      · contradiction
    · exact ⟨x, X, hX, hj⟩
  · rintro ⟨x, X, hX, hj⟩
    by_cases hx : x = b
    · subst hx
      rw [S.block] at hX
      cases hX
      exact ⟨_, _, Site.get_second Sh, hj⟩
    · exact ⟨x, _, S.get_other Sh hx hX, hj⟩

theorem startFull_after : (∀ s0 T, H.body.start = some s0 → H.body.get s0 = some T → T.succs = [] → T.instrs ≠ []) →
    ∀ s' T, G'.start = some s' → G'.get s' = some T → T.succs = [] → T.instrs ≠ [] := by
  intro h0 s' T hs' hT
  obtain ⟨s0, hs0, rfl⟩ := start_after S Sh hs'
  by_cases hb : s0 = b
  · subst hb
    rw [show inOf s0 s0 = firstId s0 from by simp [inOf], Site.get_first Sh] at hT
    cases hT
    intro h1
    rw [Site.succs_first] at h1; cases h1
  · rw [show inOf b s0 = s0 from by simp [inOf, hb]] at hT
    obtain ⟨t, T0, h1, h2⟩ := S.saneH.start
    rw [hs0] at h1
    obtain rfl := Option.some.inj h1
    rw [S.get_other Sh hb h2] at hT
    cases hT
    rw [Site.succs_other]
    intro h3 h4
    rw [map_eq_nil_iff] at h3
    have h4' : T0.instrs.map (renameInstr (outMap F call)) = [] := h4
    rw [map_eq_nil_iff] at h4'
    exact h0 s0 T0 hs0 h2 h3 h4'

/-- The entries of a block are its predecessors. -/
theorem exact_after (E : Ending names O) : ∀ x X, G'.get x = some X → X.entries = [] ∨ X.entries.Perm X.comesFrom := by
  intro x X' hX'
  rcases Site.kinds Sh hX' with ⟨rfl, rfl⟩ | ⟨rfl, rfl⟩ | ⟨X, hX, rfl⟩ | ⟨X, hxb, hX, rfl⟩
  · show entriesOf F call = [] ∨ (entriesOf F call).Perm F.body.returns
    unfold entriesOf
    split
    · exact Or.inl rfl
    · exact Or.inl rfl
    · exact Or.inr (Perm.refl _)
  · exact E.exact h H S.comp b blk S.block
  · show X.entries = [] ∨ X.entries.Perm (if x = s then X.comesFrom ++ [firstId b] else X.comesFrom)
    have h0 := E.exact (some f) F S.fn x X hX
    by_cases hx : x = s
    · left
      have hc : X.comesFrom = [] := by
        rw [eq_nil_iff_forall_not_mem]
        intro p hp
        obtain ⟨P, hP⟩ := S.saneF.coherent.preds x X hX p hp
        exact (M.tidy (some f) F S.fn).entry s p S.start (mem_succ.2 ⟨P, hP, hx ▸ (S.saneF.coherent.edges p x P X hP hX).1 hp⟩)
      rcases h0 with h0 | h0
      · exact h0
      · rw [hc] at h0; exact h0.eq_nil
    · rw [if_neg hx]; exact h0
  · show (if x ∈ blk.succs then replaceName b (secondId b) X.entries else X.entries) = [] ∨
      (if x ∈ blk.succs then replaceName b (secondId b) X.entries else X.entries).Perm
        (if x ∈ blk.succs then replaceName b (secondId b) X.comesFrom else X.comesFrom)
    have h0 := E.exact h H S.comp x X hX
    by_cases hx : x ∈ blk.succs
    · simp only [if_pos hx]; exact replace_perm h0
    · simp only [if_neg hx]; exact h0

omit M Sh in
theorem second_last (hne : blk.instrs.drop (k + 1) ≠ []) :
    (renameBlock (outMap F call) (secondBlock F call b k blk)).instrs.getLast? = blk.instrs.getLast?.map (renameInstr (outMap F call)) := by
  show ((phisOf F call ++ blk.instrs.drop (k + 1)).map (renameInstr (outMap F call))).getLast? = _
  rw [getLast?_map, getLast?_append]
  conv_rhs => rw [S.split, getLast?_append, getLast?_cons, Option.some_or]
  cases hd : (blk.instrs.drop (k + 1)).getLast? with
  | none => rw [getLast?_eq_none_iff] at hd; exact absurd hd hne
  | some j => rfl

/-- How a block ends at which the execution ends. -/
theorem ends_after (E : Ending names O) : ∀ x X, G'.get x = some X →
    (X.jumpType = "terminal" → X.instrs = [] ∨ ∃ i, X.instrs.getLast? = some i ∧ i.op ∈ haltOps ++ names) ∧
    (X.jumpType = "mainExit" → ∀ i, X.instrs.getLast? = some i → i.op ∉ haltOps ++ names) := by
  intro x X' hX'
  have last : ∀ {r : String → String} {l : List Instr}, (l = [] ∨ ∃ i, l.getLast? = some i ∧ i.op ∈ haltOps ++ names) →
      l.map (renameInstr r) = [] ∨ ∃ i, (l.map (renameInstr r)).getLast? = some i ∧ i.op ∈ haltOps ++ names := by
    rintro r l (rfl | ⟨i, h1, h2⟩)
    · exact Or.inl rfl
    · exact Or.inr ⟨renameInstr r i, by rw [getLast?_map, h1]; rfl, h2⟩
  have last' : ∀ {r : String → String} {l : List Instr}, (∀ i, l.getLast? = some i → i.op ∉ haltOps ++ names) →
      ∀ i, (l.map (renameInstr r)).getLast? = some i → i.op ∉ haltOps ++ names := by
    intro r l h0 i hi
    rw [getLast?_map] at hi
    obtain ⟨j, hj, rfl⟩ := Option.map_eq_some_iff.1 hi
    exact h0 j hj
  rcases Site.kinds Sh hX' with ⟨rfl, rfl⟩ | ⟨rfl, rfl⟩ | ⟨X, hX, rfl⟩ | ⟨X, hxb, hX, rfl⟩
  · have hlast : blk.instrs.drop (k + 1) = [] → blk.instrs.getLast? = some call := by
      intro h0; rw [S.split, h0]; simp
    have hcall : call.op ∈ haltOps ++ names := mem_append.2 (Or.inr (by rw [S.op]; exact M.fns f F S.fn))
    refine ⟨fun hj => ?_, fun hj => ?_⟩
    · have hj' : blk.jumpType = "terminal" := hj
      by_cases hne : blk.instrs.drop (k + 1) = []
      · left
        have hsu : blk.succs = [] := by
          rcases (M.part h H S.comp).kinds b blk S.block with ⟨h1, _⟩ | ⟨h1, _⟩ | ⟨h1, _⟩ | ⟨_, h1⟩ | ⟨h1, _⟩
          · rw [hj'] at h1; exact absurd h1 (by decide)
          · rw [hj'] at h1; exact absurd h1 (by decide)
          · rw [hj'] at h1; exact absurd h1 (by decide)
          · exact succs_nil.2 h1
          · rw [hj'] at h1; exact absurd h1 (by decide)
        have hr : F.body.returns = [] := by
          rw [returns_nil S M, call_at S M, not_not]
          exact ⟨hne, hsu⟩
        show (phisOf F call ++ blk.instrs.drop (k + 1)).map _ = []
        rw [hne, append_nil]
        unfold phisOf retsOf
        rw [hr]
        rfl
      · right
        rw [second_last S hne]
        rcases E.terminal h H S.comp b blk S.block hj' with h1 | ⟨i, h1, h2⟩
        · rw [h1] at hne; simp at hne
        · exact ⟨renameInstr _ i, by rw [h1]; rfl, h2⟩
    · have h0 := E.mainExit h H S.comp b blk S.block hj
      have hne : blk.instrs.drop (k + 1) ≠ [] := fun hne => h0 call (hlast hne) hcall
      intro i hi
      rw [second_last S hne] at hi
      obtain ⟨j, hj', rfl⟩ := Option.map_eq_some_iff.1 hi
      exact h0 j hj'
  · have hne : (renameBlock (outMap F call) (firstBlock s b k blk)).jumpType = "sub_block" := rfl
    rw [hne]
    exact ⟨fun h0 => absurd h0 (by decide), fun h0 => absurd h0 (by decide)⟩
  · have hjt : (renameBlock (outMap F call) (calleeBlock F call s b x X)).jumpType =
        if X.jumpType = "FunctionReturn" then "unconditional" else X.jumpType := rfl
    rw [hjt]
    by_cases hj : X.jumpType = "FunctionReturn"
    · rw [if_pos hj]
      exact ⟨fun h0 => absurd h0 (by decide), fun h0 => absurd h0 (by decide)⟩
    · rw [if_neg hj]
      have hx : x ∉ F.body.returns := by
        intro hx
        obtain ⟨Y, hY, h1⟩ := (S.exits.returns x).1 hx
        rw [hX] at hY
        cases hY
        exact hj h1
      rw [S.callee_instrs, if_neg hx]
      exact ⟨fun h0 => last (E.terminal (some f) F S.fn x X hX h0), fun h0 => last' (E.mainExit (some f) F S.fn x X hX h0)⟩
  · exact ⟨fun h0 => last (E.terminal h H S.comp x X hX h0), fun h0 => last' (E.mainExit h H S.comp x X hX h0)⟩

end

/-- Inlining the only call of a function keeps what the lowering needs. -/
theorem mid_kept {names : List String} {R : String → Prop} {Src : Instr → Prop} (hphi : "PhiFunction" ∉ names)
    (hsrc : ∀ r : String → String, (∀ x, Cfg.isConst x = true → r x = x) → ∀ i, Src i → Src (renameInstr r i)) : Kept (Mid names R Src) := by
  intro O O' h f H F s b k blk call G' S Sh A M
  have cases : ∀ {P : Option String → Component → Prop}, P h ⟨H.args, G'⟩ → (∀ c C, O.comp c = some C → c ≠ h → c ≠ some f → P c C) →
      ∀ c C, O'.comp c = some C → P c C := by
    intro P h1 h2 c C hC
    rcases S.comp_cases A hC with ⟨rfl, rfl⟩ | ⟨h3, h4, hC⟩
    · exact h1
    · exact h2 c C hC h3 h4
  have fnCases : ∀ {P : String → Component → Prop}, (∀ g, h = some g → O.fns g = some H → P g ⟨H.args, G'⟩) → (∀ g C, O.fns g = some C → P g C) →
      ∀ g C, O'.fns g = some C → P g C := by
    intro P h1 h2 g C hC
    rcases S.comp_cases A (c := some g) hC with ⟨e, rfl⟩ | ⟨_, _, hC⟩
    · exact h1 g e.symm (by have := S.comp; rw [← e] at this; exact this)
    · exact h2 g C hC
  have hout : ∀ x, Cfg.isConst x = true → outMap F call x = x := fun x hx => Site.out_const hx
  have hboth : ∀ x, Cfg.isConst x = true → bothMap F call x = x := fun x hx => by
    unfold bothMap
    rw [Site.in_const hx, Site.out_const hx]
  refine ⟨?_, ?_, ?_, ?_, ?_, ?_, ?_, ?_, ?_⟩
  · exact cases (tidy_after S Sh (M.tidy h H S.comp) (M.tidy (some f) F S.fn)) fun c C hC _ _ => M.tidy c C hC
  · exact cases (P := fun c C => Part names R c.isNone C.body)
      ⟨placed_after S Sh M hphi, phiEntries_after S Sh M, kinds_after S Sh M, live_after S Sh M, full_after S Sh M⟩ fun c C hC _ _ => M.part c C hC
  · exact cases (P := fun c C => ∀ x X z, C.body.get x = some X → X.jumpType = "sub_block" → X.fallsTo = some z → ∀ y, z ∈ C.body.succ y → y = x)
      (chain_after S Sh M) fun c C hC _ _ => M.chain c C hC
  · exact cases (P := fun _ C => ∀ s T, C.body.start = some s → C.body.get s = some T → T.succs = [] → T.instrs ≠ [])
      (startFull_after S Sh M (M.startFull h H S.comp)) fun c C hC _ _ => M.startFull c C hC
  · exact fnCases (P := fun g _ => g ∈ names) (fun g _ hH => M.fns g H hH) fun g C hC => M.fns g C hC
  · exact fnCases (P := fun g C => Returns C ↔ R g) (fun g _ hH => (returns_after S Sh M).trans (M.rets g H hH)) fun g C hC => M.rets g C hC
  · refine cases (P := fun _ C => ∀ x X, C.body.get x = some X → ∀ i ∈ X.instrs, i.op ∈ names → ∃ F, O'.fns i.op = some F) ?_ ?_
    · intro x X hX i hi ho
      rcases S.instr_source Sh hX hi with ⟨y, Y, j, hY, hj, hne, rfl⟩ | ⟨Y, j, hY, hj, rfl, _⟩ | ⟨_, hq⟩
      · obtain ⟨D, hD⟩ := M.ops h H S.comp y Y hY j hj ho
        exact S.fn_after A hD hne
      · obtain ⟨D, hD⟩ := M.ops (some f) F S.fn x Y hY j hj ho
        refine S.fn_after A hD fun e => ?_
        obtain ⟨n, hn⟩ := getElem?_of_mem hj
        exact S.other (S.only (some f) F x Y S.fn hY n j hn e).1.symm
      · have := S.phisOf_phi hq
        unfold isPhi at this
        have e : i.op = "PhiFunction" := by simpa using this
        rw [e] at ho
        exact absurd ho hphi
    · intro c C hC hc _ x X hX i hi ho
      obtain ⟨D, hD⟩ := M.ops c C hC x X hX i hi ho
      refine S.fn_after A hD fun e => ?_
      obtain ⟨n, hn⟩ := getElem?_of_mem hi
      exact hc (S.only c C x X hC hX n i hn e).1
  · refine cases (P := fun _ C => ∀ x X, C.body.get x = some X → ∀ i ∈ X.instrs, isPhi i = false → Src i) ?_ fun c C hC _ _ => M.src c C hC
    intro x X hX i hi hp
    rcases S.instr_source Sh hX hi with ⟨y, Y, j, hY, hj, hne, rfl⟩ | ⟨Y, j, hY, hj, rfl, _⟩ | ⟨_, hq⟩
    · exact hsrc _ hout j (M.src h H S.comp y Y hY j hj hp)
    · exact hsrc _ hboth j (M.src (some f) F S.fn x Y hY j hj hp)
    · rw [S.phisOf_phi hq] at hp; cases hp
  · refine cases (P := fun _ C => ∀ v ∈ C.args ++ C.body.names, Neat v) ?_ fun c C hC _ _ => M.neat c C hC
    intro v hv
    cases hc : Cfg.isConst v with
    | true => exact Or.inl hc
    | false =>
      rcases S.names_after Sh hv hc with h1 | h1
      · exact M.neat h H S.comp v h1
      · exact M.neat (some f) F S.fn v h1

/-- Inlining the only call of a function keeps what the phases after the lowering need. -/
theorem ending_kept {names : List String} {R : String → Prop} {Src : Instr → Prop} (hphi : "PhiFunction" ∉ names)
    (hsrc : ∀ r : String → String, (∀ x, Cfg.isConst x = true → r x = x) → ∀ i, Src i → Src (renameInstr r i)) (Z : Prop) :
    Kept (fun O => Mid names R Src O ∧ (Z → Ending names O)) := by
  intro O O' h f H F s b k blk call G' S Sh A ⟨M, E0⟩
  refine ⟨mid_kept hphi hsrc _ _ _ _ _ _ _ _ _ _ _ _ S Sh A M, fun z => ?_⟩
  have E := E0 z
  have cases : ∀ {P : Component → Prop}, P ⟨H.args, G'⟩ → (∀ c C, O.comp c = some C → P C) → ∀ c C, O'.comp c = some C → P C := by
    intro P h1 h2 c C hC
    rcases S.comp_cases A hC with ⟨rfl, rfl⟩ | ⟨h3, h4, hC⟩
    · exact h1
    · exact h2 c C hC
  refine ⟨?_, ?_, ?_⟩
  · exact cases (P := fun C => ∀ x X, C.body.get x = some X → X.entries = [] ∨ X.entries.Perm X.comesFrom) (exact_after S Sh M E) E.exact
  · exact cases (P := fun C => ∀ x X, C.body.get x = some X → X.jumpType = "terminal" → X.instrs = [] ∨ ∃ i, X.instrs.getLast? = some i ∧
      i.op ∈ haltOps ++ names) (fun x X hX => (ends_after S Sh M E x X hX).1) E.terminal
  · exact cases (P := fun C => ∀ x X, C.body.get x = some X → X.jumpType = "mainExit" → ∀ i, X.instrs.getLast? = some i → i.op ∉ haltOps ++ names)
      (fun x X hX => (ends_after S Sh M E x X hX).2) E.mainExit

end Grey.Front
