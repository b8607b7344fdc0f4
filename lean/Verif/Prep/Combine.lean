/-
Combining blocks in all components of an object (src/cfg_methods/sub_block_generation.py:152-178): C58.
-/
import Verif.Prep.Merge
namespace Grey.Prep
open List Grey.Cfg Grey.Inline

/-! ### Model -/

/-- src/cfg_methods/sub_block_generation.py:157-163: the given components, in this order. `names` are the names of the functions
(line 158) and the split instructions. -/
def combineComps (names : List String) : List (Option String) → Obj → Option Obj
  | [], O => some O
  | c :: cs, O => (O.comp c).bind fun C => (combineRemove names C.body).bind fun G => combineComps names cs (O.set c G)

/-- src/cfg_methods/sub_block_generation.py:152-163 for one object whose functions are `names`. Subobjects are handled separately. -/
def combineObj (names : List String) (O : Obj) : Option Obj := combineComps names (none :: names.map some) O

/-! ### Specification -/

/-- `v` is the only successor of `u`, and `u` is the only predecessor of `v`. -/
def Chain (G : BlockList) (u v : String) : Prop := (∀ x, x ∈ G.succ u ↔ x = v) ∧ ∀ x, v ∈ G.succ x ↔ x = u

/-- Graphs on which combining works: nothing leads to the entry, blocks with phi functions are joins, and no loop consists of a run of
blocks that follow each other without branches and joins. -/
structure Tidy (G : BlockList) : Prop where
  entry : ∀ s x, G.start = some s → s ∉ G.succ x
  joins : ∀ x X, G.get x = some X → phis X ≠ [] → ∃ p q, p ≠ q ∧ x ∈ G.succ p ∧ x ∈ G.succ q
  loops : ∀ h w, Relation.TransGen (Chain G) h w → h ∉ G.succ w

/-! ### Proofs -/

theorem pair_chain {names : List String} {G : BlockList} {u v : String} (h : (u, v) ∈ nodesToMerge names G) : Chain G u v :=
  (nodesToMerge_spec h).2.2

theorem tidy_start {names : List String} {G : BlockList} (h : Tidy G) : ∀ p ∈ nodesToMerge names G, G.start ≠ some p.2 := by
  rintro ⟨u, v⟩ hp hs
  have := pair_chain hp
  exact h.entry v u hs ((this.1 v).2 rfl)

theorem tidy_phi {names : List String} {G : BlockList} (h : Tidy G) :
    ∀ p ∈ nodesToMerge names G, ∀ B, G.get p.2 = some B → ∀ i ∈ B.instrs, isPhi i = false := by
  rintro ⟨u, v⟩ hp B hB i hi
  have hc := pair_chain hp
  cases hh : isPhi i with
  | false => rfl
  | true =>
    have hne : phis B ≠ [] := by
      intro h0
      have : i ∈ phis B := mem_filter.2 ⟨hi, hh⟩
      rw [h0] at this; cases this
    obtain ⟨p, q, hpq, h1, h2⟩ := h.joins v B hB hne
    exact absurd (((hc.2 p).1 h1).trans ((hc.2 q).1 h2).symm) hpq

theorem tidy_loop {names : List String} {G : BlockList} (h : Tidy G) :
    ∀ a w, Relation.TransGen (fun u v => (u, v) ∈ nodesToMerge names G) a w → a ∉ G.succ w := by
  intro a w ht
  exact h.loops a w (Relation.TransGen.lift id (fun _ _ hp => pair_chain hp) _ _ ht)

theorem set_set {O : Obj} {h : Option String} (X Y : BlockList) : (O.set h X).set h Y = O.set h Y := by
  cases h with
  | none => rfl
  | some f =>
    simp only [Obj.set, Obj.mk.injEq, true_and]
    funext x
    by_cases hx : x = f
    · simp only [hx, if_true]
      cases O.fns f <;> rfl
    · simp only [hx, if_false]

theorem set_self {O : Obj} {h : Option String} {H : Component} (hH : O.comp h = some H) : O.set h H.body = O := by
  cases h with
  | none =>
    have : H = ⟨[], O.main⟩ := by simpa [Obj.comp] using hH.symm
    rw [this]; rfl
  | some f =>
    have hH' : O.fns f = some H := hH
    obtain ⟨m, fns⟩ := O
    simp only [Obj.set, Obj.mk.injEq, true_and]
    funext x
    by_cases hx : x = f
    · simp only [hx, if_true]
      simp only at hH'
      rw [hH']; rfl
    · simp only [hx, if_false]

/-- One component. -/
theorem combine_comp {names : List String} {O : Obj} {h : Option String} {H : Component} (hH : O.comp h = some H) (hG : Sane H.body)
    (ht : Tidy H.body) : ∃ G', combineRemove names H.body = some G' ∧ G'.start = H.body.start ∧ SameRuns O (O.set h G') := by
  obtain ⟨G1, h1, h2, h3, -, h4, -⟩ := combine_core (names := names) hG (tidy_start ht) (tidy_phi ht) (tidy_loop ht)
  have hruns : SameRuns (O.set h H.body) (O.set h G1) := by
    refine h4 (fun X Y => SameRuns (O.set h X) (O.set h Y)) (fun X => SameRuns.refl _) (fun X Y Z a b => a.trans b) ?_
    intro X a b A B X' hX hm he
    have hc : (O.set h X).comp h = some ⟨H.args, X⟩ := by rw [comp_set hH, if_pos rfl]
    have := merge_sameRuns hc hX hm he
    rwa [set_set] at this
  rw [set_self hH] at hruns
  obtain ⟨s, S, hs, hS⟩ := h2.start
  obtain ⟨G', h5, h6, -⟩ := remove_unreachable h2.coherent hs hS
  refine ⟨G', by unfold combineRemove; rw [h1]; exact h5, by rw [h6, ← h3, hs], ?_⟩
  have hc : (O.set h G1).comp h = some ⟨H.args, G1⟩ := by rw [comp_set hH, if_pos rfl]
  have := remove_sameRuns hc h2 h5
  rw [set_set] at this
  exact hruns.trans this

theorem combine_comps {names : List String} : ∀ (cs : List (Option String)) (O : Obj), cs.Nodup →
    (∀ c ∈ cs, ∃ C, O.comp c = some C ∧ Sane C.body ∧ Tidy C.body) →
    ∃ O', combineComps names cs O = some O' ∧ SameRuns O O' ∧
      (∀ c, c ∉ cs → O'.comp c = O.comp c) ∧
      ∀ c ∈ cs, ∀ C, O.comp c = some C → ∃ G, combineRemove names C.body = some G ∧ O'.comp c = some ⟨C.args, G⟩ := by
  intro cs
  induction cs with
  | nil =>
    intro O _ _
    exact ⟨O, rfl, SameRuns.refl O, fun _ _ => rfl, fun c hc => by cases hc⟩
  | cons c cs ih =>
    intro O hn hok
    rw [nodup_cons] at hn
    obtain ⟨C, hC, hsane, htidy⟩ := hok c mem_cons_self
    obtain ⟨G, h1, _, h2⟩ := combine_comp (names := names) hC hsane htidy
    have hother : ∀ d, d ≠ c → (O.set c G).comp d = O.comp d := fun d hd => by rw [comp_set hC, if_neg hd]
    obtain ⟨O', h3, h4, h5, h6⟩ := ih (O.set c G) hn.2 (by
      intro d hd
      rw [hother d (by rintro rfl; exact hn.1 hd)]
      exact hok d (mem_cons_of_mem _ hd))
    refine ⟨O', ?_, h2.trans h4, ?_, ?_⟩
    · unfold combineComps
      rw [hC, Option.bind_some, h1, Option.bind_some]
      exact h3
    · intro d hd
      rw [mem_cons, not_or] at hd
      rw [h5 d hd.2, hother d hd.1]
    · intro d hd D hD
      rcases mem_cons.1 hd with rfl | hd'
      · rw [hC] at hD
        cases hD
        refine ⟨G, h1, ?_⟩
        rw [h5 d hn.1, comp_set hC, if_pos rfl]
      · exact h6 d hd' D (by rw [hother d (by rintro rfl; exact hn.1 hd')]; exact hD)

/-- **C58.** Combine the blocks of all components of an object whose graphs are well-formed and tidy. No step fails, every function is
still there with the same parameters, and the object has the same executions, calls included. -/
theorem combining_preserves {names : List String} {O : Obj} (hnames : names.Nodup) (hfns : ∀ f, f ∈ names ↔ ∃ F, O.fns f = some F)
    (hok : ∀ c C, O.comp c = some C → Sane C.body ∧ Tidy C.body) :
    ∃ O', combineObj names O = some O' ∧ SameRuns O O' ∧
      ∀ c, (O'.comp c).map (·.args) = (O.comp c).map (·.args) ∧
        ∀ C, O.comp c = some C → ∃ C', O'.comp c = some C' ∧ combineRemove names C.body = some C'.body := by
  have hmem : ∀ c C, O.comp c = some C → c ∈ none :: names.map some := by
    intro c C hC
    cases c with
    | none => exact mem_cons_self
    | some f => exact mem_cons_of_mem _ (mem_map.2 ⟨f, (hfns f).2 ⟨C, hC⟩, rfl⟩)
  obtain ⟨O', h1, h2, h3, h4⟩ := combine_comps (names := names) (none :: names.map some) O
    (nodup_cons.2 ⟨by simp, hnames.map (fun _ _ h => by simpa using h)⟩) (by
      intro c hc
      cases c with
      | none => exact ⟨⟨[], O.main⟩, rfl, hok none _ rfl⟩
      | some f =>
        have hf : f ∈ names := by simpa using hc
        obtain ⟨F, hF⟩ := (hfns f).1 hf
        exact ⟨F, hF, hok (some f) F hF⟩)
  refine ⟨O', h1, h2, ?_⟩
  intro c
  cases hC : O.comp c with
  | none =>
    refine ⟨?_, fun C h => by cases h⟩
    rw [h3 c, hC]
    intro hc
    cases c with
    | none => cases hC
    | some f =>
      have hf : f ∈ names := by simpa using hc
      obtain ⟨F, hF⟩ := (hfns f).1 hf
      have : O.comp (some f) = some F := hF
      rw [hC] at this; cases this
  | some C =>
    obtain ⟨G, h5, h6⟩ := h4 c (hmem c C hC) C hC
    refine ⟨by rw [h6]; rfl, ?_⟩
    intro D hD
    cases hD
    exact ⟨_, h6, h5⟩

end Grey.Prep
