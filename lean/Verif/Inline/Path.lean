/-
Paths and definitions in strict single assignment form.
-/
import Verif.Inline.Spec
import Verif.Cfg.Lemmas
import Mathlib.Data.List.Pairwise
import Mathlib.Data.List.Flatten
namespace Grey.Inline
open List Grey.Cfg

theorem Clear.mono {c : Component} {vs ws : List String} (h : ws ⊆ vs) {b : String} {p : List Instr} (hc : Clear c vs b p) :
    Clear c ws b p := by
  induction hc with
  | start hs hS ha hp => exact .start hs hS (fun v hv => ha v (h hv)) (fun v hv => hp v (h hv))
  | instr _ ho ih => exact .instr ih (fun v hv => ho v (h hv))
  | edge _ hB ht hT hp ih => exact .edge ih hB ht hT (fun v hv => hp v (h hv))

theorem Clear.suffix {c : Component} {vs : List String} {b : String} {p : List Instr} (hc : Clear c vs b p) :
    ∃ B, c.body.get b = some B ∧ p <:+ code B := by
  induction hc with
  | start _ hS _ _ => exact ⟨_, hS, suffix_rfl⟩
  | instr _ _ ih =>
    obtain ⟨B, hB, hs⟩ := ih
    exact ⟨B, hB, (suffix_cons _ _).trans hs⟩
  | edge _ _ _ hT _ _ => exact ⟨_, hT, suffix_rfl⟩

theorem outs_mem_defs {c : Component} {b : String} {B : Block} (hB : c.body.get b = some B) {i : Instr} (hi : i ∈ B.instrs) {x : String}
    (hx : x ∈ i.outs) : x ∈ c.defs :=
  mem_append.2 (Or.inr (mem_flatMap.2 ⟨B, get_mem hB, mem_flatMap.2 ⟨i, hi, hx⟩⟩))

theorem code_mem {B : Block} {i : Instr} (h : i ∈ code B) : i ∈ B.instrs := (mem_filter.1 h).1
theorem phis_mem {B : Block} {i : Instr} (h : i ∈ phis B) : i ∈ B.instrs := (mem_filter.1 h).1

theorem suffix_head_mem {i : Instr} {is l : List Instr} (h : i :: is <:+ l) : i ∈ l := h.subset mem_cons_self

/-- A reachable point where a variable is not defined by any instruction or parameter is reached without defining it. -/
theorem clear_of_not_def {c : Component} {x : String} (hx : x ∉ c.defs) {b : String} {p : List Instr} (h : Clear c [] b p) :
    Clear c [x] b p := by
  have hx2 : ∀ {b : String} {B : Block}, c.body.get b = some B → ∀ i ∈ B.instrs, x ∉ i.outs :=
    fun hB i hi hxo => hx (outs_mem_defs hB hi hxo)
  induction h with
  | start hs hS _ _ =>
    refine .start hs hS ?_ ?_
    · intro v hv; rw [mem_singleton] at hv; subst hv; exact fun ha => hx (mem_append.2 (Or.inl ha))
    · intro v hv i hi; rw [mem_singleton] at hv; subst hv; exact hx2 hS i (phis_mem hi)
  | instr hc _ ih =>
    obtain ⟨B, hB, hs⟩ := hc.suffix
    refine .instr ih ?_
    intro v hv; rw [mem_singleton] at hv; subst hv; exact hx2 hB _ (code_mem (suffix_head_mem hs))
  | edge _ hB ht hT _ ih =>
    refine .edge ih hB ht hT ?_
    intro v hv i hi; rw [mem_singleton] at hv; subst hv; exact hx2 hT i (phis_mem hi)

/-! ### Each variable is defined once -/

theorem defs_blocks {c : Component} (h : c.defs.Nodup) {B B' : Block} (hB : B ∈ c.body.blocks)
    (hB' : B' ∈ c.body.blocks) {x : String} (hx : x ∈ B.instrs.flatMap (·.outs)) (hx' : x ∈ B'.instrs.flatMap (·.outs)) : B = B' := by
  have h2 := (nodup_append.1 h).2.1
  rw [nodup_flatMap] at h2
  by_contra hne
  have hsym : Std.Symm (Function.onFun Disjoint fun b : Block => b.instrs.flatMap (·.outs)) := ⟨fun _ _ hab _ h1 h2 => hab h2 h1⟩
  have := h2.2.forall hB hB' hne
  exact this hx hx'

theorem defs_block {c : Component} (h : c.defs.Nodup) {b : String} {B : Block} (hB : c.body.get b = some B) :
    (B.instrs.flatMap (·.outs)).Nodup := by
  have h2 := (nodup_append.1 h).2.1
  rw [nodup_flatMap] at h2
  exact h2.1 B (get_mem hB)

theorem defs_args {c : Component} (h : c.defs.Nodup) {b : String} {B : Block} (hB : c.body.get b = some B) {i : Instr}
    (hi : i ∈ B.instrs) {x : String} (hx : x ∈ i.outs) : x ∉ c.args := by
  intro ha
  exact (nodup_append.1 h).2.2 x ha x (mem_flatMap.2 ⟨B, get_mem hB, mem_flatMap.2 ⟨i, hi, hx⟩⟩) rfl

theorem suffix_unique : ∀ {l : List Instr}, (l.flatMap (·.outs)).Nodup → ∀ {i i' : Instr} {is is' : List Instr}, i :: is <:+ l →
    i' :: is' <:+ l → ∀ {x : String}, x ∈ i.outs → x ∈ i'.outs → i :: is = i' :: is' := by
  intro l hnd i i' is is' h1 h2 x hx hx'
  have main : ∀ {i i' : Instr} {is is' : List Instr}, i :: is <:+ l → i' :: is' <:+ i :: is → x ∈ i.outs → x ∈ i'.outs →
      i :: is = i' :: is' := by
    intro i i' is is' h1 h2 hx hx'
    rcases suffix_cons_iff.1 h2 with h3 | h3
    · exact h3.symm
    · exfalso
      obtain ⟨t, ht⟩ := h1
      rw [← ht, flatMap_append, flatMap_cons] at hnd
      have h4 := (nodup_append.1 (nodup_append.1 hnd).2.1).2.2 x hx x (mem_flatMap.2 ⟨i', h3.subset mem_cons_self, hx'⟩)
      exact h4 rfl
  rcases suffix_or_suffix_of_suffix h1 h2 with h | h
  · exact (main h2 h hx' hx).symm
  · exact main h1 h hx hx'

theorem code_flatMap_nodup {c : Component} (h : c.defs.Nodup) {b : String} {B : Block} (hB : c.body.get b = some B) :
    ((code B).flatMap (·.outs)).Nodup := by
  have h1 := defs_block h hB
  refine h1.sublist ?_
  unfold code
  exact filter_sublist.flatMap _

/-- The instruction that defines a variable. -/
theorem def_unique {c : Component} (h : c.defs.Nodup) {b b' : String} {B B' : Block} (hB : c.body.get b = some B)
    (hB' : c.body.get b' = some B') {i i' : Instr} {is is' : List Instr} (h1 : i :: is <:+ code B) (h2 : i' :: is' <:+ code B')
    {x : String} (hx : x ∈ i.outs) (hx' : x ∈ i'.outs) : b = b' ∧ i :: is = i' :: is' := by
  have e := defs_blocks h (get_mem hB) (get_mem hB') (x := x) (mem_flatMap.2 ⟨i, code_mem (suffix_head_mem h1), hx⟩)
    (mem_flatMap.2 ⟨i', code_mem (suffix_head_mem h2), hx'⟩)
  subst e
  exact ⟨(get_id hB).symm.trans (get_id hB'), suffix_unique (code_flatMap_nodup h hB) h1 h2 hx hx'⟩

/-- A variable is not defined both by a phi function and another instruction. -/
theorem def_phi_code {c : Component} (h : c.defs.Nodup) {b b' : String} {B B' : Block} (hB : c.body.get b = some B)
    (hB' : c.body.get b' = some B') {i i' : Instr} (h1 : i ∈ code B) (h2 : i' ∈ phis B') {x : String} (hx : x ∈ i.outs)
    (hx' : x ∈ i'.outs) : False := by
  have e := defs_blocks h (get_mem hB) (get_mem hB') (x := x) (mem_flatMap.2 ⟨i, code_mem h1, hx⟩)
    (mem_flatMap.2 ⟨i', phis_mem h2, hx'⟩)
  subst e
  have hnd := defs_block h hB
  rw [nodup_flatMap] at hnd
  have hne : i ≠ i' := by
    rintro rfl
    have a1 := (mem_filter.1 h1).2
    have a2 := (mem_filter.1 h2).2
    simp [a2] at a1
  have hsym : Std.Symm (Function.onFun Disjoint fun i : Instr => i.outs) := ⟨fun _ _ hab _ h1 h2 => hab h2 h1⟩
  exact hnd.2.forall (code_mem h1) (phis_mem h2) hne hx hx'

/-! ### The first definition on a path -/

/-- A reachable point is reached without defining `vs`, or one of `vs` is a parameter or is defined at a point that is reached
without defining any of them before. -/
theorem first_def {c : Component} (vs : List String) {b : String} {p : List Instr} (h : Clear c [] b p) :
    Clear c vs b p ∨ (∃ v ∈ vs, v ∈ c.args) ∨
    (∃ b' i is, Clear c vs b' (i :: is) ∧ ∃ v ∈ vs, v ∈ i.outs) ∨
    (∃ t T, c.body.get t = some T ∧ (∃ v ∈ vs, ∃ i ∈ phis T, v ∈ i.outs) ∧ (c.body.start = some t ∧ (∀ v ∈ vs, v ∉ c.args) ∨ ∃ b' B', Clear c vs b' [] ∧ c.body.get b' = some B' ∧ t ∈ B'.succs)) := by
  induction h with
  | start hs hS _ _ =>
    by_cases ha : ∃ v ∈ vs, v ∈ c.args
    · exact Or.inr (Or.inl ha)
    · rename_i s S _ _
      push Not at ha
      by_cases hp : ∃ v ∈ vs, ∃ i ∈ phis S, v ∈ i.outs
      · exact Or.inr (Or.inr (Or.inr ⟨_, _, hS, hp, Or.inl ⟨hs, ha⟩⟩))
      · push Not at hp
        exact Or.inl (.start hs hS ha hp)
  | instr _ _ ih =>
    rename_i i is _ _
    rcases ih with ih | ih
    · by_cases ho : ∃ v ∈ vs, v ∈ i.outs
      · exact Or.inr (Or.inr (Or.inl ⟨_, _, _, ih, ho⟩))
      · push Not at ho
        exact Or.inl (.instr ih ho)
    · exact Or.inr ih
  | edge _ hB ht hT _ ih =>
    rename_i T _ _
    rcases ih with ih | ih
    · by_cases hp : ∃ v ∈ vs, ∃ i ∈ phis T, v ∈ i.outs
      · exact Or.inr (Or.inr (Or.inr ⟨_, _, hT, hp, Or.inr ⟨_, _, ih, hB, ht⟩⟩))
      · push Not at hp
        exact Or.inl (.edge ih hB ht hT hp)
    · exact Or.inr ih

section
variable {c : Component} (hc : StrictSSA c) {b1 : String} {B1 : Block} {i1 : Instr} {is1 : List Instr} (hB1 : c.body.get b1 = some B1)
  (hi1 : i1 :: is1 <:+ code B1)
include hc hB1 hi1

/-- Before an instruction, the variables it defines are not defined on some path. -/
theorem own_outs_clear (hr : Clear c [] b1 (i1 :: is1)) {r : String} (hro : r ∈ i1.outs) : Clear c [r] b1 (i1 :: is1) := by
  have hm := code_mem (suffix_head_mem hi1)
  rcases first_def [r] hr with h | ⟨v, hv, ha⟩ | ⟨b', i, is, hcl, v, hv, ho⟩ | ⟨t, T, hT, ⟨v, hv, i, hi, ho⟩, _⟩
  · exact h
  · rw [mem_singleton] at hv; subst hv; exact absurd ha (defs_args hc.once hB1 hm hro)
  · rw [mem_singleton] at hv; subst hv
    obtain ⟨B', hB', hs'⟩ := hcl.suffix
    obtain ⟨rfl, e⟩ := def_unique hc.once hB1 hB' hi1 hs' hro ho
    rw [e]; exact hcl
  · rw [mem_singleton] at hv; subst hv
    exact (def_phi_code hc.once hB1 hT (suffix_head_mem hi1) hi hro ho).elim

/-- Where an instruction defines an argument of another instruction, the results of the latter are not defined on some path. -/
theorem outs_clear_at_def {x r : String} (hx : x ∈ i1.ins) (hxc : isConst x = false) (hro : r ∈ i1.outs) {b0 : String}
    {i0 : Instr} {is0 : List Instr} (hr : Clear c [] b0 (i0 :: is0)) (hx0 : x ∈ i0.outs) : Clear c [r] b0 (i0 :: is0) := by
  have hm := code_mem (suffix_head_mem hi1)
  obtain ⟨B0, hB0, hs0⟩ := hr.suffix
  have hm0 := code_mem (suffix_head_mem hs0)
  rcases first_def [x, r] hr with h | ⟨v, hv, ha⟩ | ⟨b', i, is, hcl, v, hv, ho⟩ | ⟨t, T, hT, ⟨v, hv, i, hi, ho⟩, _⟩
  · exact h.mono (by simp)
  · rcases mem_cons.1 hv with rfl | hv
    · exact absurd ha (defs_args hc.once hB0 hm0 hx0)
    · rw [mem_singleton] at hv; subst hv; exact absurd ha (defs_args hc.once hB1 hm hro)
  · obtain ⟨B', hB', hs'⟩ := hcl.suffix
    rcases mem_cons.1 hv with rfl | hv
    · obtain ⟨rfl, e⟩ := def_unique hc.once hB0 hB' hs0 hs' hx0 ho
      rw [e]; exact hcl.mono (by simp)
    · rw [mem_singleton] at hv; subst hv
      obtain ⟨rfl, e⟩ := def_unique hc.once hB1 hB' hi1 hs' hro ho
      rw [← e] at hcl
      exact absurd (hcl.mono (by simp)) (hc.ins b1 B1 i1 is1 hB1 hi1 x hx hxc)
  · rcases mem_cons.1 hv with rfl | hv
    · exact (def_phi_code hc.once hB0 hT (suffix_head_mem hs0) hi hx0 ho).elim
    · rw [mem_singleton] at hv; subst hv
      exact (def_phi_code hc.once hB1 hT (suffix_head_mem hi1) hi hro ho).elim

/-- The same for an argument that is defined by a phi function. -/
theorem outs_clear_at_phi {x r : String} (hx : x ∈ i1.ins) (hxc : isConst x = false) (hro : r ∈ i1.outs) {t : String} {T : Block}
    (hT : c.body.get t = some T) (hr : Clear c [] t (code T)) {i : Instr} (hi : i ∈ phis T) (hxi : x ∈ i.outs) :
    Clear c [r] t (code T) := by
  have hm := code_mem (suffix_head_mem hi1)
  have hrphi : ∀ v ∈ [r], ∀ i ∈ phis T, v ∉ i.outs := by
    intro v hv j hj ho
    rw [mem_singleton] at hv; subst hv
    exact def_phi_code hc.once hB1 hT (suffix_head_mem hi1) hj hro ho
  rcases first_def [x, r] hr with h | ⟨v, hv, ha⟩ | ⟨b', j, is, hcl, v, hv, ho⟩ | ⟨t', T', hT', ⟨v, hv, j, hj, ho⟩, hpre⟩
  · exact h.mono (by simp)
  · rcases mem_cons.1 hv with rfl | hv
    · exact absurd ha (defs_args hc.once hT (phis_mem hi) hxi)
    · rw [mem_singleton] at hv; subst hv; exact absurd ha (defs_args hc.once hB1 hm hro)
  · obtain ⟨B', hB', hs'⟩ := hcl.suffix
    rcases mem_cons.1 hv with rfl | hv
    · exact (def_phi_code hc.once hB' hT (suffix_head_mem hs') hi ho hxi).elim
    · rw [mem_singleton] at hv; subst hv
      obtain ⟨rfl, e⟩ := def_unique hc.once hB1 hB' hi1 hs' hro ho
      rw [← e] at hcl
      exact absurd (hcl.mono (by simp)) (hc.ins b1 B1 i1 is1 hB1 hi1 x hx hxc)
  · rcases mem_cons.1 hv with rfl | hv
    · have e := defs_blocks hc.once (get_mem hT) (get_mem hT') (x := v) (mem_flatMap.2 ⟨i, phis_mem hi, hxi⟩)
        (mem_flatMap.2 ⟨j, phis_mem hj, ho⟩)
      have ett : t = t' := (get_id hT).symm.trans (e ▸ get_id hT')
      subst ett
      rcases hpre with ⟨hs, ha⟩ | ⟨b', B', hcl, hB', ht⟩
      · exact .start hs hT (fun v hv => ha v (mem_cons_of_mem _ hv)) hrphi
      · exact .edge (hcl.mono (by simp)) hB' ht hT hrphi
    · rw [mem_singleton] at hv; subst hv
      exact (def_phi_code hc.once hB1 hT' (suffix_head_mem hi1) hj hro ho).elim

/-- A path that has not defined an argument of an instruction has not defined its results. -/
theorem outs_clear_of_ins_clear {x r : String} (hx : x ∈ i1.ins) (hxc : isConst x = false) (hro : r ∈ i1.outs) {b : String}
    {p : List Instr} (h : Clear c [x] b p) : Clear c [x, r] b p := by
  have hm := code_mem (suffix_head_mem hi1)
  have two : ∀ {P : String → Prop}, P x → P r → ∀ v ∈ [x, r], P v := by
    intro P h1 h2 v hv
    rcases mem_cons.1 hv with rfl | hv
    · exact h1
    · rw [mem_singleton] at hv; subst hv; exact h2
  have hrphi : ∀ {t T}, c.body.get t = some T → ∀ i ∈ phis T, r ∉ i.outs := by
    intro t T hT j hj ho
    exact def_phi_code hc.once hB1 hT (suffix_head_mem hi1) hj hro ho
  induction h with
  | start hs hS ha hp => exact .start hs hS (two (ha x (by simp)) (defs_args hc.once hB1 hm hro)) (two (hp x (by simp)) (hrphi hS))
  | instr hcl ho ih =>
    obtain ⟨B', hB', hs'⟩ := hcl.suffix
    refine .instr ih (two (ho x (by simp)) ?_)
    intro hri
    obtain ⟨rfl, e⟩ := def_unique hc.once hB1 hB' hi1 hs' hro hri
    rw [← e] at hcl
    exact hc.ins b1 B1 i1 is1 hB1 hi1 x hx hxc hcl
  | edge _ hB ht hT hp ih => exact .edge ih hB ht hT (two (hp x (by simp)) (hrphi hT))

end

end Grey.Inline
