/-
Renaming the variables of each component of an object (src/cfg_methods/variable_renaming.py:13-28): C59.
-/
import Verif.Prep.Combine
namespace Grey.Prep
open List Grey.Cfg Grey.Inline

/-! ### Model -/

/-- The components of an object whose functions are `names`, in the order in which they are visited. -/
def components (names : List String) (O : Obj) : List Component := ⟨[], O.main⟩ :: names.filterMap O.fns

/-- src/cfg_methods/variable_renaming.py:13-28 for one object whose functions are `names` (in the order of the dictionary): main code
first, then the functions; the free index goes through. Subobjects are handled separately. -/
def renameObj (names : List String) (O : Obj) : Obj :=
  match renameObject (components names O) 0 with
  | [] => O
  | m :: fs => ⟨m.body, fun f => (names.zip fs).lookup f⟩

/-! ### Renaming by arbitrary maps -/

/-- A component with its variables replaced. -/
def renameComp (r : String → String) (C : Component) : Component := ⟨C.args.map r, renameBlockList r C.body⟩

/-- The variables of each component are replaced by other ones, without collisions within the component. -/
structure Renames (O O' : Obj) (r : Option String → String → String) : Prop where
  comp : ∀ c, O'.comp c = (O.comp c).map (renameComp (r c))
  consts : ∀ c x, isConst x = true → r c x = x
  inj : ∀ c C, O.comp c = some C → ∀ x ∈ C.defs, ∀ y ∈ C.defs, r c x = r c y → x = y
  noConst : ∀ c C, O.comp c = some C → ∀ x ∈ C.defs, isConst (r c x) = false

section
variable {O O' : Obj} {r : Option String → String → String} {V W : Type}

/-- Activations before and after. -/
structure FrRel (O : Obj) (r : Option String → String → String) (base : String → V) (pre : List Instr) (fr fr' : Frame V) : Prop where
  comp : fr'.comp = fr.comp
  block : fr'.block = fr.block
  rest : fr'.rest = fr.rest.map (renameInstr (r fr.comp))
  env : ∃ C, O.comp fr.comp = some C ∧ EnvRel C (r fr.comp) base fr.block (pre ++ fr.rest) fr.env fr'.env

/-- Waiting activations. -/
def WaitRel (O : Obj) (r : Option String → String → String) (base : String → V) (p p' : Frame V × List String) : Prop :=
  ∃ i : Instr, p.2 = i.outs ∧ p'.2 = i.outs.map (r p.1.comp) ∧ FrRel O r base [i] p.1 p'.1

/-- Configurations. -/
structure CRel (O : Obj) (r : Option String → String → String) (base : String → V) (c c' : Conf V W) : Prop where
  cur : FrRel O r base [] c.cur c'.cur
  stack : Forall₂ (WaitRel O r base) c.stack c'.stack
  world : c.world = c'.world

variable (R : Renames O O' r) (ssa : ∀ c C, O.comp c = some C → StrictSSA C) {base : String → V}
include R ssa

/-- The results of an instruction are assigned. -/
theorem assign_rename {c : Option String} {C : Component} (hC : O.comp c = some C) {b : String} {i : Instr} {is : List Instr}
    {env env' : String → V} (h : EnvRel C (r c) base b (i :: is) env env') {vs : List V} (hl : vs.length = i.outs.length) :
    EnvRel C (r c) base b is (assign env (i.outs.zip vs)) (assign env' ((i.outs.map (r c)).zip vs)) := by
  obtain ⟨B, hB, hs⟩ := h.reach.suffix
  have hd : ∀ v ∈ i.outs, v ∈ C.defs := fun v hv => outs_mem_defs hB (code_mem (suffix_head_mem hs)) hv
  refine h.assign (fun v hv w hw e => ?_) (fun v hv => ⟨(ssa c C hC).noConst v (hd v hv), R.noConst c C hC v (hd v hv)⟩) hl
  refine R.inj c C hC v (hd v hv) w ?_ e
  by_contra hw'
  exact hw (clear_of_not_def hw' (.instr h.reach (by simp)))

/-- Going along an edge. -/
theorem goto_edge {c : Option String} {C : Component} (hC : O.comp c = some C) {b t : String} {B : Block} (hB : C.body.get b = some B)
    (ht : t ∈ B.succs) {env env' : String → V} (h : EnvRel C (r c) base b [] env env') {st st' : List (Frame V × List String)}
    (hst : Forall₂ (WaitRel O r base) st st') (w : W) :
    outRel (CRel O r base) Eq (goto C.body c (some b) t env st w) (goto (renameBlockList (r c) C.body) c (some b) t env' st' w) := by
  unfold goto
  rw [get_rename]
  cases hT : C.body.get t with
  | none => trivial
  | some T =>
    simp only [Option.map_some]
    have hreach : Clear C [] t (code T) := .edge h.reach hB ht hT (by simp)
    have hd : ∀ i ∈ phis T, ∀ v ∈ i.outs, v ∈ C.defs := fun i hi v hv => outs_mem_defs hT (phis_mem hi) hv
    rcases h.enter (T' := renameBlock (r c) T) (fun v hv => R.consts c v hv) (ssa c C hC) hB ht hT (phis_rename _ _) rfl
      (fun i hi v hv w hw e => R.inj c C hC v (hd i hi v hv) w (by
        by_contra hw'
        exact hw (clear_of_not_def hw' hreach)) e)
      (fun i hi v hv => ⟨(ssa c C hC).noConst v (hd i hi v hv), R.noConst c C hC v (hd i hi v hv)⟩) with ⟨h1, h2⟩ | ⟨e, e', h1, h2, h3, _⟩
    · rw [h1, h2]; trivial
    · rw [h1, h2]
      exact ⟨⟨rfl, rfl, code_rename _ _, C, hC, h3⟩, hst, rfl⟩

omit ssa in
/-- Starting a component. -/
theorem goto_start {c : Option String} {C : Component} (hC : O.comp c = some C) {s : String} (hs : C.body.start = some s)
    {env env' : String → V} (hv : ∀ v ∈ C.args, env' (r c v) = env v) (hcon : ∀ v, isConst v = true → env v = base v ∧ env' v = base v)
    {st st' : List (Frame V × List String)} (hst : Forall₂ (WaitRel O r base) st st') (w : W) :
    outRel (CRel O r base) Eq (goto C.body c none s env st w) (goto (renameBlockList (r c) C.body) c none s env' st' w) := by
  unfold goto
  rw [get_rename]
  cases hS : C.body.get s with
  | none => trivial
  | some S =>
    simp only [Option.map_some]
    rcases EnvRel.enterStart (ρ := r c) (base := base) hs hS (S' := renameBlock (r c) S) (phis_rename _ _) hv hcon (prev' := none)
      (fun p' h => by cases h) with ⟨h1, h2⟩ | ⟨h1, h2, h3⟩
    · rw [h1, h2]; trivial
    · rw [h1, h2]
      exact ⟨⟨rfl, rfl, code_rename _ _, C, hC, h3⟩, hst, rfl⟩

omit ssa in
theorem fns_rename (g : String) : O'.fns g = (O.fns g).map (renameComp (r (some g))) := R.comp (some g)

/-- A call. -/
theorem call_rename {g : String} {F : Component} (hF : O.fns g = some F) {i : Instr} (hi : i.op = g) {c : Option String} {is : List Instr}
    {fr fr' : Frame V} (hvals : (renameInstr (r c) i).ins.map fr'.env = i.ins.map fr.env)
    {st st' : List (Frame V × List String)} (w : W)
    (hst : Forall₂ (WaitRel O r base) (({ fr with rest := is }, i.outs) :: st)
      (({ fr' with rest := is.map (renameInstr (r c)) }, (renameInstr (r c) i).outs) :: st')) :
    outRel (CRel O r base) Eq (callFn base F i is ⟨fr, st, w⟩)
      (callFn base (renameComp (r (some g)) F) (renameInstr (r c) i) (is.map (renameInstr (r c))) ⟨fr', st', w⟩) := by
  subst hi
  have hC : O.comp (some i.op) = some F := hF
  have ssaF := ssa _ F hC
  have hnd : F.args.Nodup := (nodup_append.1 ssaF.once).1
  unfold callFn
  simp only [renameComp, length_map]
  have hlen : (renameInstr (r c) i).ins.length = i.ins.length := by simp [renameInstr]
  rw [hlen]
  by_cases hl : i.ins.length = F.args.length
  · rw [if_pos hl, if_pos hl]
    have hstart : (renameBlockList (r (some i.op)) F.body).start = F.body.start := rfl
    rw [hstart]
    cases hs : F.body.start with
    | none => trivial
    | some s =>
      simp only
      rw [hvals]
      have e : (F.args.map (r (some i.op))).reverse.zip (i.ins.map fr.env)
          = (F.args.reverse.zip (i.ins.map fr.env)).map fun p => (r (some i.op) p.1, p.2) := by
        rw [← map_reverse, zip_map_left]; rfl
      rw [e]
      have hfst : (F.args.reverse.zip (i.ins.map fr.env)).map Prod.fst = F.args.reverse := zip_fst_eq (by simp [hl])
      refine goto_start R hC hs ?_ ?_ hst w
      · intro v hv
        apply assign_rel
        · intro p hp hpv
          have hp1 : p.1 ∈ F.args := mem_reverse.1 (hfst ▸ mem_map_of_mem hp)
          exact R.inj _ F hC _ (mem_append.2 (Or.inl hp1)) _ (mem_append.2 (Or.inl hv)) hpv
        · left; rw [hfst]; exact mem_reverse.2 hv
      · intro v hv
        constructor
        · apply assign_not_mem
          rw [hfst]
          intro hin
          have := ssaF.noConst v (mem_append.2 (Or.inl (mem_reverse.1 hin)))
          rw [hv] at this; cases this
        · apply assign_not_mem
          rw [map_map]
          intro hin
          obtain ⟨p, hp, hpv⟩ := mem_map.1 hin
          have hp1 : p.1 ∈ F.args := mem_reverse.1 (hfst ▸ mem_map_of_mem hp)
          have := R.noConst _ F hC p.1 (mem_append.2 (Or.inl hp1))
          have hpv' : r (some i.op) p.1 = v := hpv
          rw [hpv', hv] at this; cases this
  · rw [if_neg hl, if_neg hl]; trivial

/-- A return. -/
theorem return_rename {i i' : Instr} {fr fr' : Frame V} {st st' : List (Frame V × List String)} {w : W}
    (hvals : i'.ins.map fr'.env = i.ins.map fr.env) (hst : Forall₂ (WaitRel O r base) st st') :
    outRel (CRel O r base) Eq (returnFn i ⟨fr, st, w⟩) (returnFn i' ⟨fr', st', w⟩) := by
  have hlen : i'.ins.length = i.ins.length := by rw [← length_map (f := fr'.env), hvals, length_map]
  unfold returnFn
  cases hst with
  | nil => trivial
  | @cons p p' st st' hp hst =>
    obtain ⟨gr, outs⟩ := p
    obtain ⟨gr', outs'⟩ := p'
    obtain ⟨j, h1, h2, hfr⟩ := hp
    simp only at h1 h2
    subst h1 h2
    simp only [length_map]
    rw [hlen, hvals]
    by_cases hl : i.ins.length = j.outs.length
    · rw [if_pos hl, if_pos hl]
      obtain ⟨C, hC, he⟩ := hfr.env
      exact ⟨⟨hfr.comp, hfr.block, hfr.rest, C, hC, assign_rename R ssa hC he (by simpa using hl)⟩, hst, rfl⟩
    · rw [if_neg hl, if_neg hl]; trivial

/-- One step. -/
theorem step_rename (sem : Sem V W) {c c' : Conf V W} (hc : CRel O r base c c') :
    outRel (CRel O r base) Eq (step sem base O c) (step sem base O' c') := by
  obtain ⟨⟨comp, b, rest, env⟩, st, w⟩ := c
  obtain ⟨⟨comp', b', rest', env'⟩, st', w'⟩ := c'
  obtain ⟨⟨h1, h2, h3, C, hC, he⟩, hst, hw⟩ := hc
  simp only at h1 h2 h3 hC hst hw
  subst h1 h2 h3 hw
  simp only [nil_append] at he
  unfold step
  simp only
  rw [R.comp, hC]
  simp only [Option.map_some]
  cases rest with
  | nil =>
    simp only [map_nil, renameComp]
    rw [get_rename]
    cases hB : C.body.get b' with
    | none => trivial
    | some B =>
      simp only [Option.map_some]
      refine leave_rel (g := id) (ρ := r comp') sem (by simp [renameBlock]) (by simp [renameBlock]) rfl ?_ rfl ?_
      · intro x hx
        exact he.value (fun v hv => R.consts _ v hv) fun hcx => (ssa _ C hC).cond b' B x hB hx hcx
      · intro t ht
        exact goto_edge R ssa hC hB ht he hst w
  | cons i is =>
    simp only [map_cons]
    obtain ⟨B, hB, hs⟩ := he.reach.suffix
    have hvals := he.ins (fun v hv => R.consts comp' v hv) (ssa _ C hC) hB hs
    have hop : (renameInstr (r comp') i).op = i.op := rfl
    rw [hop, fns_rename R]
    cases hF : O.fns i.op with
    | some F =>
      simp only [Option.map_some]
      refine call_rename R ssa hF rfl (fr := ⟨comp', b', i :: is, env⟩) (fr' := ⟨comp', b', _, env'⟩) hvals w ?_
      exact .cons ⟨i, rfl, rfl, rfl, rfl, rfl, C, hC, he⟩ hst
    | none =>
      simp only [Option.map_none]
      by_cases ho : i.op = "functionReturn"
      · rw [if_pos ho, if_pos ho]
        exact return_rename R ssa hvals hst
      · rw [if_neg ho, if_neg ho]
        unfold operate
        simp only
        rw [hop, hvals]
        have hlo : (renameInstr (r comp') i).outs.length = i.outs.length := by simp [renameInstr]
        rw [hlo]
        generalize sem.op i.op (i.ins.map env) w = q
        cases q.2.2 with
        | false => simp [outRel]
        | true =>
          simp only [if_true]
          by_cases hl : q.1.length = i.outs.length
          · rw [if_pos hl, if_pos hl]
            exact ⟨⟨rfl, rfl, rfl, C, hC, assign_rename R ssa hC he hl⟩, hst, rfl⟩
          · rw [if_neg hl, if_neg hl]; trivial

/-- Renaming preserves executions. -/
theorem renames_sameRuns : SameRuns O O' := by
  intro V W sem base w
  have hmain : O'.main = renameBlockList (r none) O.main := by
    have := R.comp none
    simp only [Obj.comp, Option.map_some, Option.some.injEq, renameComp, Component.mk.injEq] at this
    exact this.2
  have hstart : outRel (CRel O r base) Eq (Inline.start base O w) (Inline.start base O' w) := by
    unfold Inline.start
    rw [hmain]
    have e : (renameBlockList (r none) O.main).start = O.main.start := rfl
    rw [e]
    cases hs : O.main.start with
    | none => trivial
    | some s => exact goto_start R (C := ⟨[], O.main⟩) rfl hs (fun v hv => by cases hv) (fun v _ => ⟨rfl, rfl⟩) .nil w
  have := lockstep (f := run sem base O w) (g := run sem base O' w) (Q := Eq)
    (R := fun c c' => match c, c' with
      | none, none => True
      | some c, some c' => CRel O r base c c'
      | _, _ => False) (by
    intro c c' hc
    have lift : ∀ {o o' : Out (Conf V W) W}, outRel (CRel O r base) Eq o o' → outRel (fun c c' => match c, c' with
      | none, none => True
      | some c, some c' => CRel O r base c c'
      | _, _ => False) Eq (o.map some) (o'.map some) := by
      intro o o' ho
      cases o <;> cases o' <;> exact ho
    match c, c', hc with
    | none, none, _ => exact lift hstart
    | some c, some c', hc => exact lift (step_rename R ssa sem hc)) (c := none) (c' := none) trivial
  refine ⟨fun s => ⟨?_, ?_⟩, this.2.2⟩
  · intro hs
    obtain ⟨s', h1, rfl⟩ := this.1 s hs
    exact h1
  · intro hs
    obtain ⟨s', h1, rfl⟩ := this.2.1 s hs
    exact h1

end

end Grey.Prep
