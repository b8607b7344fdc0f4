/-
Environments of related activations.
-/
import Verif.Inline.Site
namespace Grey.Inline
open List Grey.Cfg

/-- `env'` has, under the new names, the values which `env` has for the variables available before the instructions `p` of block `b`. -/
structure EnvRel {V : Type} (c : Component) (ρ : String → String) (base : String → V) (b : String) (p : List Instr)
    (env env' : String → V) : Prop where
  reach : Clear c [] b p
  vars : ∀ v, isConst v = false → ¬ Clear c [v] b p → env' (ρ v) = env v
  consts : ∀ v, isConst v = true → env v = base v ∧ env' v = base v

section
variable {V : Type} {c : Component} {ρ : String → String} {base : String → V}

theorem EnvRel.value (hρ : ∀ v, isConst v = true → ρ v = v) {b : String} {p : List Instr} {env env' : String → V}
    (h : EnvRel c ρ base b p env env') {v : String} (hv : isConst v = false → ¬ Clear c [v] b p) : env' (ρ v) = env v := by
  cases hc : isConst v with
  | true => rw [hρ v hc, (h.consts v hc).1, (h.consts v hc).2]
  | false => exact h.vars v hc (hv hc)

/-- The arguments of an instruction. -/
theorem EnvRel.ins (hρ : ∀ v, isConst v = true → ρ v = v) (hc : StrictSSA c) {b : String} {B : Block} (hB : c.body.get b = some B)
    {i : Instr} {is : List Instr} (hs : i :: is <:+ code B) {env env' : String → V} (h : EnvRel c ρ base b (i :: is) env env') :
    (renameInstr ρ i).ins.map env' = i.ins.map env := by
  simp only [renameInstr, map_map]
  apply map_congr_left
  intro x hx
  exact h.value hρ fun hcx => hc.ins b B i is hB hs x hx hcx

theorem EnvRel.defs {b : String} {p : List Instr} {env env' : String → V} (h : EnvRel c ρ base b p env env') {v : String}
    (hv : ¬ Clear c [v] b p) : v ∈ c.defs := by
  by_contra hd
  exact hv (clear_of_not_def hd h.reach)

/-- After an instruction has assigned its results. -/
theorem EnvRel.assign {b : String} {i : Instr} {is : List Instr} {env env' : String → V} (h : EnvRel c ρ base b (i :: is) env env')
    (hinj : ∀ v ∈ i.outs, ∀ w, ¬ Clear c [w] b is → ρ v = ρ w → v = w) (hk : ∀ v ∈ i.outs, isConst v = false ∧ isConst (ρ v) = false)
    {vs : List V} (hl : vs.length = i.outs.length) :
    EnvRel c ρ base b is (assign env (i.outs.zip vs)) (assign env' ((renameInstr ρ i).outs.zip vs)) := by
  have e : (renameInstr ρ i).outs.zip vs = (i.outs.zip vs).map fun p => (ρ p.1, p.2) := by
    simp only [renameInstr, zip_map_left]
    rfl
  refine ⟨.instr h.reach (by simp), ?_, ?_⟩
  · intro w hwc hw
    rw [e]
    apply assign_rel
    · intro p hp hpw
      exact hinj p.1 (of_mem_zip (show (p.1, p.2) ∈ i.outs.zip vs from hp)).1 w hw hpw
    · by_cases hwo : w ∈ i.outs
      · left; rw [zip_fst_eq hl.symm]; exact hwo
      · right
        refine h.vars w hwc fun hcl => hw (.instr hcl ?_)
        intro v hv; rw [mem_singleton] at hv; subst hv; exact hwo
  · intro v hv
    have h1 : v ∉ (i.outs.zip vs).map Prod.fst := by
      intro hh
      have := (hk v (zip_fst_sub hh)).1
      rw [hv] at this; cases this
    have h2 : v ∉ ((renameInstr ρ i).outs.zip vs).map Prod.fst := by
      intro hh
      obtain ⟨x, hx, rfl⟩ := mem_map.1 (show v ∈ i.outs.map ρ from zip_fst_sub hh)
      have := (hk x hx).2
      rw [hv] at this; cases this
    rw [assign_not_mem h1, assign_not_mem h2]
    exact h.consts v hv

/-- Variables that are not assigned. -/
theorem assign_outs_other {i : Instr} {env' : String → V} {vs : List V} {y : String} (hy : ∀ v ∈ i.outs, ρ v ≠ y) :
    assign env' ((renameInstr ρ i).outs.zip vs) y = env' y := by
  apply assign_not_mem
  intro hh
  obtain ⟨x, hx, hxy⟩ := mem_map.1 (show y ∈ i.outs.map ρ from zip_fst_sub hh)
  exact hy x hx hxy

theorem idxOf?_getElem? {l : List String} {x : String} {k : Nat} (h : l.idxOf? x = some k) : l[k]? = some x := by
  induction l generalizing k with
  | nil => simp at h
  | cons a l ih =>
    rw [idxOf?_cons] at h
    by_cases hax : a = x
    · simp only [hax, beq_self_eq_true, if_true, Option.some.injEq] at h
      subst h; simp [hax]
    · have : (a == x) = false := by simpa using hax
      rw [this] at h
      simp only [Bool.false_eq_true, if_false, Option.map_eq_some_iff] at h
      obtain ⟨m, hm, rfl⟩ := h
      simpa using ih hm

/-- The pairs which the phi functions assign. -/
def phiPairs (env : String → V) (n : Nat) (l : List Instr) : List (String × V) :=
  l.filterMap (fun i => match i.outs, i.ins[n]? with | [x], some a => some (x, env a) | _, _ => none)

theorem execPhis_eq (env : String → V) (n : Nat) (l : List Instr) : execPhis env n l = Cfg.assign env (phiPairs env n l) := by
  unfold execPhis phiPairs
  congr 1

theorem phi_pairs (hc : StrictSSA c) {t : String} {T : Block} (hT : c.body.get t = some T) {p : String} {n : Nat}
    (hn : T.entries.idxOf? p = some n) {env env' : String → V} (hval : ∀ v, (isConst v = false → ¬ Clear c [v] p []) → env' (ρ v) = env v) :
    phiPairs env' n ((phis T).map (renameInstr ρ)) = (phiPairs env n (phis T)).map (fun q => (ρ q.1, q.2)) ∧
    (phiPairs env n (phis T)).map Prod.fst = (phis T).flatMap (·.outs) := by
  unfold phiPairs
  have hall : ∀ i ∈ phis T, ∃ x a, i.outs = [x] ∧ i.ins[n]? = some a ∧ env' (ρ a) = env a := by
    intro i hi
    obtain ⟨hl, x, hx⟩ := hc.shape t T i hT hi
    have hp := idxOf?_getElem? hn
    have hlt : n < i.ins.length := by rw [hl]; exact (List.getElem?_eq_some_iff.1 hp).1
    exact ⟨x, i.ins[n], hx, getElem?_eq_getElem hlt, hval _ fun hcv => hc.phis t T i hT hi n p _ hp (getElem?_eq_getElem hlt) hcv⟩
  generalize phis T = l at hall
  induction l with
  | nil => simp
  | cons i l ih =>
    obtain ⟨x, a, h1, h2, h3⟩ := hall i mem_cons_self
    obtain ⟨ih1, ih2⟩ := ih fun j hj => hall j (mem_cons_of_mem _ hj)
    constructor
    · rw [map_cons, filterMap_cons, filterMap_cons, ih1]
      simp only [renameInstr, h1, map_cons, map_nil, getElem?_map, h2, Option.map_some, h3]
    · rw [filterMap_cons, flatMap_cons]
      simp only [h1, h2, map_cons, ih2, cons_append, nil_append]

/-- Entering a block along an edge. -/
theorem EnvRel.enter (hρ : ∀ v, isConst v = true → ρ v = v) (hc : StrictSSA c) {p t : String} {P T T' : Block}
    (hP : c.body.get p = some P) (ht : t ∈ P.succs) (hT : c.body.get t = some T) {env env' : String → V}
    (h : EnvRel c ρ base p [] env env') {p' : String} (hph : phis T' = (phis T).map (renameInstr ρ))
    (hidx : T'.entries.idxOf? p' = T.entries.idxOf? p)
    (hinj : ∀ i ∈ phis T, ∀ v ∈ i.outs, ∀ w, ¬ Clear c [w] t (code T) → ρ v = ρ w → v = w)
    (hk : ∀ i ∈ phis T, ∀ v ∈ i.outs, isConst v = false ∧ isConst (ρ v) = false) :
    (Cfg.enter T (some p) env = none ∧ Cfg.enter T' (some p') env' = none) ∨
    ∃ e e', Cfg.enter T (some p) env = some e ∧ Cfg.enter T' (some p') env' = some e' ∧ EnvRel c ρ base t (code T) e e' ∧
      ∀ y, (∀ i ∈ phis T, ∀ v ∈ i.outs, ρ v ≠ y) → e' y = env' y := by
  have hreach : Clear c [] t (code T) := .edge h.reach hP ht hT (by simp)
  unfold Cfg.enter enterWith
  have hphT : T.instrs.filter isPhi = phis T := rfl
  have hphT' : T'.instrs.filter isPhi = (phis T).map (renameInstr ρ) := hph
  rw [hphT, hphT']
  by_cases h0 : phis T = []
  · right
    refine ⟨env, env', by simp [h0], by simp [h0], ⟨hreach, ?_, h.consts⟩, fun _ _ => rfl⟩
    intro v hv hcl
    refine h.vars v hv fun hh => hcl (.edge hh hP ht hT ?_)
    rw [h0]; simp
  · have h0' : (phis T).map (renameInstr ρ) ≠ [] := by simpa using h0
    rw [if_neg h0, if_neg h0']
    simp only [Option.bind_some, hidx]
    cases hn : T.entries.idxOf? p with
    | none => left; exact ⟨rfl, rfl⟩
    | some n =>
      right
      obtain ⟨hp1, hp2⟩ := phi_pairs (ρ := ρ) hc hT hn (env := env) (env' := env') fun v hv => h.value hρ hv
      refine ⟨_, _, rfl, rfl, ?_, ?_⟩
      · beta_reduce
        rw [execPhis_eq, execPhis_eq, hp1]
        refine ⟨hreach, ?_, ?_⟩
        · intro w hwc hw
          apply assign_rel
          · intro q hq hqw
            have h1 : q.1 ∈ (phis T).flatMap (·.outs) := by rw [← hp2]; exact mem_map_of_mem hq
            obtain ⟨i, hi, hqi⟩ := mem_flatMap.1 h1
            exact hinj i hi q.1 hqi w hw hqw
          · rw [hp2]
            by_cases hwo : w ∈ (phis T).flatMap (·.outs)
            · exact Or.inl hwo
            · right
              refine h.vars w hwc fun hcl => hw (.edge hcl hP ht hT ?_)
              intro v hv i hi hvo
              rw [mem_singleton] at hv; subst hv
              exact hwo (mem_flatMap.2 ⟨i, hi, hvo⟩)
        · intro v hv
          rw [assign_not_mem, assign_not_mem]
          · exact h.consts v hv
          · intro hh
            rw [map_map] at hh
            obtain ⟨q, hq, hqv⟩ := mem_map.1 hh
            have h1 : q.1 ∈ (phis T).flatMap (·.outs) := by rw [← hp2]; exact mem_map_of_mem hq
            obtain ⟨i, hi, hqi⟩ := mem_flatMap.1 h1
            have := (hk i hi q.1 hqi).2
            have hqv' : ρ q.1 = v := hqv
            rw [hqv', hv] at this; cases this
          · rw [hp2]
            intro hh
            obtain ⟨i, hi, hvi⟩ := mem_flatMap.1 hh
            have := (hk i hi v hvi).1
            rw [hv] at this; cases this
      · intro y hy
        beta_reduce
        rw [execPhis_eq, hp1]
        apply assign_not_mem
        intro hh
        rw [map_map] at hh
        obtain ⟨q, hq, hqv⟩ := mem_map.1 hh
        have h1 : q.1 ∈ (phis T).flatMap (·.outs) := by rw [← hp2]; exact mem_map_of_mem hq
        obtain ⟨i, hi, hqi⟩ := mem_flatMap.1 h1
        exact hy i hi q.1 hqi hqv

/-- Entering the first block. -/
theorem EnvRel.enterStart {s : String} {S S' : Block} (hs : c.body.start = some s) (hS : c.body.get s = some S)
    (hph : phis S' = (phis S).map (renameInstr ρ)) {env env' : String → V} (hv : ∀ v ∈ c.args, env' (ρ v) = env v)
    (hcon : ∀ v, isConst v = true → env v = base v ∧ env' v = base v) {prev' : Option String}
    (hidx : ∀ p', prev' = some p' → S'.entries.idxOf? p' = none) :
    (Cfg.enter S none env = none ∧ Cfg.enter S' prev' env' = none) ∨
    (Cfg.enter S none env = some env ∧ Cfg.enter S' prev' env' = some env' ∧ EnvRel c ρ base s (code S) env env') := by
  unfold Cfg.enter enterWith
  have hphT : S.instrs.filter isPhi = phis S := rfl
  have hphT' : S'.instrs.filter isPhi = (phis S).map (renameInstr ρ) := hph
  rw [hphT, hphT']
  by_cases h0 : phis S = []
  · right
    refine ⟨by simp [h0], by simp [h0], .start hs hS (by simp) (by simp), ?_, hcon⟩
    intro v _ hcl
    by_cases ha : v ∈ c.args
    · exact hv v ha
    · exfalso
      apply hcl
      refine .start hs hS ?_ (by rw [h0]; simp)
      intro w hw; rw [mem_singleton] at hw; subst hw; exact ha
  · left
    have h0' : (phis S).map (renameInstr ρ) ≠ [] := by simpa using h0
    rw [if_neg h0, if_neg h0']
    refine ⟨rfl, ?_⟩
    cases prev' with
    | none => rfl
    | some p' => simp [hidx p' rfl]

end

end Grey.Inline
