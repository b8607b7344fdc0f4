/-
Renaming of variables (src/cfg_methods/variable_renaming.py): C19 and C20.
-/
import Verif.Cfg.Check
import Verif.Common.Names
namespace Grey.Cfg
open List

/-! ### Model -/

/-- `variable.startswith("0x")` -/
def isConst (x : String) : Bool := x.toList.take 2 == ['0', 'x']

/-- The loops of src/cfg_methods/variable_renaming.py:45-53 over the variables defined, in order: a dictionary (`none`: no such
key), starting with the dictionary `d` and the free index `n`. -/
def renamingDict : List String → Nat → (String → Option String) → String → Option String
  | [], _, d => d
  | x :: xs, n, d => renamingDict xs (n + 1) fun y => if y = x then some ("v" ++ toString n) else d y

/-- src/cfg_methods/variable_renaming.py:84-104 for one variable. -/
def renameVar (d : String → Option String) (x : String) : String := if isConst x then x else (d x).getD x

/-- src/cfg_methods/variable_renaming.py:79-81 -/
def renameInstr (r : String → String) (i : Instr) : Instr := { i with ins := i.ins.map r, outs := i.outs.map r }

/-- src/cfg_methods/variable_renaming.py:69-76: the instructions and the condition of a block. -/
def renameBlock (r : String → String) (b : Block) : Block :=
  { b with instrs := b.instrs.map (renameInstr r), cond := b.cond.map r }

/-- src/cfg_methods/variable_renaming.py:62-76. The dictionary of assignments of the list is not modelled (it is only
reported). -/
def renameBlockList (r : String → String) (G : BlockList) : BlockList := { G with blocks := G.blocks.map (renameBlock r) }

/-- The code of an object (`args` is empty) or a function: src/parser/cfg_function.py. -/
structure Component where
  args : List String
  body : BlockList

/-- The variables a component defines, in the order of src/cfg_methods/variable_renaming.py:45-53. -/
def Component.defs (c : Component) : List String := c.args ++ c.body.blocks.flatMap fun b => b.instrs.flatMap (·.outs)

/-- src/cfg_methods/variable_renaming.py:31-35 (and 18-19 for the code of the object, whose argument list is empty). -/
def renameComponent (c : Component) (n : Nat) : Component :=
  let r := renameVar (renamingDict c.defs n fun _ => none)
  ⟨c.args.map r, renameBlockList r c.body⟩

/-- src/cfg_methods/variable_renaming.py:13-28 for one object: the free index goes through the components. -/
def renameObject : List Component → Nat → List Component
  | [], _ => []
  | c :: cs, n => renameComponent c n :: renameObject cs (n + c.defs.length)

/-! ### C19 -/

theorem renamingDict_spec : ∀ (xs : List String) (n : Nat) (d : String → Option String) (x : String),
    (renamingDict xs n d x = d x ∧ x ∉ xs) ∨ ∃ k, renamingDict xs n d x = some ("v" ++ toString (n + k)) ∧ xs[k]? = some x := by
  intro xs
  induction xs with
  | nil => intro n d x; exact Or.inl ⟨rfl, by simp⟩
  | cons a xs ih =>
    intro n d x
    unfold renamingDict
    rcases ih (n + 1) (fun y => if y = a then some ("v" ++ toString n) else d y) x with ⟨h1, h2⟩ | ⟨k, h1, h2⟩
    · by_cases hx : x = a
      · right
        refine ⟨0, ?_, by simp [hx]⟩
        rw [h1, if_pos hx]; rfl
      · left
        rw [h1, if_neg hx]
        exact ⟨rfl, by simp [hx, h2]⟩
    · right
      refine ⟨k + 1, ?_, by simpa using h2⟩
      rw [h1]
      congr 3
      omega

/-- The name given to variable `x` of component `i` of an object. -/
def newName (cs : List Component) (i : Nat) (x : String) : String :=
  match cs[i]? with
  | some c => renameVar (renamingDict c.defs (((cs.take i).map fun c => c.defs.length).sum) fun _ => none) x
  | none => x

/-- **C19, consistency.** Every occurrence of a variable in a component of an object (arguments, instructions, conditions) is
replaced by its new name, and nothing else is changed. -/
theorem renaming_consistent (cs : List Component) (i : Nat) (c : Component) (hc : cs[i]? = some c) :
    (renameObject cs 0)[i]? = some ⟨c.args.map (newName cs i), renameBlockList (newName cs i) c.body⟩ := by
  have h : ∀ (cs : List Component) (n i : Nat) (c : Component), cs[i]? = some c →
      (renameObject cs n)[i]? = some (renameComponent c (n + ((cs.take i).map fun c => c.defs.length).sum)) := by
    intro cs
    induction cs with
    | nil => intro n i c h; simp at h
    | cons a cs ih =>
      intro n i c h
      cases i with
      | zero =>
        simp only [getElem?_cons_zero, Option.some.injEq] at h
        subst h
        simp [renameObject]
      | succ i =>
        simp only [getElem?_cons_succ] at h
        unfold renameObject
        rw [getElem?_cons_succ, ih _ i c h]
        simp only [take_succ_cons, map_cons, sum_cons]
        congr 2
        omega
  rw [h cs 0 i c hc]
  have : newName cs i = renameVar (renamingDict c.defs (0 + ((cs.take i).map fun c => c.defs.length).sum) fun _ => none) := by
    funext x
    unfold newName
    rw [hc, Nat.zero_add]
  rw [this]
  rfl

theorem sum_take_le {cs : List Component} {i j : Nat} {c : Component} (hc : cs[i]? = some c) (hij : i < j) :
    ((cs.take i).map fun c => c.defs.length).sum + c.defs.length ≤ ((cs.take j).map fun c => c.defs.length).sum := by
  induction cs generalizing i j with
  | nil => simp at hc
  | cons a cs ih =>
    cases j with
    | zero => omega
    | succ j =>
      cases i with
      | zero =>
        simp only [getElem?_cons_zero, Option.some.injEq] at hc
        subst hc
        simp
      | succ i =>
        simp only [getElem?_cons_succ] at hc
        have := ih hc (Nat.lt_of_succ_lt_succ hij)
        simp only [take_succ_cons, map_cons, sum_cons]
        omega

/-- **C19, injectivity.** Variables defined in components of one object get the same name only if they are the same variable of
the same component. -/
theorem renaming_injective (cs : List Component) (i j : Nat) (c d : Component) (hc : cs[i]? = some c) (hd : cs[j]? = some d)
    (x y : String) (hx : x ∈ c.defs) (hy : y ∈ d.defs) (hxc : isConst x = false) (hyc : isConst y = false)
    (h : newName cs i x = newName cs j y) : i = j ∧ x = y := by
  unfold newName at h
  rw [hc, hd] at h
  simp only [renameVar, hxc, hyc, Bool.false_eq_true, if_false] at h
  rcases renamingDict_spec c.defs (((cs.take i).map fun c => c.defs.length).sum) (fun _ => none) x with ⟨_, h1⟩ | ⟨k, h1, h2⟩
  · exact absurd hx h1
  · rcases renamingDict_spec d.defs (((cs.take j).map fun c => c.defs.length).sum) (fun _ => none) y with ⟨_, h3⟩ | ⟨l, h3, h4⟩
    · exact absurd hy h3
    · rw [h1, h3] at h
      simp only [Option.getD_some] at h
      have hkl := Names.prefix_inj h
      have hk : k < c.defs.length := (List.getElem?_eq_some_iff.1 h2).1
      have hl : l < d.defs.length := (List.getElem?_eq_some_iff.1 h4).1
      have hij : i = j := by
        rcases Nat.lt_trichotomy i j with hlt | heq | hgt
        · have := sum_take_le hc hlt; omega
        · exact heq
        · have := sum_take_le hd hgt; omega
      subst hij
      rw [hc] at hd
      cases hd
      have : k = l := by omega
      subst this
      rw [h2] at h4
      exact ⟨rfl, Option.some.inj h4⟩

/-- **C19, constants.** Constants are untouched. -/
theorem renaming_constants (cs : List Component) (i : Nat) (x : String) (h : isConst x = true) : newName cs i x = x := by
  unfold newName
  cases cs[i]? with
  | none => rfl
  | some c => simp [renameVar, h]

theorem isConst_new (n : Nat) : isConst ("v" ++ toString n) = false := by
  simp [isConst, String.toList_append]

/-! ### C20 -/

/-- Names occurring in a block list. -/
def BlockList.names (G : BlockList) : List String :=
  G.blocks.flatMap fun b => (b.instrs.flatMap fun i => i.ins ++ i.outs) ++ b.cond.toList

/-- `s'` is `s` with the names of `N` replaced. -/
structure Renamed {V W : Type} (r : String → String) (N : String → Prop) (s s' : St V W) : Prop where
  world : s'.world = s.world
  env : ∀ x, N x → s'.env (r x) = s.env x

theorem assign_renamed {V : Type} {r : String → String} {N : String → Prop} (hr : ∀ x y, N x → N y → r x = r y → x = y) :
    ∀ (l : List (String × V)) (e e' : String → V), (∀ p ∈ l, N p.1) → (∀ x, N x → e' (r x) = e x) →
      ∀ x, N x → assign e' (l.map fun p => (r p.1, p.2)) (r x) = assign e l x := by
  intro l
  induction l with
  | nil => intro e e' _ h x hx; exact h x hx
  | cons p l ih =>
    obtain ⟨a, v⟩ := p
    intro e e' hl h x hx
    simp only [map_cons]
    unfold assign
    apply ih
    · intro p hp; exact hl p (mem_cons_of_mem _ hp)
    · intro y hy
      by_cases hya : y = a
      · simp [hya]
      · have : r y ≠ r a := fun h' => hya (hr y a hy (hl (a, v) mem_cons_self) h')
        simp [hya, this, h y hy]
    · exact hx

/-- Both results of the same kind, with related states. -/
def resRel {S : Type} (R : S → S → Prop) : Res S → Res S → Prop
  | .next s, .next s' => R s s'
  | .stop s, .stop s' => R s s'
  | _, _ => False

theorem execInstr_renamed {V W : Type} {r : String → String} {N : String → Prop} (hr : ∀ x y, N x → N y → r x = r y → x = y)
    (sem : Sem V W) (i : Instr) (hi : ∀ x ∈ i.ins ++ i.outs, N x) (s s' : St V W) (h : Renamed r N s s') :
    resRel (Renamed r N) (execInstr sem i s) (execInstr sem (renameInstr r i) s') := by
  have hv : (renameInstr r i).ins.map s'.env = i.ins.map s.env := by
    simp only [renameInstr, map_map]
    apply map_congr_left
    intro x hx
    exact h.env x (hi x (mem_append.2 (Or.inl hx)))
  unfold execInstr
  simp only
  rw [hv, h.world]
  have hop : (renameInstr r i).op = i.op := rfl
  rw [hop]
  generalize sem.op i.op (i.ins.map s.env) s.world = res
  have hR : Renamed r N ⟨assign s.env (i.outs.zip res.1), res.2.1⟩ ⟨assign s'.env ((renameInstr r i).outs.zip res.1), res.2.1⟩ := by
    refine ⟨rfl, ?_⟩
    intro x hx
    have hz : (renameInstr r i).outs.zip res.1 = (i.outs.zip res.1).map fun p => (r p.1, p.2) := by
      simp only [renameInstr]
      rw [zip_map_left]
      rfl
    simp only [hz]
    refine assign_renamed hr _ _ _ ?_ h.env x hx
    intro p hp
    exact hi _ (mem_append.2 (Or.inr (of_mem_zip hp).1))
  cases res.2.2
  · exact hR
  · exact hR

theorem execAll_renamed {V W : Type} {r : String → String} {N : String → Prop} (hr : ∀ x y, N x → N y → r x = r y → x = y)
    (sem : Sem V W) : ∀ (is : List Instr), (∀ i ∈ is, ∀ x ∈ i.ins ++ i.outs, N x) → ∀ (s s' : St V W), Renamed r N s s' →
      resRel (Renamed r N) (execAll sem is s) (execAll sem (is.map (renameInstr r)) s') := by
  intro is
  induction is with
  | nil => intro _ s s' h; exact h
  | cons i is ih =>
    intro hi s s' h
    have h1 := execInstr_renamed hr sem i (hi i mem_cons_self) s s' h
    simp only [map_cons]
    unfold execAll
    cases hs : execInstr sem i s <;> cases hs' : execInstr sem (renameInstr r i) s' <;> rw [hs, hs'] at h1
    · exact ih (fun j hj => hi j (mem_cons_of_mem _ hj)) _ _ h1
    · exact h1.elim
    · exact h1.elim
    · exact h1

/-- Configurations at the same place, with related states. -/
structure ConfRenamed {V W : Type} (r : String → String) (N : String → Prop) (c c' : Config V W) : Prop where
  prev : c'.prev = c.prev
  cur : c'.cur = c.cur
  st : Renamed r N c.st c'.st

/-- Outcomes of the same kind, with related configurations or states. -/
def outRel {C S : Type} (R : C → C → Prop) (Q : S → S → Prop) : Out C S → Out C S → Prop
  | .goto c, .goto c' => R c c'
  | .halt s, .halt s' => Q s s'
  | .stuck, .stuck => True
  | _, _ => False

theorem get_rename {G : BlockList} {r : String → String} (x : String) : (renameBlockList r G).get x = (G.get x).map (renameBlock r) := by
  unfold BlockList.get renameBlockList
  rw [find_map_id]
  intro b _
  rfl

theorem execPhis_renamed {V : Type} {r : String → String} {N : String → Prop} (hr : ∀ x y, N x → N y → r x = r y → x = y)
    (k : Nat) (phis : List Instr) (hN : ∀ i ∈ phis, ∀ x ∈ i.ins ++ i.outs, N x) (e e' : String → V)
    (he : ∀ x, N x → e' (r x) = e x) : ∀ x, N x → execPhis e' k (phis.map (renameInstr r)) (r x) = execPhis e k phis x := by
  intro x hx
  unfold execPhis
  refine (congrArg (fun z => assign e' z (r x)) ?_).trans (assign_renamed hr _ e e' ?_ he x hx)
  · rw [filterMap_map, map_filterMap]
    apply filterMap_congr
    intro i hi
    have hNi := hN i hi
    simp only [Function.comp_apply, renameInstr, getElem?_map]
    cases ho : i.outs with
    | nil => rfl
    | cons o os =>
      cases os with
      | cons _ _ => rfl
      | nil =>
        cases ha : i.ins[k]? with
        | none => rfl
        | some a =>
          simp only [map_cons, map_nil, Option.map_some, Option.some.injEq, Prod.mk.injEq, true_and]
          exact he a (hNi a (mem_append.2 (Or.inl (mem_of_getElem? ha))))
  · intro p hp
    obtain ⟨i, hi, hip⟩ := mem_filterMap.1 hp
    have hNi := hN i hi
    split at hip
    · rename_i o a ho ha
      cases hip
      exact hNi _ (mem_append.2 (Or.inr (by rw [ho]; simp)))
    · cases hip

theorem step_renamed {V W : Type} {r : String → String} {N : String → Prop} (hr : ∀ x y, N x → N y → r x = r y → x = y)
    (sem : Sem V W) (G : BlockList) (hN : ∀ x ∈ G.names, N x) (c c' : Config V W) (h : ConfRenamed r N c c') :
    outRel (ConfRenamed r N) (Renamed r N) (stepBlock sem G c) (stepBlock sem (renameBlockList r G) c') := by
  unfold stepBlock
  rw [h.cur, get_rename]
  cases hb : G.get c.cur with
  | none => trivial
  | some b =>
    have hmem := get_mem hb
    have hNi : ∀ i ∈ b.instrs, ∀ x ∈ i.ins ++ i.outs, N x := by
      intro i hi x hx
      exact hN x (mem_flatMap.2 ⟨b, hmem, mem_append.2 (Or.inl (mem_flatMap.2 ⟨i, hi, hx⟩))⟩)
    have hNc : ∀ x, b.cond = some x → N x := by
      intro x hx
      exact hN x (mem_flatMap.2 ⟨b, hmem, mem_append.2 (Or.inr (by rw [hx]; simp))⟩)
    simp only [Option.map_some]
    have hphi : (renameBlock r b).instrs.filter isPhi = (b.instrs.filter isPhi).map (renameInstr r) := by
      simp only [renameBlock, filter_map]
      congr 1
    have hnphi : (renameBlock r b).instrs.filter (fun i => !isPhi i) = (b.instrs.filter fun i => !isPhi i).map (renameInstr r) := by
      simp only [renameBlock, filter_map]
      congr 1
    -- entering
    have henter : (enter b c.prev c.st.env = none ∧ enter (renameBlock r b) c'.prev c'.st.env = none) ∨
        ∃ e e', enter b c.prev c.st.env = some e ∧ enter (renameBlock r b) c'.prev c'.st.env = some e' ∧
          ∀ x, N x → e' (r x) = e x := by
      unfold enter enterWith
      rw [hphi, h.prev]
      by_cases hp : b.instrs.filter isPhi = []
      · right
        rw [hp]
        exact ⟨c.st.env, c'.st.env, by simp, by simp, h.st.env⟩
      · have hp' : (b.instrs.filter isPhi).map (renameInstr r) ≠ [] := by simpa using hp
        rw [if_neg hp, if_neg hp']
        have he : (renameBlock r b).entries = b.entries := rfl
        rw [he]
        cases c.prev with
        | none => left; simp
        | some p =>
          simp only [Option.bind_some]
          cases b.entries.idxOf? p with
          | none => left; simp
          | some k =>
            right
            refine ⟨_, _, rfl, rfl, ?_⟩
            exact execPhis_renamed hr k _ (fun i hi => hNi i (mem_of_mem_filter hi)) _ _ h.st.env
    rcases henter with ⟨h1, h2⟩ | ⟨e, e', h1, h2, h3⟩
    · simp only [h1, h2]; trivial
    · simp only [h1, h2, hnphi]
      have hE := execAll_renamed hr sem (b.instrs.filter fun i => !isPhi i) (fun i hi => hNi i (mem_of_mem_filter hi))
        ⟨e, c.st.world⟩ ⟨e', c'.st.world⟩ ⟨h.st.world, h3⟩
      cases hs : execAll sem (b.instrs.filter fun i => !isPhi i) ⟨e, c.st.world⟩ <;>
        cases hs' : execAll sem ((b.instrs.filter fun i => !isPhi i).map (renameInstr r)) ⟨e', c'.st.world⟩ <;> rw [hs, hs'] at hE
      · rename_i s s'
        simp only
        unfold leave
        have e1 : (renameBlock r b).jumpTo = b.jumpTo := rfl
        have e2 : (renameBlock r b).fallsTo = b.fallsTo := rfl
        have e3 : (renameBlock r b).cond = b.cond.map r := rfl
        have e4 : (renameBlock r b).id = b.id := rfl
        rw [e1, e2, e3, e4]
        cases b.jumpTo with
        | none =>
          cases b.fallsTo with
          | none => exact hE
          | some t => exact ⟨rfl, rfl, hE⟩
        | some t =>
          cases b.fallsTo with
          | none => exact ⟨rfl, rfl, hE⟩
          | some u =>
            cases hc : b.cond with
            | none => trivial
            | some q =>
              simp only [Option.map_some]
              have : s'.env (r q) = s.env q := hE.env q (hNc q hc)
              rw [this]
              by_cases ht : sem.truth (s.env q) = true
              · simp only [ht, if_true]; exact ⟨rfl, rfl, hE⟩
              · simp only [ht, Bool.false_eq_true, if_false]; exact ⟨rfl, rfl, hE⟩
      · exact hE.elim
      · exact hE.elim
      · exact hE

/-- Lockstep simulation of two programs with related configurations. -/
theorem lockstep {C S : Type} {f g : C → Out C S} {R : C → C → Prop} {Q : S → S → Prop}
    (h : ∀ c c', R c c' → outRel R Q (f c) (g c')) {c c' : C} (hc : R c c') :
    (∀ s, Ends f c s → ∃ s', Ends g c' s' ∧ Q s s') ∧ (∀ s', Ends g c' s' → ∃ s, Ends f c s ∧ Q s s') ∧
      (Wrong f c ↔ Wrong g c') := by
  refine ⟨?_, ?_, ?_, ?_⟩
  · intro s hs
    induction hs generalizing c' with
    | now h1 =>
      have := h _ _ hc
      rw [h1] at this
      cases hg : g c' <;> rw [hg] at this
      · exact this.elim
      · exact ⟨_, .now hg, this⟩
      · exact this.elim
    | later h1 _ ih =>
      have := h _ _ hc
      rw [h1] at this
      cases hg : g c' <;> rw [hg] at this
      · obtain ⟨s', h2, h3⟩ := ih this
        exact ⟨s', .later hg h2, h3⟩
      · exact this.elim
      · exact this.elim
  · intro s hs
    induction hs generalizing c with
    | now h1 =>
      have := h _ _ hc
      rw [h1] at this
      cases hg : f c <;> rw [hg] at this
      · exact this.elim
      · exact ⟨_, .now hg, this⟩
      · exact this.elim
    | later h1 _ ih =>
      have := h _ _ hc
      rw [h1] at this
      cases hg : f c <;> rw [hg] at this
      · obtain ⟨s', h2, h3⟩ := ih this
        exact ⟨s', .later hg h2, h3⟩
      · exact this.elim
      · exact this.elim
  · intro hs
    induction hs generalizing c' with
    | now h1 =>
      have := h _ _ hc
      rw [h1] at this
      cases hg : g c' <;> rw [hg] at this
      · exact this.elim
      · exact this.elim
      · exact .now hg
    | later h1 _ ih =>
      have := h _ _ hc
      rw [h1] at this
      cases hg : g c' <;> rw [hg] at this
      · exact .later hg (ih this)
      · exact this.elim
      · exact this.elim
  · intro hs
    induction hs generalizing c with
    | now h1 =>
      have := h _ _ hc
      rw [h1] at this
      cases hg : f c <;> rw [hg] at this
      · exact this.elim
      · exact this.elim
      · exact .now hg
    | later h1 _ ih =>
      have := h _ _ hc
      rw [h1] at this
      cases hg : f c <;> rw [hg] at this
      · exact .later hg (ih this)
      · exact this.elim
      · exact this.elim

/-- **C20.** Let a renaming be injective on the names that occur in a block list. Then the renamed code, started in a state in which
every new name has the value of the old one, behaves as the original one: it ends exactly if the original one does, with the
same world (so the same operations have been applied to the same values, whatever the operations do) and the same values
under the new names; and it gets stuck exactly if the original one does. -/
theorem rename_preserves {V W : Type} (r : String → String) (G : BlockList)
    (hr : ∀ x ∈ G.names, ∀ y ∈ G.names, r x = r y → x = y) (sem : Sem V W) (prev : Option String) (cur : String) (s s' : St V W)
    (hw : s'.world = s.world) (he : ∀ x ∈ G.names, s'.env (r x) = s.env x) :
    (∀ t, Ends (stepBlock sem G) ⟨prev, cur, s⟩ t → ∃ t', Ends (stepBlock sem (renameBlockList r G)) ⟨prev, cur, s'⟩ t' ∧
      t'.world = t.world ∧ ∀ x ∈ G.names, t'.env (r x) = t.env x) ∧
    (∀ t', Ends (stepBlock sem (renameBlockList r G)) ⟨prev, cur, s'⟩ t' → ∃ t, Ends (stepBlock sem G) ⟨prev, cur, s⟩ t ∧
      t'.world = t.world ∧ ∀ x ∈ G.names, t'.env (r x) = t.env x) ∧
    (Wrong (stepBlock sem G) ⟨prev, cur, s⟩ ↔ Wrong (stepBlock sem (renameBlockList r G)) ⟨prev, cur, s'⟩) := by
  have h := lockstep (R := ConfRenamed r fun x => x ∈ G.names) (Q := Renamed r fun x => x ∈ G.names)
    (fun c c' hc => step_renamed (fun x y hx hy => hr x hx y hy) sem G (fun x hx => hx) c c' hc)
    (c := ⟨prev, cur, s⟩) (c' := ⟨prev, cur, s'⟩) ⟨rfl, rfl, hw, he⟩
  refine ⟨?_, ?_, h.2.2⟩
  · intro t ht
    obtain ⟨t', h1, h2⟩ := h.1 t ht
    exact ⟨t', h1, h2.world, h2.env⟩
  · intro t' ht
    obtain ⟨t, h1, h2⟩ := h.2.1 t' ht
    exact ⟨t, h1, h2.world, h2.env⟩

/-- **C19 and C20 together.** The renaming of the code of an object or function preserves its meaning, if every variable used in it is
defined in it. -/
theorem renameComponent_preserves {V W : Type} (c : Component) (n : Nat)
    (hdef : ∀ x ∈ c.body.names, isConst x = false → x ∈ c.defs) (sem : Sem V W) (prev : Option String) (cur : String)
    (s s' : St V W) (hw : s'.world = s.world)
    (he : ∀ x ∈ c.body.names, s'.env (renameVar (renamingDict c.defs n fun _ => none) x) = s.env x) :
    (∀ t, Ends (stepBlock sem c.body) ⟨prev, cur, s⟩ t → ∃ t', Ends (stepBlock sem (renameComponent c n).body) ⟨prev, cur, s'⟩ t' ∧
      t'.world = t.world) ∧
    (∀ t', Ends (stepBlock sem (renameComponent c n).body) ⟨prev, cur, s'⟩ t' → ∃ t, Ends (stepBlock sem c.body) ⟨prev, cur, s⟩ t ∧
      t'.world = t.world) ∧
    (Wrong (stepBlock sem c.body) ⟨prev, cur, s⟩ ↔ Wrong (stepBlock sem (renameComponent c n).body) ⟨prev, cur, s'⟩) := by
  have hinj : ∀ x ∈ c.body.names, ∀ y ∈ c.body.names,
      renameVar (renamingDict c.defs n fun _ => none) x = renameVar (renamingDict c.defs n fun _ => none) y → x = y := by
    intro x hx y hy h
    have hnew : ∀ z ∈ c.body.names, isConst z = false → ∃ k, c.defs[k]? = some z ∧
        renameVar (renamingDict c.defs n fun _ => none) z = "v" ++ toString (n + k) := by
      intro z hz hzc
      rcases renamingDict_spec c.defs n (fun _ => none) z with ⟨_, h1⟩ | ⟨k, h1, h2⟩
      · exact absurd (hdef z hz hzc) h1
      · exact ⟨k, h2, by simp [renameVar, hzc, h1]⟩
    cases hxc : isConst x <;> cases hyc : isConst y
    · obtain ⟨k, h1, h2⟩ := hnew x hx hxc
      obtain ⟨l, h3, h4⟩ := hnew y hy hyc
      rw [h2, h4] at h
      have := Names.prefix_inj h
      have : k = l := by omega
      subst this
      rw [h1] at h3
      exact Option.some.inj h3
    · obtain ⟨k, h1, h2⟩ := hnew x hx hxc
      rw [h2] at h
      simp only [renameVar, hyc, if_true] at h
      rw [← h, isConst_new] at hyc
      cases hyc
    · obtain ⟨l, h3, h4⟩ := hnew y hy hyc
      rw [h4] at h
      simp only [renameVar, hxc, if_true] at h
      rw [h, isConst_new] at hxc
      cases hxc
    · simpa only [renameVar, hxc, hyc, if_true] using h
  obtain ⟨h1, h2, h3⟩ := rename_preserves _ c.body hinj sem prev cur s s' hw he
  refine ⟨?_, ?_, h3⟩
  · intro t ht
    obtain ⟨t', h4, h5, _⟩ := h1 t ht
    exact ⟨t', h4, h5⟩
  · intro t ht
    obtain ⟨t', h4, h5, _⟩ := h2 t ht
    exact ⟨t', h4, h5⟩

/-! ### The theorems apply -/

/-- A function with two arguments that has a loop, and one that uses the same names. -/
def exObject : List Component :=
  [⟨[], exLoop⟩, ⟨["x", "n"], { exLoop with blocks := exLoop.blocks.drop 1, start := some "B1" }⟩]

example : (renameObject exObject 0).map (·.args) = [[], ["v5", "v6"]] := by decide +kernel
example : newName exObject 0 "z" = "v2" ∧ newName exObject 1 "z" = "v7" ∧ newName exObject 1 "0x01" = "0x01" := by decide +kernel

-- Hypotheses of `renameComponent_preserves`.
example : ∀ c ∈ exObject, ∀ x ∈ c.body.names, isConst x = false → x ∈ c.defs := by decide +kernel
example : exLoop.names ≠ [] := by decide +kernel

end Grey.Cfg
