/-
No variable is used where some path has not defined it: this is kept by splitting and by merging blocks.
-/
import Verif.Lower.Deco
import Verif.Cfg.Split
import Mathlib.Data.List.Induction
namespace Grey.Lower
open List Grey.Cfg Grey.Inline

/-- As `StrictSSA`, without single assignment: no variable is used where some path has not defined it, and no parameter is defined again. -/
structure Defined (c : Component) : Prop where
  args : ∀ b B i, c.body.get b = some B → i ∈ B.instrs → ∀ x ∈ i.outs, x ∉ c.args
  noConst : ∀ b B i, c.body.get b = some B → i ∈ B.instrs → ∀ x ∈ i.outs, isConst x = false
  ins : ∀ b B i is, c.body.get b = some B → i :: is <:+ code B → ∀ x ∈ i.ins, isConst x = false → ¬ Clear c [x] b (i :: is)
  cond : ∀ b B x, c.body.get b = some B → B.cond = some x → isConst x = false → ¬ Clear c [x] b []
  phis : ∀ b B i, c.body.get b = some B → i ∈ phis B → ∀ (k : Nat) (p x : String), B.entries[k]? = some p → i.ins[k]? = some x →
    isConst x = false → ¬ Clear c [x] p []

theorem defined_of_ssa {c : Component} (h : StrictSSA c) : Defined c := by
  refine ⟨?_, ?_, h.ins, h.cond, h.phis⟩
  · intro b B i hB hi x hx ha
    have := (nodup_append.1 h.once).2.2 x ha
    exact this x (mem_flatMap.2 ⟨B, get_mem hB, mem_flatMap.2 ⟨i, hi, hx⟩⟩) rfl
  · exact fun b B i hB hi x hx => h.noConst x (outs_mem_defs hB hi hx)

/-- Where a path leads to. -/
theorem clear_at {c : Component} {vs : List String} {b : String} {is : List Instr} (h : Clear c vs b is) : ∃ B, c.body.get b = some B ∧ is <:+ code B := by
  induction h with
  | start hs hS => exact ⟨_, hS, suffix_refl _⟩
  | instr _ _ ih =>
    obtain ⟨B, hB, h⟩ := ih
    exact ⟨B, hB, (suffix_cons _ _).trans h⟩
  | edge _ _ _ hT => exact ⟨_, hT, suffix_refl _⟩

section
variable {args : List String} {G G' : BlockList} {b : String} {B : Block} {l l' : List Instr} {i : Instr}

/-- Splitting a block keeps it. -/
theorem defined_split (hG : Sane G) (hexact : ∀ x X, G.get x = some X → X.entries = [] ∨ X.entries.Perm X.comesFrom) (hD : Defined ⟨args, G⟩)
    (hB : G.get b = some B) (hself : b ∉ B.succs) (hf : G.get (firstId b) = none) (hs : G.get (secondId b) = none) (hl : B.instrs = l ++ i :: l')
    (hphi : ∀ j ∈ i :: l', isPhi j = false) (hst : G'.start = if G.start = some b then some (firstId b) else G.start)
    (hget : ∀ x, G'.get x = if x = secondId b then some (secondHalf l.length B) else if x = firstId b then some (firstHalf l.length B) else
      if x = b then none else (G.get x).map (fixOther b B x)) : Defined ⟨args, G'⟩ := by
  have hfs := firstId_ne_secondId b
  have kinds : ∀ x X, G'.get x = some X → (x = secondId b ∧ X = secondHalf l.length B) ∨ (x = firstId b ∧ X = firstHalf l.length B) ∨
      (x ≠ b ∧ x ≠ firstId b ∧ x ≠ secondId b ∧ ∃ Y, G.get x = some Y ∧ X = fixOther b B x Y) := by
    intro x X hX
    rw [hget] at hX
    split at hX
    · rename_i h; cases hX; exact Or.inl ⟨h, rfl⟩
    · split at hX
      · rename_i h; cases hX; exact Or.inr (Or.inl ⟨h, rfl⟩)
      · split at hX
        · cases hX
        · rename_i h1 h2 h3
          obtain ⟨Y, hY, rfl⟩ := Option.map_eq_some_iff.1 hX
          exact Or.inr (Or.inr ⟨h3, h2, h1, Y, hY, rfl⟩)
  have hi1 : (firstHalf l.length B).instrs = l ++ [i] := by
    show B.instrs.take (l.length + 1) = _
    rw [hl, take_append, take_of_length_le (by omega)]
    simp
  have hi2 : (secondHalf l.length B).instrs = l' := by
    show B.instrs.drop (l.length + 1) = _
    rw [hl, drop_append, drop_eq_nil_of_le (by omega)]
    simp
  have hkeep : l'.filter (fun j => !isPhi j) = l' := filter_eq_self.2 fun j hj => by rw [hphi j (mem_cons_of_mem _ hj)]; rfl
  have hi := hphi i mem_cons_self
  have hcB : code B = code (firstHalf l.length B) ++ l' := by
    unfold code
    rw [hi1, hl, filter_append, filter_append, filter_cons, hi]
    simp [hkeep, hi]
  have hcS : code (secondHalf l.length B) = l' := by unfold code; rw [hi2, hkeep]
  have hpF : phis (firstHalf l.length B) = phis B := by
    have hnil : l'.filter isPhi = [] := filter_eq_nil_iff.2 fun j hj => by rw [hphi j (mem_cons_of_mem _ hj)]; simp
    unfold phis
    rw [hi1, hl, filter_append, filter_append, filter_cons, hi, filter_cons, hi]
    simp [hnil]
  have hpS : phis (secondHalf l.length B) = [] := by
    unfold phis
    rw [hi2]
    exact filter_eq_nil_iff.2 fun j hj => by rw [hphi j (mem_cons_of_mem _ hj)]; simp
  have hbf : b ≠ firstId b := fun h => by rw [← h, hB] at hf; cases hf
  have hbs : b ≠ secondId b := fun h => by rw [← h, hB] at hs; cases hs
  -- paths
  have path : ∀ {vs : List String} {x : String} {is : List Instr}, Clear ⟨args, G'⟩ vs x is →
      (x = firstId b → Clear ⟨args, G⟩ vs b (is ++ l')) ∧ (x = secondId b → Clear ⟨args, G⟩ vs b is) ∧
        (x ≠ firstId b → x ≠ secondId b → Clear ⟨args, G⟩ vs x is) := by
    intro vs x is h
    -- where an edge to `t` leads
    have enter : ∀ {x t : String} {X T : Block}, Clear ⟨args, G⟩ vs x [] → G.get x = some X → G'.get t = some T → (∀ v ∈ vs, ∀ i ∈ Inline.phis T, v ∉ i.outs) →
        (t = firstId b → b ∈ X.succs) → (t ≠ firstId b → t ≠ secondId b ∧ t ∈ X.succs) →
        (t = firstId b → Clear ⟨args, G⟩ vs b (code T ++ l')) ∧ (t = secondId b → Clear ⟨args, G⟩ vs b (code T)) ∧
        (t ≠ firstId b → t ≠ secondId b → Clear ⟨args, G⟩ vs t (code T)) := by
      intro x t X T hx hX hT hp h1 h2
      refine ⟨?_, ?_, ?_⟩
      · intro ht
        rcases kinds t T hT with ⟨h3, -⟩ | ⟨-, rfl⟩ | ⟨-, h3, -⟩
        · exact absurd (ht.symm.trans h3) hfs
        · rw [hpF] at hp
          rw [← hcB]
          exact .edge hx hX (h1 ht) hB hp
        · exact absurd ht h3
      · intro ht
        by_cases h3 : t = firstId b
        · exact absurd (h3.symm.trans ht) hfs
        · exact absurd ht (h2 h3).1
      · intro h3 h4
        rcases kinds t T hT with ⟨h5, -⟩ | ⟨h5, -⟩ | ⟨-, -, -, Y, hY, rfl⟩
        · exact absurd h5 h4
        · exact absurd h5 h3
        · exact Clear.edge (T := Y) hx hX (h2 h3).2 hY hp
    induction h with
    | start hs' hS ha hp =>
      rename_i s S
      have hs'' : G'.start = some s := hs'
      rw [hst] at hs''
      refine ⟨?_, ?_, ?_⟩
      · intro e
        rcases kinds s S hS with ⟨h3, -⟩ | ⟨-, rfl⟩ | ⟨-, h3, -⟩
        · exact absurd (e.symm.trans h3) hfs
        · rw [hpF] at hp
          rw [← hcB]
          refine .start ?_ hB ha hp
          split at hs''
          · assumption
          · obtain ⟨S0, hS0⟩ := hG.start
            obtain ⟨T0, e1, e2⟩ := hS0
            have e1' : G.start = some S0 := e1
            rw [hs''] at e1'
            cases e1'
            rw [e, hf] at e2; cases e2
        · exact absurd e h3
      · intro e
        exfalso
        split at hs''
        · exact hfs ((Option.some.inj hs'').trans e)
        · obtain ⟨S0, T0, e1, e2⟩ := hG.start
          rw [hs''] at e1
          cases e1
          rw [e, hs] at e2; cases e2
      · intro h3 h4
        rcases kinds s S hS with ⟨h5, -⟩ | ⟨h5, -⟩ | ⟨-, -, -, Y, hY, rfl⟩
        · exact absurd h5 h4
        · exact absurd h5 h3
        · refine Clear.start (S := Y) ?_ hY ha hp
          split at hs''
          · exact absurd (Option.some.inj hs'').symm h3
          · exact hs''
    | instr _ ho ih =>
      refine ⟨fun e => ?_, fun e => ?_, fun h3 h4 => ?_⟩
      · exact .instr (ih.1 e) ho
      · exact .instr (ih.2.1 e) ho
      · exact .instr (ih.2.2 h3 h4) ho
    | edge _ hX ht hT hp ih =>
      rename_i x t X T _
      rcases kinds x X hX with ⟨rfl, rfl⟩ | ⟨rfl, rfl⟩ | ⟨hxb, h3, h4, Y, hY, rfl⟩
      · have ht' : t ∈ B.succs := ht
        obtain ⟨T0, hT0⟩ := hG.coherent.targets b B hB t ht'
        refine enter (ih.2.1 rfl) hB hT hp (fun e => ?_) fun _ => ⟨fun e => ?_, ht'⟩
        · rw [e, hf] at hT0; cases hT0
        · rw [e, hs] at hT0; cases hT0
      · have ht' : t = secondId b := by
          have : t ∈ (none : Option String).toList ++ (some (secondId B.id)).toList := ht
          simpa [get_id hB] using this
        have hcl := ih.1 rfl
        rw [nil_append] at hcl
        subst ht'
        rcases kinds _ T hT with ⟨-, rfl⟩ | ⟨h3, -⟩ | ⟨-, -, h3, -⟩
        · rw [hcS]
          exact ⟨fun e => absurd e.symm hfs, fun _ => hcl, fun _ h => absurd rfl h⟩
        · exact absurd h3.symm hfs
        · exact absurd rfl h3
      · have hcl := ih.2.2 h3 h4
        have ht' : t ∈ (redirect b (firstId b) Y.jumpTo).toList ++ (redirect b (firstId b) Y.fallsTo).toList := ht
        have hred : ∀ o : Option String, t ∈ (redirect b (firstId b) o).toList → (t = firstId b ∧ o = some b) ∨ (t ≠ firstId b ∧ o = some t) ∨
            (t = firstId b ∧ o = some t) := by
          intro o ho
          cases o with
          | none => simp [redirect] at ho
          | some y =>
            by_cases hy : y = b
            · simp [redirect, hy] at ho
              exact Or.inl ⟨ho, by rw [hy]⟩
            · simp [redirect, hy] at ho
              by_cases e : t = firstId b
              · exact Or.inr (Or.inr ⟨e, by rw [ho]⟩)
              · exact Or.inr (Or.inl ⟨e, by rw [ho]⟩)
        have hmem : (t = firstId b ∧ b ∈ Y.succs) ∨ (t ≠ firstId b ∧ t ∈ Y.succs) := by
          have tgt : ∀ o : Option String, (o = some (firstId b) → firstId b ∈ Y.succs) → t ∈ (redirect b (firstId b) o).toList →
              (t = firstId b ∧ o = some b) ∨ (t ≠ firstId b ∧ o = some t) := by
            intro o h5 h6
            rcases hred o h6 with h7 | h7 | ⟨e, h7⟩
            · exact Or.inl h7
            · exact Or.inr h7
            · obtain ⟨T0, hT0⟩ := hG.coherent.targets x Y hY (firstId b) (h5 (by rw [h7, e]))
              rw [hf] at hT0; cases hT0
          rcases mem_append.1 ht' with h5 | h5
          · rcases tgt _ (fun e => mem_succs.2 (Or.inl e)) h5 with ⟨h6, h7⟩ | ⟨h6, h7⟩
            · exact Or.inl ⟨h6, mem_succs.2 (Or.inl h7)⟩
            · exact Or.inr ⟨h6, mem_succs.2 (Or.inl h7)⟩
          · rcases tgt _ (fun e => mem_succs.2 (Or.inr e)) h5 with ⟨h6, h7⟩ | ⟨h6, h7⟩
            · exact Or.inl ⟨h6, mem_succs.2 (Or.inr h7)⟩
            · exact Or.inr ⟨h6, mem_succs.2 (Or.inr h7)⟩
        refine enter hcl hY hT hp (fun e => ?_) fun e => ?_
        · rcases hmem with ⟨-, h5⟩ | ⟨h5, -⟩
          · exact h5
          · exact absurd e h5
        · rcases hmem with ⟨h5, -⟩ | ⟨-, h5⟩
          · exact absurd h5 e
          · refine ⟨fun e2 => ?_, h5⟩
            obtain ⟨T0, hT0⟩ := hG.coherent.targets x Y hY t h5
            rw [e2, hs] at hT0; cases hT0
  have inB : ∀ x X, G'.get x = some X → ∃ y Y, G.get y = some Y ∧ ∀ j ∈ X.instrs, j ∈ Y.instrs := by
    intro x X hX
    rcases kinds x X hX with ⟨rfl, rfl⟩ | ⟨rfl, rfl⟩ | ⟨h1, h2, h3, Y, hY, rfl⟩
    · exact ⟨b, B, hB, fun j hj => by rw [hi2] at hj; rw [hl]; simp [hj]⟩
    · refine ⟨b, B, hB, fun j hj => ?_⟩
      rw [hi1] at hj
      rw [hl]
      rcases mem_append.1 hj with h | h
      · exact mem_append_left _ h
      · rw [mem_singleton] at h; rw [h]; simp
    · exact ⟨x, Y, hY, fun j hj => hj⟩
  refine ⟨?_, ?_, ?_, ?_, ?_⟩
  · intro x X j hX hj v hv
    obtain ⟨y, Y, hY, h⟩ := inB x X hX
    exact hD.args y Y j hY (h j hj) v hv
  · intro x X j hX hj v hv
    obtain ⟨y, Y, hY, h⟩ := inB x X hX
    exact hD.noConst y Y j hY (h j hj) v hv
  · intro x X j js hX hsuf v hv hc hcl
    rcases kinds x X hX with ⟨rfl, rfl⟩ | ⟨rfl, rfl⟩ | ⟨h1, h2, h3, Y, hY, rfl⟩
    · rw [hcS] at hsuf
      exact hD.ins b B j js hB (by rw [hcB]; exact hsuf.trans (suffix_append _ _)) v hv hc ((path hcl).2.1 rfl)
    · refine hD.ins b B j (js ++ l') hB ?_ v hv hc ((path hcl).1 rfl)
      rw [hcB]
      obtain ⟨t, ht⟩ := hsuf
      exact ⟨t, by rw [← ht]; simp⟩
    · exact hD.ins x Y j js hY hsuf v hv hc ((path hcl).2.2 h2 h3)
  · intro x X v hX hv hc hcl
    rcases kinds x X hX with ⟨rfl, rfl⟩ | ⟨rfl, rfl⟩ | ⟨h1, h2, h3, Y, hY, rfl⟩
    · exact hD.cond b B v hB hv hc ((path hcl).2.1 rfl)
    · cases hv
    · exact hD.cond x Y v hY hv hc ((path hcl).2.2 h2 h3)
  · intro x X j hX hj k p v hp hv hc hcl
    have own : ∀ {y : String} {Y : Block} {p : String}, G.get y = some Y → p ∈ Y.entries → ∃ P, G.get p = some P := by
      intro y Y p hY hp
      rcases hexact y Y hY with h | h
      · rw [h] at hp; cases hp
      · exact hG.coherent.preds y Y hY p (h.subset hp)
    have plain : ∀ {y : String} {Y : Block} {p : String}, G.get y = some Y → p ∈ Y.entries → p ≠ firstId b ∧ p ≠ secondId b := by
      intro y Y p hY hp
      obtain ⟨P, hP⟩ := own hY hp
      exact ⟨fun e => (by rw [e, hf] at hP; cases hP), fun e => (by rw [e, hs] at hP; cases hP)⟩
    rcases kinds x X hX with ⟨rfl, rfl⟩ | ⟨rfl, rfl⟩ | ⟨h1, h2, h3, Y, hY, rfl⟩
    · rw [hpS] at hj; cases hj
    · have hp' : B.entries[k]? = some p := hp
      obtain ⟨q1, q2⟩ := plain hB (mem_of_getElem? hp')
      exact hD.phis b B j hB (by rw [← hpF]; exact hj) k p v hp' hv hc ((path hcl).2.2 q1 q2)
    · have hp' : (if x ∈ B.succs then replaceName b (secondId b) Y.entries else Y.entries)[k]? = some p := hp
      split at hp'
      · unfold replaceName at hp'
        rw [getElem?_map] at hp'
        obtain ⟨q, hq, e⟩ := Option.map_eq_some_iff.1 hp'
        split at e
        · next hqb =>
          subst hqb
          exact hD.phis x Y j hY hj k q v hq hv hc ((path hcl).2.1 e.symm)
        · subst e
          obtain ⟨q1, q2⟩ := plain hY (mem_of_getElem? hq)
          exact hD.phis x Y j hY hj k q v hq hv hc ((path hcl).2.2 q1 q2)
      · obtain ⟨q1, q2⟩ := plain hY (mem_of_getElem? hp')
        exact hD.phis x Y j hY hj k p v hp' hv hc ((path hcl).2.2 q1 q2)

end
/-- The first time that a block is reached, what only its code defines is not yet defined. -/
theorem clear_first {C : Component} {s x v : String} {X : Block} (hs : C.body.start = some s) (hr : Graph.Reach C.body.succ s x)
    (hX : C.body.get x = some X) (ha : v ∉ C.args)
    (hp : ∀ i ∈ Inline.phis X, v ∉ i.outs) (ho : ∀ y Y, C.body.get y = some Y → y ≠ x → ∀ i ∈ Y.instrs, v ∉ i.outs) : Clear C [v] x (code X) := by
  have hphi : ∀ y Y, C.body.get y = some Y → ∀ w ∈ [v], ∀ i ∈ Inline.phis Y, w ∉ i.outs := by
    intro y Y hY w hw i hi
    obtain rfl := mem_singleton.1 hw
    by_cases e : y = x
    · subst e
      rw [hX] at hY
      cases hY
      exact hp i hi
    · exact ho y Y hY e i (mem_filter.1 hi).1
  have run : ∀ y Y, C.body.get y = some Y → y ≠ x → ∀ l, l <:+ code Y → Clear C [v] y l → Clear C [v] y [] := by
    intro y Y hY e l
    induction l with
    | nil => exact fun _ h => h
    | cons i l ih =>
      intro hl h
      refine ih ((suffix_cons i l).trans hl) (.instr h fun w hw => ?_)
      obtain rfl := mem_singleton.1 hw
      exact ho y Y hY e i (mem_filter.1 (hl.subset mem_cons_self)).1
  have key : ∀ y, Graph.Reach C.body.succ s y → Clear C [v] x (code X) ∨ ∀ Y, C.body.get y = some Y → Clear C [v] y (code Y) := by
    intro y hy
    induction hy with
    | refl =>
      exact Or.inr fun Y hY => .start hs hY (fun w hw => by rw [mem_singleton.1 hw]; exact ha) (hphi s Y hY)
    | tail hu he ih =>
      rename_i y z
      rcases ih with h | h
      · exact Or.inl h
      · obtain ⟨Y, hY, hz⟩ : ∃ Y, C.body.get y = some Y ∧ z ∈ Y.succs := by
          unfold BlockList.succ at he
          split at he
          · exact ⟨_, by assumption, he⟩
          · cases he
        by_cases e : y = x
        · subst e
          rw [hX] at hY
          cases hY
          exact Or.inl (h X hX)
        · exact Or.inr fun Z hZ => .edge (run y Y hY e _ (suffix_refl _) (h Y hY)) hY hz hZ (hphi z Z hZ)
  rcases key x hr with h | h
  · exact h
  · exact h X hX

/-- In a block that can be reached, no instruction uses a variable that it or a later instruction defines. -/
theorem used_after {C : Component} (hD : Defined C) {s x : String} {X : Block} (hs : C.body.start = some s) (hr : Graph.Reach C.body.succ s x)
    (hX : C.body.get x = some X) (hn : (X.instrs.flatMap (·.outs)).Nodup)
    (ho : ∀ y Y, C.body.get y = some Y → y ≠ x → ∀ j ∈ Y.instrs, ∀ i ∈ X.instrs, ∀ v ∈ i.outs, v ∉ j.outs) {pre post : List Instr} {i : Instr}
    (hsub : (pre ++ i :: post) <+ code X) : ∀ v ∈ i.outs, ∀ j ∈ pre ++ [i], v ∉ j.ins := by
  intro v hv
  -- the places in the code of the block
  obtain ⟨p, q, hc, hpre⟩ : ∃ p q, code X = p ++ i :: q ∧ pre <+ p := by
    obtain ⟨r1, r2, e, h1, h2⟩ := append_sublist_iff.1 hsub
    obtain ⟨r3, r4, e2, h3, -⟩ := cons_sublist_iff.1 h2
    obtain ⟨l, m, e3⟩ := append_of_mem h3
    exact ⟨r1 ++ l, m ++ r4, by rw [e, e2, e3]; simp, h1.trans (sublist_append_left _ _)⟩
  have hi : i ∈ X.instrs := (mem_filter.1 (show i ∈ code X by rw [hc]; simp)).1
  have hcn : ((code X).flatMap (·.outs)).Nodup := by
    refine Nodup.sublist ?_ hn
    have key : ∀ l : List Instr, (l.filter fun i => !isPhi i).flatMap (·.outs) <+ l.flatMap (·.outs) := by
      intro l
      induction l with
      | nil => exact Sublist.refl _
      | cons i l ih =>
        rw [filter_cons]
        split
        · rw [flatMap_cons, flatMap_cons]
          exact (Sublist.refl _).append ih
        · rw [flatMap_cons]
          exact ih.trans (sublist_append_right _ _)
    exact key X.instrs
  have hphi : ∀ j ∈ Inline.phis X, v ∉ j.outs := by
    intro j hj hw
    have hij : i ≠ j := by
      rintro rfl
      have h1 := (mem_filter.1 (show i ∈ code X by rw [hc]; simp)).2
      rw [(mem_filter.1 hj).2] at h1
      cases h1
    obtain ⟨m, hm⟩ := mem_iff_getElem?.1 hi
    obtain ⟨n, hn'⟩ := mem_iff_getElem?.1 (mem_filter.1 hj).1
    obtain ⟨hm1, hm2⟩ := List.getElem?_eq_some_iff.1 hm
    obtain ⟨hn1, hn2⟩ := List.getElem?_eq_some_iff.1 hn'
    rw [nodup_flatMap] at hn
    have hdis := pairwise_iff_getElem.1 hn.2
    rcases Nat.lt_trichotomy m n with hlt | heq | hlt
    · have := hdis m n hm1 hn1 hlt
      rw [hm2, hn2] at this
      exact this hv hw
    · subst heq
      exact hij (hm2.symm.trans hn2)
    · have := hdis n m hn1 hm1 hlt
      rw [hm2, hn2] at this
      exact this hw hv
  have hcl := clear_first hs hr hX (hD.args x X i hX hi v hv) hphi fun y Y hY e j hj => ho y Y hY e j hj i hi v hv
  have hcon := hD.noConst x X i hX hi v hv
  have walk : ∀ a b, code X = a ++ b → (∀ j ∈ a, v ∉ j.outs) → Clear C [v] x b := by
    intro a
    induction a using List.reverseRecOn with
    | nil => intro b e _; rw [← show code X = b from e]; exact hcl
    | append_singleton a j ih =>
      intro b e h
      refine .instr (i := j) (ih (j :: b) (by rw [e]; simp) fun k hk => h k (mem_append_left _ hk)) fun w hw => ?_
      rw [mem_singleton.1 hw]
      exact h j (by simp)
  have hbefore : ∀ j ∈ p, v ∉ j.outs := by
    intro j hj hw
    rw [hc, flatMap_append, nodup_append] at hcn
    exact hcn.2.2 v (mem_flatMap.2 ⟨j, hj, hw⟩) v (mem_flatMap.2 ⟨i, mem_cons_self, hv⟩) rfl
  intro j hj hin
  rcases mem_append.1 hj with hj | hj
  · obtain ⟨l, m, e⟩ := append_of_mem (hpre.subset hj)
    refine hD.ins x X j (m ++ i :: q) hX ⟨l, by rw [hc, e]; simp⟩ v hin hcon (walk l _ (by rw [hc, e]; simp) fun k hk => hbefore k ?_)
    rw [e]; exact mem_append_left _ hk
  · obtain rfl := mem_singleton.1 hj
    exact hD.ins x X j q hX ⟨p, hc.symm⟩ v hin hcon (walk p _ hc hbefore)

end Grey.Lower
