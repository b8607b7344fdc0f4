/-
Which names are on the stacks of the layouts, and which blocks get layouts. The specification is `NamesOf` and `Reachable`.
-/
import Verif.Layout.DriverTheorems
namespace Grey.Layout
open List

/-- `P` holds of all names that the layout generation starts from: the parameters, the variables that are live somewhere, the results of split
instructions, the results and arguments of phi functions; and of the names it makes up. -/
structure NamesOf (c : Component) (P : String → Prop) : Prop where
  inputs : ∀ x ∈ c.inputs, P x
  liveIn : ∀ b, ∀ x ∈ c.liveIn b, P x
  liveOut : ∀ b, ∀ x ∈ c.liveOut b, P x
  final : ∀ B ∈ c.blocks, ∀ x ∈ B.finalElems, P x
  phiOut : ∀ B ∈ c.blocks, ∀ f ∈ B.phis, P f.out
  phiArgs : ∀ B ∈ c.blocks, ∀ f ∈ B.phis, ∀ x ∈ f.args, P x
  pseudo : ∀ n, P (pseudoName n)
  bottom : P "bottom"

theorem outputLayout_from {P : String → Prop} {input final live : List String} {depth : String → List Int} {j : Bool}
    (h1 : ∀ x ∈ input, P x) (h2 : ∀ x ∈ final, P x) (h3 : ∀ x ∈ live, P x) : ∀ x ∈ names (outputLayout input final live depth j).1, P x := by
  obtain ⟨mid, junk, e, -, -, hm, hj, -⟩ := outputLayout_spec input final live depth j
  rw [e, names_map_some]
  intro x hx
  rcases mem_append.1 hx with hx | hx
  · rcases mem_append.1 hx with hx | hx
    · exact h2 x hx
    · exact h3 x ((hm x).1 hx).1
  · exact h1 x (hj.subset hx)

theorem combinedRev_from {P : String → Prop} {liveT : List String} {dict : List (String × String)} (hd : ∀ q ∈ dict, P q.1) :
    ∀ {l added : List String}, (∀ x ∈ l, P x) → ∀ x ∈ combinedRev liveT dict added l, P x
  | [], _, _ => by simp [combinedRev]
  | y :: l, added, h => by
    have hl : ∀ x ∈ l, P x := fun x hx => h x (mem_cons_of_mem _ hx)
    have hy := h y mem_cons_self
    unfold combinedRev
    split
    · intro x hx
      rcases mem_cons.1 hx with rfl | hx
      · exact hy
      · exact combinedRev_from hd hl x hx
    · split
      · rename_i q hq
        intro x hx
        rcases mem_cons.1 hx with rfl | hx
        · exact hd q (mem_of_find?_eq_some hq)
        · exact combinedRev_from hd hl x hx
      · intro x hx
        rcases mem_cons.1 hx with rfl | hx
        · exact hy
        · exact combinedRev_from hd hl x hx

theorem unifyWith_from {P : String → Prop} {dict : String → List (String × String)} {pseudo : List String} {target : String} {preds : List String}
    {live : String → List String} {depth : String → List Int} {original : String} {originalIn : List String} {j : Bool}
    (hd : ∀ p, ∀ q ∈ dict p, P q.1 ∧ P q.2) (hp : ∀ x ∈ pseudo, P x) (hl : ∀ x ∈ live target, P x) (ho : ∀ x ∈ originalIn, P x) :
    (∀ x ∈ (unifyWith dict pseudo target preds live depth original originalIn j).combined, P x) ∧
      ∀ s ∈ (unifyWith dict pseudo target preds live depth original originalIn j).stacks, ∀ x ∈ s.2, P x := by
  have hc := outputLayout_from (P := P) (input := combinedInit originalIn (live target ++ pseudo) (dict original)) (final := []) (live := live target ++ pseudo)
    (depth := fun x => if x ∈ pseudo then [0] else depth x) (j := j)
    (by
      intro x hx
      unfold combinedInit at hx
      exact combinedRev_from (P := P) (fun q hq => (hd original q (mem_reverse.1 hq)).1) (fun y hy => ho y (mem_reverse.1 hy)) x (mem_reverse.1 hx))
    (by simp) (by
      intro x hx
      rcases mem_append.1 hx with hx | hx
      · exact hl x hx
      · exact hp x hx)
  have hjoint : ∀ p, ∀ x ∈ unifyJoint (dict p) (names (outputLayout (combinedInit originalIn (live target ++ pseudo) (dict original)) [] (live target ++ pseudo)
      (fun x => if x ∈ pseudo then [0] else depth x) j).1), P x := by
    intro p x hx
    obtain ⟨y, hy, rfl⟩ := mem_map.1 hx
    cases he : lookup (dict p) y with
    | none => exact hc y hy
    | some a => exact (hd p _ (lookup_mem he)).2
  refine ⟨fun x hx => hc x (mem_of_mem_take hx), fun s hs x hx => ?_⟩
  obtain ⟨p, -, rfl⟩ := mem_map.1 hs
  beta_reduce at hx
  dsimp only at hx
  split at hx
  · exact hjoint p x hx
  · exact hjoint p x (mem_of_mem_take hx)

section
variable {c : Component} {P : String → Prop} (hP : NamesOf c P)
include hP

theorem phiFunc_from {j : LBlock} (hj : j ∈ c.blocks) {live : String → List String} (hl : ∀ b, ∀ x ∈ live b, P x) (p : String) :
    ∀ q ∈ phiFunc j.id j.preds live j.phis p, P q.1 ∧ P q.2 := by
  intro q hq
  rcases mem_append.1 hq with hq | hq
  · obtain ⟨i, -, rfl⟩ := mem_map.1 (mem_reverse.1 hq)
    refine ⟨hP.pseudo i, ?_⟩
    dsimp only
    cases he : (toRemove j.id j.preds live j.phis p)[i]? with
    | none => exact hP.bottom
    | some a => exact hl p a (mem_filter.1 (mem_of_getElem? he)).1
  · obtain ⟨f, hf, hq⟩ := mem_flatMap.1 (mem_reverse.1 hq)
    obtain ⟨r, hr, rfl⟩ := mem_map.1 hq
    exact ⟨hP.phiOut j hj f hf, hP.phiArgs j hj f hf _ (of_mem_zip (mem_filter.1 hr).1).1⟩

/-- All names in the state. -/
structure From (c : Component) (P : String → Prop) (st : DState) : Prop where
  ins : ∀ p ∈ st.inStacks, ∀ x ∈ p.2, P x
  outs : ∀ p ∈ st.outStacks, ∀ x ∈ p.2, P x
  extra : ∀ p ∈ st.extra, P p.2
  specs : ∀ p ∈ st.specs, (∀ x ∈ p.2.1 ++ p.2.2, P x) ∧ Reachable c p.1
  heap : ∀ e ∈ st.heap, ∀ B ∈ c.blocks, B.id = e.2.2 → Reachable c B.id

omit hP in
theorem vars_from {st : DState} {live : String → List String} (hl : ∀ b, ∀ x ∈ live b, P x) (he : ∀ p ∈ st.extra, P p.2) (b : String) :
    ∀ x ∈ st.vars live b, P x := by
  intro x hx
  rcases mem_append.1 hx with hx | hx
  · exact hl b x hx
  · obtain ⟨e, h1, rfl⟩ := mem_map.1 (mem_filter.1 (mem_dedup.1 hx)).1
    exact he e (mem_filter.1 h1).1

theorem ownOutput_from {st : DState} (h : From c P st) {B : LBlock} (hB : B ∈ c.blocks) {input : List String} (hi : ∀ x ∈ input, P x)
    {w : List String × Nat} (hw : ownOutput c st B input = .ok w) : ∀ x ∈ w.1, P x := by
  have hin := vars_from (st := st) hP.liveIn h.extra B.id
  have hout := vars_from (st := st) hP.liveOut h.extra B.id
  unfold ownOutput at hw
  split at hw
  · obtain ⟨out, bottom, placed, o, he, e, -, -, hpl, -, hbo, -⟩ := terminal_layout input B.finalElems (st.vars c.liveIn B.id)
      (st.vars c.liveOut B.id) (c.depth B.id) B.splitArgs
    rw [he] at hw
    simp only [orKey, Except.map, Except.ok.injEq] at hw
    subst hw
    subst e
    intro x hx
    rcases mem_append.1 hx with hx | hx
    · exact hP.final B hB x hx
    · rcases mem_append.1 (mem_of_mem_drop hx) with hx | hx
      · exact hout x ((hpl x).1 hx).1
      · exact hi x (hbo.subset hx)
  · simp only [Except.ok.injEq] at hw
    subst hw
    exact outputLayout_from hi (hP.final B hB) hout

theorem unifyAt_from {st st1 : DState} (h : From c P st) {B j : LBlock} (hj : j ∈ c.blocks) {input : List String} (hi : ∀ x ∈ input, P x)
    (hu : unifyAt c st B input j = .ok st1) : From c P st1 := by
  have hlive : ∀ b, ∀ x ∈ (if b = j.id then st.vars c.liveIn j.id else st.vars c.liveOut b), P x := by
    intro b x hx
    split at hx
    · exact vars_from hP.liveIn h.extra _ x hx
    · exact vars_from hP.liveOut h.extra _ x hx
  have hpf := phiFunc_from hP hj hlive
  have hps : ∀ (n : Nat), ∀ x ∈ (range n).map pseudoName, P x := by
    intro n x hx
    obtain ⟨i, -, rfl⟩ := mem_map.1 hx
    exact hP.pseudo i
  have hlook : ∀ p q, ∀ q' ∈ fillBottom (phiFunc j.id j.preds (fun x => if x = j.id then st.vars c.liveIn j.id else st.vars c.liveOut x) j.phis) p q, P q'.1 ∧ P q'.2 := by
    intro p q q' hq
    unfold fillBottom at hq
    split at hq
    · exact hpf _ q' hq
    · obtain ⟨r, hr, rfl⟩ := mem_map.1 hq
      refine ⟨(hpf _ r hr).1, ?_⟩
      dsimp only
      split
      · cases he : lookup (phiFunc j.id j.preds (fun x => if x = j.id then st.vars c.liveIn j.id else st.vars c.liveOut x) j.phis p) r.1 with
        | none => exact hP.bottom
        | some a => exact (hpf p _ (lookup_mem he)).2
      · exact (hpf _ r hr).2
  have fin : ∀ {u : Unified} {ext : List (String × String)}, (∀ p ∈ ext, P p.2) → (∀ x ∈ u.combined, P x) → (∀ s ∈ u.stacks, ∀ x ∈ s.2, P x) →
      From c P { st with outStacks := u.stacks ++ st.outStacks, inStacks := (j.id, u.combined) :: st.inStacks, extra := ext } := by
    intro u ext h2 a b
    refine ⟨fun p hp => ?_, fun p hp => ?_, h2, h.specs, h.heap⟩
    · rcases mem_cons.1 hp with rfl | hp
      · exact a
      · exact h.ins p hp
    · rcases mem_append.1 hp with hp | hp
      · exact b p hp
      · exact h.outs p hp
  unfold unifyAt at hu
  dsimp only at hu
  split at hu
  · rename_i path _
    split at hu
    · rename_i u hu1
      unfold unifyDominant at hu1
      dsimp only at hu1
      split at hu1
      · rw [Option.some.injEq] at hu1
        obtain ⟨a, b⟩ := unifyWith_from (P := P) (target := j.id) (preds := j.preds) (live := fun x => if x = j.id then st.vars c.liveIn j.id else st.vars c.liveOut x)
          (depth := c.depth j.id) (original := B.id) (originalIn := input) (j := c.canJunk B.id) (hlook B.id) (hps _) (hlive j.id) hi
        rw [hu1] at a b
        split at hu
        · rename_i s hs
          obtain ⟨p, -, hp2⟩ := Option.bind_eq_some_iff.1 hs
          have hsP : ∀ x ∈ s, P x := b _ (lookup_some_mem hp2)
          unfold preservePath at hu
          split at hu
          · dsimp only at hu
            split at hu
            · simp only [Except.map, Except.ok.injEq] at hu
              subst hu
              exact fin h.extra a b
            · simp only [Except.map, Except.ok.injEq] at hu
              subst hu
              refine fin ?_ a b
              intro p hp
              rcases mem_append.1 hp with hp | hp
              · obtain ⟨y, -, hp⟩ := mem_flatMap.1 hp
                obtain ⟨v, hv, rfl⟩ := mem_map.1 hp
                rcases mem_append.1 hv with hv | hv
                · unfold valuesToPropagate at hv
                  obtain ⟨q, -, hv⟩ := mem_flatMap.1 hv
                  obtain ⟨r, -, hv⟩ := mem_filterMap.1 hv
                  exact (hpf B.id _ (lookup_mem hv)).2
                · exact hsP v (mem_filter.1 hv).1
              · exact h.extra p hp
          · simp [Except.map] at hu
        · cases hu
      · cases hu1
    · cases hu
  · rw [Except.ok.injEq] at hu
    subst hu
    obtain ⟨a, b⟩ := unifyWith_from (P := P) (target := j.id) (preds := j.preds) (live := fun x => if x = j.id then st.vars c.liveIn j.id else st.vars c.liveOut x)
      (depth := c.depth j.id) (original := B.id) (originalIn := input) (j := c.canJunk B.id) hpf (hps _) (hlive j.id) hi
    exact fin h.extra a b

theorem inputStack_from {st : DState} (h : From c P st) {B : LBlock} {input : List String} (hw : inputStack c st B = .ok input) : ∀ x ∈ input, P x := by
  unfold inputStack at hw
  split at hw
  · split at hw
    · cases he : st.inStacks.lookup B.id with
      | none => rw [he] at hw; cases hw
      | some s =>
        rw [he] at hw
        simp only [orKey, Except.ok.injEq] at hw
        exact hw ▸ h.ins _ (lookup_some_mem he)
    · cases he : B.comesFrom.head?.bind fun p => st.outStacks.lookup p with
      | none => rw [he] at hw; cases hw
      | some s =>
        rw [he] at hw
        simp only [orKey, Except.ok.injEq] at hw
        obtain ⟨p, -, hp⟩ := Option.bind_eq_some_iff.1 he
        exact hw ▸ h.outs _ (lookup_some_mem hp)
  · simp only [Except.ok.injEq] at hw
    exact hw ▸ hP.inputs

theorem outputStack_from {st : DState} (h : From c P st) {B : LBlock} (hB : B ∈ c.blocks) {input : List String} (hi : ∀ x ∈ input, P x)
    {r : DState × List String} (hw : outputStack c st B input = .ok r) : From c P r.1 ∧ ∀ x ∈ r.2, P x := by
  have own : ∀ {r : DState × List String}, (ownOutput c st B input).map (fun r => ({ st with outStacks := (B.id, r.1.take r.2) :: st.outStacks }, r.1)) = .ok r →
      From c P r.1 ∧ ∀ x ∈ r.2, P x := by
    intro r hr
    cases he : ownOutput c st B input with
    | error e => rw [he] at hr; cases hr
    | ok w =>
      rw [he] at hr
      simp only [Except.map, Except.ok.injEq] at hr
      subst hr
      have := ownOutput_from hP h hB hi he
      refine ⟨⟨h.ins, fun p hp => ?_, h.extra, h.specs, h.heap⟩, this⟩
      rcases mem_cons.1 hp with rfl | hp
      · exact fun x hx => this x (mem_of_mem_take hx)
      · exact h.outs p hp
  unfold outputStack at hw
  dsimp only at hw
  split at hw
  · exact own hw
  · rename_i j hj
    have hjm : j ∈ c.blocks := by
      unfold Component.unif at hj
      exact mem_reverse.1 (mem_of_find?_eq_some hj)
    split at hw
    · split at hw
      · rename_i o ho
        simp only [Except.ok.injEq] at hw
        subst hw
        exact ⟨h, h.outs _ (lookup_some_mem ho)⟩
      · cases he : unifyAt c st B input j with
        | error e => rw [he] at hw; cases hw
        | ok st1 =>
          rw [he] at hw
          simp only [Except.bind] at hw
          have h1 := unifyAt_from hP h hjm hi he
          cases hl : st1.outStacks.lookup B.id with
          | none => rw [hl] at hw; cases hw
          | some o =>
            rw [hl] at hw
            simp only [orKey, Except.map, Except.ok.injEq] at hw
            subst hw
            exact ⟨h1, h1.outs _ (lookup_some_mem hl)⟩
    · exact own hw

theorem construct_from {st st1 : DState} (h : From c P st) {B : LBlock} (hB : B ∈ c.blocks) (hr : Reachable c B.id) (hw : constructBlock c st B = .ok st1) : From c P st1 := by
  unfold constructBlock at hw
  cases he : inputStack c st B with
  | error e => rw [he] at hw; cases hw
  | ok input0 =>
    rw [he] at hw
    simp only [Except.bind] at hw
    have h0 := inputStack_from hP h he
    generalize hinp : (if c.canJunk B.id = true then forgetValues input0 (st.vars c.liveIn B.id) else input0) = input at hw
    have h1 : ∀ x ∈ input, P x := by
      rw [← hinp]
      split
      · exact fun x hx => h0 x (mem_of_mem_take hx)
      · exact h0
    cases ho : outputStack c { st with inStacks := (B.id, input) :: st.inStacks } B input with
    | error e => rw [ho] at hw; cases hw
    | ok r =>
      rw [ho] at hw
      simp only [Except.map, Except.ok.injEq] at hw
      subst hw
      have hs : From c P { st with inStacks := (B.id, input) :: st.inStacks } := by
        refine ⟨fun p hp => ?_, h.outs, h.extra, h.specs, h.heap⟩
        rcases mem_cons.1 hp with rfl | hp
        · exact h1
        · exact h.ins p hp
      obtain ⟨a, b⟩ := outputStack_from hP hs hB h1 ho
      refine ⟨a.ins, a.outs, a.extra, fun p hp => ?_, a.heap⟩
      rcases mem_cons.1 hp with rfl | hp
      · refine ⟨fun x hx => ?_, hr⟩
        rcases mem_append.1 hx with hx | hx
        · exact h1 x hx
        · exact b x hx
      · exact a.specs p hp

theorem driveLoop_from : ∀ {f : Nat} {st r : DState}, From c P st → driveLoop c f st = .ok r → From c P r
  | 0, _, _, _, h => by simp [driveLoop] at h
  | f + 1, st, r, inv, h => by
    simp only [driveLoop] at h
    cases hm : heapMin st.heap with
    | none =>
      rw [hm] at h
      simp only [Except.ok.injEq] at h
      exact h ▸ inv
    | some e =>
      rw [hm] at h
      simp only at h
      split at h
      · exact driveLoop_from (st := { st with heap := st.heap.erase e })
          ⟨inv.ins, inv.outs, inv.extra, inv.specs, fun x hx => inv.heap x (mem_of_mem_erase hx)⟩ h
      · cases hb : c.block e.2.2 with
        | none => rw [hb] at h; simp [orKey, Except.bind] at h
        | some B =>
          obtain ⟨hB, hid⟩ := block_some hb
          have hr := inv.heap e (heapMin_mem hm) B hB hid
          rw [hb] at h
          simp only [orKey, Except.bind] at h
          cases hcon : constructBlock c { st with heap := st.heap.erase e, traversed := e.2.2 :: st.traversed } B with
          | error x => rw [hcon] at h; simp at h
          | ok st1 =>
            rw [hcon] at h
            simp only at h
            have i1 := construct_from hP (st := { st with heap := st.heap.erase e, traversed := e.2.2 :: st.traversed })
              ⟨inv.ins, inv.outs, inv.extra, inv.specs, fun x hx => inv.heap x (mem_of_mem_erase hx)⟩ hB hr hcon
            cases hp : pushSuccs c st1.traversed e.2.1 B.succs st1.heap with
            | error x => rw [hp] at h; simp at h
            | ok h' =>
              rw [hp] at h
              refine driveLoop_from (st := { st1 with heap := h' }) ⟨i1.ins, i1.outs, i1.extra, i1.specs, ?_⟩ h
              intro x hx S hS hSe
              rcases (pushSuccs_ok hp).2.2.1 x hx with h1 | h1
              · exact i1.heap x h1 S hS hSe
              · exact .step hr hB hS (hSe ▸ h1)

/-- **C52, names.** All names on the stacks of the layouts are parameters, variables that are live somewhere, results of split instructions, results or arguments of phi
functions, or names that the layout generation makes up; and only blocks that can be reached get layouts. -/
theorem layout_names {st : DState} (h : drive c = .ok st) {b : String} {src tgt : List String} (hs : (b, src, tgt) ∈ st.specs) :
    (∀ x ∈ src ++ tgt, P x) ∧ Reachable c b := by
  have := driveLoop_from hP (st := DState.init c) ⟨by simp [DState.init], by simp [DState.init], by simp [DState.init], by simp [DState.init], by
    intro e he B hB hid
    simp only [DState.init, mem_singleton] at he
    subst he
    rw [hid]
    exact .start⟩ h
  exact this.specs _ hs

end

/-- The names after the substitution of duplicates. -/
theorem mem_substRev {x : String} : ∀ {l added : List String}, x ∈ substRev added l → x ∈ l ∨ ∃ n : Nat, x = "a" ++ toString n
  | [], _, h => by simp [substRev] at h
  | y :: l, added, h => by
    unfold substRev at h
    split at h
    · rcases mem_cons.1 h with rfl | h
      · exact Or.inr ⟨_, rfl⟩
      · exact (mem_substRev h).imp (mem_cons_of_mem _) id
    · rcases mem_cons.1 h with rfl | h
      · exact Or.inl mem_cons_self
      · exact (mem_substRev h).imp (mem_cons_of_mem _) id

theorem mem_substDuplicates {x : String} {l : List String} (h : x ∈ substDuplicates l) : x ∈ l ∨ ∃ n : Nat, x = "a" ++ toString n :=
  (mem_substRev (mem_reverse.1 h)).imp mem_reverse.1 id

end Grey.Layout
