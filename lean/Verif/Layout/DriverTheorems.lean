/-
C52: the layouts of all blocks of a component fit together along the edges.
-/
import Verif.Layout.DriverLemmas
namespace Grey.Layout
open List

theorem heapMin_mem : ∀ {l : List (Nat × Nat × String)} {e}, heapMin l = some e → e ∈ l
  | [], _, h => by simp [heapMin] at h
  | a :: l, e, h => by
    simp only [heapMin] at h
    cases hm : heapMin l with
    | none => rw [hm] at h; simp at h; subst h; exact mem_cons_self
    | some b =>
      rw [hm] at h
      simp only [Option.some.injEq] at h
      split at h
      · subst h; exact mem_cons_self
      · subst h; exact mem_cons_of_mem _ (heapMin_mem hm)

theorem heapMin_none {l : List (Nat × Nat × String)} (h : heapMin l = none) : l = [] := by
  cases l with
  | nil => rfl
  | cons a l =>
    simp only [heapMin] at h
    cases hm : heapMin l <;> rw [hm] at h <;> simp at h

theorem pushSuccs_ok {c : Component} {tr : List String} {d : Nat} : ∀ {ss : List String} {h h' : List (Nat × Nat × String)},
    pushSuccs c tr d ss h = .ok h' → (∀ e ∈ h, e ∈ h') ∧ (∀ s ∈ ss, s ∈ tr ∨ ∃ e ∈ h', e.2.2 = s) ∧
      (∀ e ∈ h', e ∈ h ∨ e.2.2 ∈ ss) ∧ h'.length ≤ h.length + ss.length
  | [], h, h', hp => by
    simp only [pushSuccs, Except.ok.injEq] at hp
    subst hp
    exact ⟨fun e he => he, by simp, fun e he => Or.inl he, by simp⟩
  | s :: ss, h, h', hp => by
    simp only [pushSuccs] at hp
    split at hp
    · rename_i hs
      obtain ⟨h1, h2, h3, h4⟩ := pushSuccs_ok hp
      refine ⟨h1, ?_, ?_, by simp only [length_cons]; omega⟩
      · intro x hx
        rcases mem_cons.1 hx with rfl | hx
        · exact Or.inl hs
        · exact h2 x hx
      · intro e he
        rcases h3 e he with h5 | h5
        · exact Or.inl h5
        · exact Or.inr (mem_cons_of_mem _ h5)
    · cases hl : c.level s with
      | none => rw [hl] at hp; simp [orKey, Except.bind] at hp
      | some l =>
        rw [hl] at hp
        simp only [orKey, Except.bind] at hp
        obtain ⟨h1, h2, h3, h4⟩ := pushSuccs_ok hp
        refine ⟨fun e he => h1 e (mem_cons_of_mem _ he), ?_, ?_, by simp only [length_cons] at h4 ⊢; omega⟩
        · intro x hx
          rcases mem_cons.1 hx with rfl | hx
          · exact Or.inr ⟨_, h1 _ mem_cons_self, rfl⟩
          · exact h2 x hx
        · intro e he
          rcases h3 e he with h5 | h5
          · rcases mem_cons.1 h5 with rfl | h5
            · exact Or.inr mem_cons_self
            · exact Or.inl h5
          · exact Or.inr (mem_cons_of_mem _ h5)

/-- Everything that follows a constructed block is constructed or waiting. -/
def Closed (c : Component) (st : DState) : Prop :=
  (∀ B ∈ c.blocks, B.id ∈ st.traversed → ∀ s ∈ B.succs, s ∈ st.traversed ∨ ∃ e ∈ st.heap, e.2.2 = s) ∧
  (c.start ∈ st.traversed ∨ ∃ e ∈ st.heap, e.2.2 = c.start)

theorem block_some {c : Component} {n : String} {b : LBlock} (h : c.block n = some b) : b ∈ c.blocks ∧ b.id = n := by
  refine ⟨mem_of_find?_eq_some h, ?_⟩
  simpa using find?_some h

theorem mem_erase_or {e x : Nat × Nat × String} {l : List (Nat × Nat × String)} (h : x ∈ l) : x = e ∨ x ∈ l.erase e := by
  by_cases hx : x = e
  · exact Or.inl hx
  · exact Or.inr ((mem_erase_of_ne hx).2 h)

theorem driveLoop_ok {c : Component} (wf : WellFormed c) (one : OneJoin c) : ∀ {f : Nat} {st r : DState}, DInv c st → Closed c st →
    driveLoop c f st = .ok r → DInv c r ∧ Closed c r ∧ r.heap = []
  | 0, _, _, _, _, h => by simp [driveLoop] at h
  | f + 1, st, r, inv, hc, h => by
    simp only [driveLoop] at h
    cases hm : heapMin st.heap with
    | none =>
      rw [hm] at h
      simp only [Except.ok.injEq] at h
      subst h
      exact ⟨inv, hc, heapMin_none hm⟩
    | some e =>
      rw [hm] at h
      simp only at h
      split at h
      · rename_i ht
        refine driveLoop_ok wf one (st := { st with heap := st.heap.erase e })
          ⟨inv.nodup, inv.specs, inv.blocks, inv.out, inv.early, inv.join, inv.single, inv.start, inv.extra, inv.final⟩ ⟨?_, ?_⟩ h
        · intro B hB hb s hs
          rcases hc.1 B hB hb s hs with h1 | ⟨x, hx, h1⟩
          · exact Or.inl h1
          · rcases mem_erase_or (e := e) hx with rfl | h2
            · exact Or.inl (h1 ▸ ht)
            · exact Or.inr ⟨x, h2, h1⟩
        · rcases hc.2 with h1 | ⟨x, hx, h1⟩
          · exact Or.inl h1
          · rcases mem_erase_or (e := e) hx with rfl | h2
            · exact Or.inl (h1 ▸ ht)
            · exact Or.inr ⟨x, h2, h1⟩
      · rename_i ht
        cases hb : c.block e.2.2 with
        | none => rw [hb] at h; simp [orKey, Except.bind] at h
        | some B =>
          obtain ⟨hB, hid⟩ := block_some hb
          rw [hb] at h
          simp only [orKey, Except.bind] at h
          rw [← hid] at h ht
          cases hcon : constructBlock c { st with heap := st.heap.erase e, traversed := B.id :: st.traversed } B with
          | error x => rw [hcon] at h; simp at h
          | ok st1 =>
            rw [hcon] at h
            simp only at h
            obtain ⟨inv1, htr, hheap⟩ := construct_inv wf one inv hB ht hcon
            cases hp : pushSuccs c st1.traversed e.2.1 B.succs st1.heap with
            | error x => rw [hp] at h; simp at h
            | ok h' =>
              rw [hp] at h
              simp only at h
              obtain ⟨h1, h2, h3, h4⟩ := pushSuccs_ok hp
              have keep : ∀ s, (s ∈ st.traversed ∨ ∃ x ∈ st.heap, x.2.2 = s) → s ∈ st1.traversed ∨ ∃ x ∈ h', x.2.2 = s := by
                rintro s (h5 | ⟨x, hx, h5⟩)
                · rw [htr]; exact Or.inl (mem_cons_of_mem _ h5)
                · rcases mem_erase_or (e := e) hx with rfl | h6
                  · rw [htr]; exact Or.inl (by rw [← h5, ← hid]; exact mem_cons_self)
                  · exact Or.inr ⟨x, h1 x (hheap ▸ h6), h5⟩
              refine driveLoop_ok wf one (st := { st1 with heap := h' })
                ⟨inv1.nodup, inv1.specs, inv1.blocks, inv1.out, inv1.early, inv1.join, inv1.single, inv1.start, inv1.extra, inv1.final⟩ ⟨?_, keep _ hc.2⟩ h
              intro A hA ha s hs
              simp only [htr] at ha
              rcases mem_cons.1 ha with e' | ha
              · obtain rfl := same_id wf hA hB e'
                exact h2 s hs
              · exact keep s (hc.1 A hA ha s hs)

theorem init_inv (c : Component) : DInv c (DState.init c) ∧ Closed c (DState.init c) := by
  refine ⟨⟨by simp [DState.init], by simp [DState.init], by simp [DState.init], by simp [DState.init], by simp [DState.init],
    fun J _ _ => Or.inl ⟨by simp [DState.init], by simp [DState.init]⟩, by simp [DState.init], by simp [DState.init],
    by simp [DState.init], by simp [DState.init]⟩, by simp [DState.init],
    Or.inr ⟨(0, 0, c.start), by simp [DState.init], rfl⟩⟩

/-- **C52.** The layouts of a component fit together. If the construction of the layouts succeeds, then for every edge from
`B` to `S` (`S` has `B` as its `k`-th entry) the stack that `B` has to leave has at every position of the stack that `S` starts
from the value that `S` expects there, for every state in which `B` can end; the phi functions of `S` take effect on the
way. Where the blocks meet no other edge, the stack of `S` is literally the upper part of the stack of `B`. -/
theorem layouts_agree_on_edges {c : Component} (wf : WellFormed c) (one : OneJoin c) {st : DState} (h : drive c = .ok st)
    {B S : LBlock} (hB : B ∈ c.blocks) (hS : S ∈ c.blocks) (hedge : S.id ∈ B.succs)
    {srcB tgtB srcS tgtS : List String} (h1 : (B.id, srcB, tgtB) ∈ st.specs) (h2 : (S.id, srcS, tgtS) ∈ st.specs) :
    (∀ k, S.preds[k]? = some B.id → EdgeAgree S.phis k tgtB srcS) ∧ (S.comesFrom.length ≤ 1 → srcS <+: tgtB) := by
  obtain ⟨inv, _, _⟩ := driveLoop_ok wf one (init_inv c).1 (init_inv c).2 h
  obtain ⟨o, ho, hot⟩ := inv.out _ _ _ h1
  have hcf : B.id ∈ S.comesFrom := (wf.edges B hB S hS).1 hedge
  by_cases hl : 1 < S.comesFrom.length
  · refine ⟨fun k hk => ?_, fun h' => absurd hl (by omega)⟩
    rcases inv.join S hS hl with ⟨_, h4⟩ | ⟨C, h3, _, h5⟩
    · exact absurd (by rw [← inv.specs]; exact mem_map.2 ⟨_, h2, rfl⟩) h4
    · obtain ⟨s, hs, ha⟩ := h3 k _ hk
      rw [ho] at hs
      simp only [Option.some.injEq] at hs
      subst hs
      exact (ha.1.mono hot.1 (h5 _ _ h2).1).edge
  · have hone : S.comesFrom = [B.id] := by
      cases hc : S.comesFrom with
      | nil => rw [hc] at hcf; simp at hcf
      | cons p l =>
        cases l with
        | nil => rw [hc] at hcf; simp at hcf; rw [hcf]
        | cons q l => rw [hc] at hl; simp at hl
    obtain ⟨o', ho', hp⟩ := inv.single S hS _ hone _ _ h2
    rw [ho] at ho'
    simp only [Option.some.injEq] at ho'
    subst ho'
    have hpre := hp.1.trans hot.1
    refine ⟨fun k hk => ?_, fun _ => hpre⟩
    have : S.phis = [] := by
      by_contra hne
      exact hl (wf.phiJoin S hS hne)
    rw [this]
    exact (agree_nil hpre).edge

/-- Every block that can be reached gets a specification, and no block gets two. -/
theorem layouts_cover {c : Component} (wf : WellFormed c) (one : OneJoin c) {st : DState} (h : drive c = .ok st) :
    (∀ b, Reachable c b → ∃ src tgt, (b, src, tgt) ∈ st.specs) ∧ (st.specs.map (·.1)).Nodup ∧
      ∀ p ∈ st.specs, ∃ B ∈ c.blocks, B.id = p.1 := by
  obtain ⟨inv, hc, he⟩ := driveLoop_ok wf one (init_inv c).1 (init_inv c).2 h
  refine ⟨?_, by rw [inv.specs]; exact inv.nodup, fun p hp => inv.blocks p.1 (by rw [← inv.specs]; exact mem_map.2 ⟨_, hp, rfl⟩)⟩
  intro b hb
  have : b ∈ st.traversed := by
    induction hb with
    | start =>
      rcases hc.2 with h1 | ⟨x, hx, _⟩
      · exact h1
      · rw [he] at hx; simp at hx
    | step _ hB _ hs ih =>
      rcases hc.1 _ hB ih _ hs with h1 | ⟨x, hx, _⟩
      · exact h1
      · rw [he] at hx; simp at hx
  rw [← inv.specs] at this
  obtain ⟨⟨b', s, t⟩, hm, rfl⟩ := mem_map.1 this
  exact ⟨s, t, hm⟩

/-- **C52, without junk.** If no block may leave values below its stack (functions, and the main code without the option), the
stacks of the two ends of an edge have the same length. -/
theorem layouts_exact_on_edges {c : Component} (wf : WellFormed c) (one : OneJoin c) (hj : NoJunk c) {st : DState}
    (h : drive c = .ok st) {B S : LBlock} (hB : B ∈ c.blocks) (hS : S ∈ c.blocks) (hedge : S.id ∈ B.succs)
    {srcB tgtB srcS tgtS : List String} (h1 : (B.id, srcB, tgtB) ∈ st.specs) (h2 : (S.id, srcS, tgtS) ∈ st.specs) :
    srcS.length = tgtB.length := by
  obtain ⟨inv, _, _⟩ := driveLoop_ok wf one (init_inv c).1 (init_inv c).2 h
  obtain ⟨o, ho, _, hot⟩ := inv.out _ _ _ h1
  rw [← hot hj]
  have hcf : B.id ∈ S.comesFrom := (wf.edges B hB S hS).1 hedge
  by_cases hl : 1 < S.comesFrom.length
  · rcases inv.join S hS hl with ⟨_, h4⟩ | ⟨C, h3, _, h5⟩
    · exact absurd (by rw [← inv.specs]; exact mem_map.2 ⟨_, h2, rfl⟩) h4
    · obtain ⟨k, hk⟩ := mem_iff_getElem?.1 ((preds_perm wf hS).mem_iff.2 hcf)
      obtain ⟨s, hs, _, ha⟩ := h3 k _ hk
      rw [ho] at hs
      simp only [Option.some.injEq] at hs
      subst hs
      rw [(h5 _ _ h2).2 hj, ha hj]
  · have hone : S.comesFrom = [B.id] := by
      cases hc : S.comesFrom with
      | nil => rw [hc] at hcf; simp at hcf
      | cons p l =>
        cases l with
        | nil => rw [hc] at hcf; simp at hcf; rw [hcf]
        | cons q l => rw [hc] at hl; simp at hl
    obtain ⟨o', ho', _, hp⟩ := inv.single S hS _ hone _ _ h2
    rw [ho] at ho'
    simp only [Option.some.injEq] at ho'
    rw [hp hj, ← ho']

/-- **C52, the beginning.** The first block starts from the parameters of the component, or from the upper part of them. -/
theorem layout_of_start {c : Component} (wf : WellFormed c) (one : OneJoin c) {st : DState} (h : drive c = .ok st)
    {S : LBlock} (hS : S ∈ c.blocks) (h0 : S.comesFrom = []) {src tgt : List String} (h1 : (S.id, src, tgt) ∈ st.specs) :
    src <+: c.inputs ∧ (NoJunk c → src = c.inputs) :=
  (driveLoop_ok wf one (init_inv c).1 (init_inv c).2 h).1.start S hS h0 src tgt h1

/-- **C52, results.** The stack that a block leaves begins with the results of its split instruction, unless the block
precedes a join, and it has them nowhere else unless the block already starts with them. -/
theorem layout_begins_with_results {c : Component} (wf : WellFormed c) (one : OneJoin c) {st : DState} (h : drive c = .ok st)
    {B : LBlock} (hB : B ∈ c.blocks) (hn : ∀ J ∈ c.blocks, 1 < J.comesFrom.length → B.id ∉ J.comesFrom)
    {src tgt : List String} (h1 : (B.id, src, tgt) ∈ st.specs) :
    ∃ mid, tgt = B.finalElems ++ mid ∧ ∀ x ∈ mid, x ∈ B.finalElems → x ∈ src := by
  rcases (driveLoop_ok wf one (init_inv c).1 (init_inv c).2 h).1.final B hB src tgt h1 with ⟨J, hJ, hl, hb⟩ | h2
  · exact absurd hb (hn J hJ hl)
  · exact h2.1

/-- **C52, returns.** A block that ends a function leaves nothing below the values it returns. -/
theorem layout_of_return {c : Component} (wf : WellFormed c) (one : OneJoin c) (hj : NoJunk c) {st : DState}
    (h : drive c = .ok st) {B : LBlock} (hB : B ∈ c.blocks) (hs : B.succs = []) (hlive : c.liveOut B.id = [])
    (hf : B.finalElems = []) (ht1 : B.jumpType ∉ ["terminal", "mainExit"])
    (ht2 : B.previousType ∉ ["terminal", "mainExit"]) {src tgt : List String} (h1 : (B.id, src, tgt) ∈ st.specs) : tgt = [] := by
  rcases (driveLoop_ok wf one (init_inv c).1 (init_inv c).2 h).1.final B hB src tgt h1 with ⟨J, hJ, hl, hb⟩ | h2
  · have := (wf.edges B hB J hJ).2 hb
    rw [hs] at this; simp at this
  · exact h2.2 hj hs hlive hf ht1 ht2

/-! ### The construction fails only at the assertion of `unify_stacks_dominant` -/

/-- What the construction needs from the graph libraries: the start has no predecessors, successors are blocks, every block
has a level in the dominance tree, and paths in the dominance tree go where they should. -/
structure Navigable (c : Component) : Prop where
  start : ∃ B ∈ c.blocks, B.id = c.start ∧ B.comesFrom = []
  succs : ∀ B ∈ c.blocks, ∀ s ∈ B.succs, ∃ S ∈ c.blocks, S.id = s
  level : ∀ B ∈ c.blocks, (c.level B.id).isSome
  path : ∀ p q path, c.domPath p q = some path → path.head? = some p ∧ path.getLast? = some q

/-- Either a result or the failed assertion. -/
def Fine {A : Type} (r : Except LErr A) : Prop := (∃ a, r = .ok a) ∨ r = .error .assertion

theorem pushSuccs_fine {c : Component} {tr : List String} {d : Nat} : ∀ {ss : List String} {h : List (Nat × Nat × String)},
    (∀ s ∈ ss, (c.level s).isSome) → ∃ h', pushSuccs c tr d ss h = .ok h'
  | [], h, _ => ⟨h, rfl⟩
  | s :: ss, h, hl => by
    simp only [pushSuccs]
    split
    · exact pushSuccs_fine fun x hx => hl x (mem_cons_of_mem _ hx)
    · obtain ⟨l, hl'⟩ := Option.isSome_iff_exists.1 (hl s mem_cons_self)
      rw [hl']
      simp only [orKey, Except.bind]
      exact pushSuccs_fine fun x hx => hl x (mem_cons_of_mem _ hx)

section
variable {c : Component} (wf : WellFormed c)
include wf

theorem unifyAt_fine (nav : Navigable c) {st : DState} {b j : LBlock} {input : List String} (hj : j ∈ c.blocks) :
    Fine (unifyAt c st b input j) := by
  unfold unifyAt
  simp only
  split
  · rename_i path hpath
    cases hu : unifyDominant j.id j.preds (fun x => if x = j.id then st.vars c.liveIn j.id else st.vars c.liveOut x)
        j.phis (c.depth j.id) b.id input (c.canJunk b.id) with
    | none => exact Or.inr rfl
    | some u =>
      simp only
      obtain ⟨h1, h2⟩ := dominant_agree (preds_nodup wf hj) (wf.phiOuts j hj) (wf.phiArgs j hj) hu
      have hq : ∃ p q, j.preds = [p, q] ∧ path.head? = some p ∧ path.getLast? = some q := by
        split at hpath
        · rename_i p q hpq
          unfold Component.junkPath at hpath
          cases hd : c.domPath p q with
          | none => rw [hd] at hpath; simp at hpath
          | some path' =>
            rw [hd] at hpath
            simp only [Option.bind_some] at hpath
            have : path' = path := by
              split at hpath
              · simpa using hpath
              · split at hpath
                · simp at hpath
                · simpa using hpath
            subst this
            exact ⟨p, q, hpq, nav.path p q _ hd⟩
        · simp at hpath
      obtain ⟨p, q, hpq, hp, hq⟩ := hq
      have hqs : (u.stacks.lookup q).isSome := by rw [lookup_isSome_iff, h1, hpq]; simp
      obtain ⟨s, hs⟩ := Option.isSome_iff_exists.1 hqs
      rw [hq, Option.bind_some, hs]
      simp only
      unfold preservePath
      rw [hp, hq]
      simp only
      split
      · exact Or.inl ⟨_, rfl⟩
      · exact Or.inl ⟨_, rfl⟩
  · exact Or.inl ⟨_, rfl⟩

theorem construct_fine (nav : Navigable c) {st : DState} (inv : DInv c st) {B : LBlock} (hB : B ∈ c.blocks)
    (hb : B.id ∉ st.traversed) (hpred : B.comesFrom = [] ∨ ∃ p ∈ B.comesFrom, p ∈ st.traversed)
    (heap : List (Nat × Nat × String)) :
    Fine (constructBlock c { st with heap := heap, traversed := B.id :: st.traversed } B) := by
  have hin : ∃ input, inputStack c { st with heap := heap, traversed := B.id :: st.traversed } B = .ok input := by
    unfold inputStack
    rcases hpred with h0 | ⟨p, hp, ht⟩
    · rw [if_neg (by simp [h0])]; exact ⟨_, rfl⟩
    · have hne : B.comesFrom ≠ [] := fun e => by rw [e] at hp; simp at hp
      rw [if_pos hne]
      have hout : (st.outStacks.lookup p).isSome := by
        rw [← inv.specs] at ht
        obtain ⟨⟨b', s, t⟩, hm, e⟩ := mem_map.1 ht
        simp only at e
        subst e
        obtain ⟨o, ho, _⟩ := inv.out _ _ _ hm
        rw [ho]; rfl
      by_cases hl : 1 < B.comesFrom.length
      · rcases inv.join B hB hl with ⟨h1, _⟩ | ⟨C, h1, h2, _⟩
        · rw [h1 p hp] at hout; simp at hout
        · have hf : B.comesFrom.filter (fun p => (st.outStacks.lookup p).isSome) = B.comesFrom := by
            rw [filter_eq_self]
            intro p hp
            obtain ⟨k, hk⟩ := mem_iff_getElem?.1 ((preds_perm wf hB).mem_iff.2 hp)
            obtain ⟨s, hs, _⟩ := h1 k p hk
            rw [hs]; rfl
          simp only
          rw [if_pos (by rw [hf]; exact hl), h2 hb]
          exact ⟨_, rfl⟩
      · have hone : B.comesFrom = [p] := by
          cases hc : B.comesFrom with
          | nil => rw [hc] at hp; simp at hp
          | cons q l =>
            cases l with
            | nil => rw [hc] at hp; simp at hp; rw [hp]
            | cons q l => rw [hc] at hl; simp at hl
        have hle : ¬ 1 < (filter (fun p => (st.outStacks.lookup p).isSome) [p]).length := by
          have := length_filter_le (fun p => (st.outStacks.lookup p).isSome) [p]
          simp only [length_cons, length_nil] at this
          omega
        simp only
        rw [hone, if_neg hle]
        obtain ⟨o, ho⟩ := Option.isSome_iff_exists.1 hout
        simp only [head?_cons, Option.bind_some, ho]
        exact ⟨o, rfl⟩
  obtain ⟨input0, hi⟩ := hin
  unfold constructBlock
  rw [hi]
  simp only [Except.bind]
  generalize (if c.canJunk B.id = true then forgetValues input0
      (DState.vars { st with heap := heap, traversed := B.id :: st.traversed } c.liveIn B.id) else input0) = input
  have hfine : ∀ st', Fine (outputStack c st' B input) := by
    intro st'
    unfold outputStack
    simp only
    cases hu : c.unif B.id with
    | none =>
      left
      simp only
      unfold ownOutput
      split
      · obtain ⟨out, _, _, _, he, _⟩ := terminal_layout input B.finalElems (st'.vars c.liveIn B.id) (st'.vars c.liveOut B.id)
          (c.depth B.id) B.splitArgs
        rw [he]
        exact ⟨_, rfl⟩
      · exact ⟨_, rfl⟩
    | some j =>
      obtain ⟨hj, hjl, hbj⟩ := unif_some wf hu
      simp only
      rw [if_pos (by rw [(preds_perm wf hj).length_eq]; exact hjl)]
      cases hl : st'.outStacks.lookup B.id with
      | some o => exact Or.inl ⟨_, rfl⟩
      | none =>
        simp only
        rcases unifyAt_fine wf nav (st := st') (b := B) (input := input) hj with ⟨st1, h1⟩ | h1
        · rw [h1]
          obtain ⟨u, e, rfl, hk, hag, _⟩ := unifyAt_ok wf hj h1
          simp only [Except.bind]
          have : ((u.stacks ++ st'.outStacks).lookup B.id).isSome := by
            rw [lookup_isSome_iff, map_append, hk]
            exact mem_append_left _ ((preds_perm wf hj).mem_iff.2 hbj)
          obtain ⟨o, ho⟩ := Option.isSome_iff_exists.1 this
          rw [ho]
          exact Or.inl ⟨_, rfl⟩
        · rw [h1]; exact Or.inr rfl
  rcases hfine { st with heap := heap, traversed := B.id :: st.traversed, inStacks := (B.id, input) :: st.inStacks } with
    ⟨r, hr⟩ | hr
  · rw [hr]; exact Or.inl ⟨_, rfl⟩
  · rw [hr]; exact Or.inr rfl

theorem traversed_le {st : DState} (inv : DInv c st) : st.traversed.length ≤ c.blocks.length := by
  have : st.traversed ⊆ c.blocks.map (·.id) := fun b hb => by
    obtain ⟨B, hB, rfl⟩ := inv.blocks b hb
    exact mem_map.2 ⟨B, hB, rfl⟩
  simpa using (inv.nodup.subperm this).length_le

theorem driveLoop_fine (one : OneJoin c) (nav : Navigable c) : ∀ {f : Nat} {st : DState}, DInv c st →
    (∀ e ∈ st.heap, ∃ B ∈ c.blocks, B.id = e.2.2 ∧ (B.comesFrom = [] ∨ ∃ p ∈ B.comesFrom, p ∈ st.traversed)) →
    st.heap.length + 2 * (c.blocks.length - st.traversed.length) < f → Fine (driveLoop c f st)
  | 0, _, _, _, hf => by omega
  | f + 1, st, inv, hh, hf => by
    simp only [driveLoop]
    cases hm : heapMin st.heap with
    | none => exact Or.inl ⟨_, rfl⟩
    | some e =>
      have he := heapMin_mem hm
      have hlen : (st.heap.erase e).length + 1 = st.heap.length := by
        have := length_erase_of_mem he
        have : 0 < st.heap.length := length_pos_of_mem he
        omega
      simp only
      split
      · refine driveLoop_fine one nav (st := { st with heap := st.heap.erase e })
          ⟨inv.nodup, inv.specs, inv.blocks, inv.out, inv.early, inv.join, inv.single, inv.start, inv.extra, inv.final⟩
          (fun x hx => hh x (mem_of_mem_erase hx)) ?_
        simp only
        omega
      · rename_i ht
        obtain ⟨B, hB, hid, hp⟩ := hh e he
        have hb : c.block e.2.2 = some B := by
          cases hb : c.block e.2.2 with
          | none =>
            have := find?_eq_none.1 hb B hB
            simp [hid] at this
          | some B' =>
            obtain ⟨hB', hid'⟩ := block_some hb
            rw [same_id wf hB' hB (hid'.trans hid.symm)]
        rw [hb]
        simp only [orKey, Except.bind]
        rw [← hid] at ht ⊢
        rcases construct_fine wf nav inv hB ht hp (st.heap.erase e) with ⟨st1, hcon⟩ | hcon
        · rw [hcon]
          simp only
          obtain ⟨inv1, htr, hheap⟩ := construct_inv wf one inv hB ht hcon
          obtain ⟨h', hpush⟩ := pushSuccs_fine (c := c) (tr := st1.traversed) (d := e.2.1) (ss := B.succs) (h := st1.heap)
            (fun s hs => by
              obtain ⟨S, hS, rfl⟩ := nav.succs B hB s hs
              exact nav.level S hS)
          rw [hpush]
          simp only
          obtain ⟨h1, h2, h3, h4⟩ := pushSuccs_ok hpush
          refine driveLoop_fine one nav (st := { st1 with heap := h' })
            ⟨inv1.nodup, inv1.specs, inv1.blocks, inv1.out, inv1.early, inv1.join, inv1.single, inv1.start, inv1.extra, inv1.final⟩ ?_ ?_
          · intro x hx
            simp only [htr]
            rcases h3 x hx with h5 | h5
            · rw [hheap] at h5
              obtain ⟨A, hA, ha, hpa⟩ := hh x (mem_of_mem_erase h5)
              exact ⟨A, hA, ha, hpa.imp_right fun ⟨p, hp1, hp2⟩ => ⟨p, hp1, mem_cons_of_mem _ hp2⟩⟩
            · obtain ⟨S, hS, hs⟩ := nav.succs B hB _ h5
              exact ⟨S, hS, hs, Or.inr ⟨B.id, (wf.edges B hB S hS).1 (hs ▸ h5), mem_cons_self⟩⟩
          · have hle := traversed_le wf inv1
            have h2s : B.succs.length ≤ 2 := by
              unfold LBlock.succs
              cases B.jumpTo <;> cases B.fallsTo <;> simp
            rw [hheap] at h4
            simp only [htr, length_cons] at hle ⊢
            omega
        · rw [hcon]; exact Or.inr rfl

/-- **C52, progress.** On a well-formed component the construction of the layouts ends, without a missing stack, block or
level, and gives a result unless the assertion of `unify_stacks_dominant` fails. -/
theorem layouts_fail_only_at_assertion (one : OneJoin c) (nav : Navigable c) :
    (∃ st, drive c = .ok st) ∨ drive c = .error .assertion := by
  refine driveLoop_fine wf one nav (init_inv c).1 ?_ ?_
  · intro e he
    simp only [DState.init, mem_singleton] at he
    subst he
    obtain ⟨B, hB, hid, h0⟩ := nav.start
    exact ⟨B, hB, hid, Or.inl h0⟩
  · simp [DState.init]; omega

end

/-- **C52, the assertion.** The assertion fails exactly if another predecessor has more variables that are live at its end and
that the join does not need than the predecessor the unification starts from. -/
theorem dominant_fails_iff (target : String) (preds : List String) (live : String → List String) (phis : List Phi)
    (depth : String → List Int) (original : String) (originalIn : List String) (canJunk : Bool)
    (hbot : ∀ f ∈ phis, "bottom" ∉ f.args) (hlive : "bottom" ∉ live original) :
    unifyDominant target preds live phis depth original originalIn canJunk = none ↔
      ∃ p ∈ preds, (toRemove target preds live phis original).length < (toRemove target preds live phis p).length := by
  have hmax : ∀ (l : List Nat) (n : Nat), n < l.foldr max 0 ↔ ∃ m ∈ l, n < m := by
    intro l n
    induction l with
    | nil => simp
    | cons a l ih =>
      simp only [foldr_cons, mem_cons, exists_eq_or_imp]
      rw [← ih]
      omega
  have hnum : (∃ p ∈ preds, (toRemove target preds live phis original).length < (toRemove target preds live phis p).length) ↔
      (toRemove target preds live phis original).length < numPseudo target preds live phis := by
    unfold numPseudo
    rw [hmax]
    simp
  rw [hnum]
  unfold unifyDominant
  simp only
  constructor
  · intro h
    split at h
    · simp at h
    · rename_i hall
      by_contra hn
      refine hall (all_eq_true.2 fun q hq => ?_)
      unfold phiFunc at hq
      rcases mem_append.1 hq with hq | hq
      · obtain ⟨i, hi, rfl⟩ := mem_map.1 (mem_reverse.1 hq)
        have hlt : i < (toRemove target preds live phis original).length := by
          have := mem_range.1 hi; omega
        rw [getElem?_eq_getElem hlt]
        simp only [Option.getD_some, bne_iff_ne, ne_eq]
        intro e
        have : "bottom" ∈ toRemove target preds live phis original := e ▸ getElem_mem hlt
        exact hlive (mem_filter.1 this).1
      · unfold phiDict at hq
        obtain ⟨f, hf, hq⟩ := mem_flatMap.1 (mem_reverse.1 hq)
        obtain ⟨z, hz, rfl⟩ := mem_map.1 hq
        simp only [bne_iff_ne, ne_eq]
        intro e
        exact hbot f hf (e ▸ (of_mem_zip (mem_filter.1 hz).1).1)
  · intro h
    rw [if_neg]
    intro hall
    have := all_eq_true.1 hall (pseudoName (toRemove target preds live phis original).length, "bottom") (by
      unfold phiFunc
      refine mem_append_left _ (mem_reverse.2 (mem_map.2 ⟨_, mem_range.2 h, ?_⟩))
      rw [getElem?_eq_none (Nat.le_refl _)]; rfl)
    simp at this

end Grey.Layout
