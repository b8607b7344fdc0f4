/-
C88 with variables that are kept in memory: what is on the stack, and what is in the cells, has been assigned.
-/
import Verif.Program.Assigned
import Verif.Stored.Emit
namespace Grey.Stored
open List Grey.Layout Grey.Sfs Grey.SymExec Grey.Program Grey.Repair

/-- What is written for the blocks of a component runs, and leaves the variables where they are said to be: the validator has accepted the ids, and `flow` finds the
loads and stores right. -/
def StoredAccepted (F : Fn) (st : DState) (L : Places) (W : Written) (f : String) : Prop :=
  ∀ B ∈ F.graph.blocks, ∀ src tgt, (B.id, src, tgt) ∈ st.specs →
    (∃ cell, emitBlock cell (W.pids f B.id) (W.regs f B.id) (W.dups f B.id) = some (W.ops f B.id)) ∧
    (∀ s ∈ originals (W.pids f B.id), (∀ v, vgetOf s = some v ↔ classify s = some (.get v)) ∧ ∀ v, vsetOf s = some v ↔ classify s = some (.set v)) ∧
    ∃ built deps, buildSpec (F.instrs B.id) (F.split B.id) [] (substDuplicates src) tgt = some (built, deps) ∧
      check ⟨built.entries.map (·.instr), built.src, built.tgt, deps⟩ (originals (W.pids f B.id)) (F.graph.canJunk B.id) = true ∧
      ∃ st' K, flow (built.entries.map (·.instr)) (W.ops f B.id) (built.src, unassigned (F.instrs B.id) (L.before f B.id)) = some (st', K) ∧
        ∀ p ∈ L.after f B.id, p ∈ K

/-- The names on the stack and in the cells come from those before and from the instructions, and so do the names that are loaded. -/
theorem flow_from {N : String → Prop} {tab : List UInstr} (ht : ∀ u ∈ tab, ∀ o ∈ u.outpt, N o) : ∀ (ops : List SOp) (st : List String) (K : Facts) (y : List String × Facts),
    (∀ x ∈ st, N x) → (∀ p ∈ K, N p.1) → flow tab ops (st, K) = some y → (∀ x ∈ y.1, N x) ∧ (∀ p ∈ y.2, N p.1) ∧ ∀ v a, SOp.load v a ∈ ops → N v := by
  intro ops
  induction ops with
  | nil =>
    intro st K y hs hK h
    simp only [flow, Option.some.injEq] at h
    subst h
    exact ⟨hs, hK, fun v a h => by cases h⟩
  | cons o ops ih =>
    intro st K y hs hK h
    rw [flow] at h
    obtain ⟨⟨st1, K1⟩, h1, h2⟩ := Option.bind_eq_some_iff.1 h
    have key : (∀ x ∈ st1, N x) ∧ (∀ p ∈ K1, N p.1) ∧ ∀ v a, o = SOp.load v a → N v := by
      cases o with
      | id s =>
        obtain ⟨o, st', -, he, e, hg, -⟩ := flow_id h1
        cases e
        exact ⟨execOp_from ht (fun v hv => absurd hv (hg v)) he hs, hK, fun v a h => by cases h⟩
      | load v a =>
        unfold SOp.flow at h1
        simp only at h1
        split at h1
        · rename_i hm
          simp only [Option.some.injEq, Prod.mk.injEq] at h1
          obtain ⟨rfl, rfl⟩ := h1
          refine ⟨fun x hx => ?_, hK, fun v' a' e => ?_⟩
          · rcases mem_cons.1 hx with rfl | hx
            · exact hK _ hm
            · exact hs x hx
          · cases e
            exact hK _ hm
        · cases h1
      | store v a =>
        cases st with
        | nil => simp [SOp.flow] at h1
        | cons x st =>
          unfold SOp.flow at h1
          simp only at h1
          split at h1
          · rename_i hxv
            simp only [Option.some.injEq, Prod.mk.injEq] at h1
            obtain ⟨rfl, rfl⟩ := h1
            refine ⟨fun z hz => hs z (mem_cons_of_mem _ hz), fun p hp => ?_, fun v' a' e => by cases e⟩
            rcases mem_cons.1 hp with rfl | hp
            · exact hxv ▸ hs x mem_cons_self
            · exact hK p (mem_filter.1 hp).1
          · cases h1
      | dup n =>
        unfold SOp.flow at h1
        simp only at h1
        split at h1
        · obtain ⟨st', he, e⟩ := Option.map_eq_some_iff.1 h1
          cases e
          exact ⟨execOp_from ht (fun v hv => by cases hv) he hs, hK, fun v a h => by cases h⟩
        · cases h1
    obtain ⟨k1, k2, k3⟩ := ih st1 K1 y key.1 key.2.1 h2
    refine ⟨k1, k2, fun v a h => ?_⟩
    rcases mem_cons.1 h with h | h
    · exact key.2.2 v a h.symm
    · exact k3 v a h

/-- What is to be loaded is loaded. -/
theorem loaded (cell : String → Option Nat) {s v : String} (hs : vgetOf s = some v) : ∀ (pids : List PId) (ops : List SOp), emitIds cell pids = some ops → s ∈ originals pids →
    ∃ a, SOp.load v a ∈ ops := by
  intro pids
  induction pids with
  | nil => intro ops _ h; cases h
  | cons p pids ih =>
    intro ops h hm
    cases p with
    | id t =>
      rw [emitIds] at h
      rw [originals] at hm
      by_cases hst : s = t
      · subst hst
        rw [hs] at h
        obtain ⟨a, -, h⟩ := Option.bind_eq_some_iff.1 h
        obtain ⟨r, -, rfl⟩ := Option.map_eq_some_iff.1 h
        exact ⟨a, mem_cons_self⟩
      · have hm := (mem_cons.1 hm).resolve_left hst
        split at h
        · obtain ⟨a, -, h⟩ := Option.bind_eq_some_iff.1 h
          obtain ⟨r, hr, rfl⟩ := Option.map_eq_some_iff.1 h
          obtain ⟨a, ha⟩ := ih r hr hm
          exact ⟨a, mem_cons_of_mem _ ha⟩
        · split at h
          · obtain ⟨a, -, h⟩ := Option.bind_eq_some_iff.1 h
            obtain ⟨r, hr, rfl⟩ := Option.map_eq_some_iff.1 h
            obtain ⟨a, ha⟩ := ih r hr hm
            exact ⟨a, mem_cons_of_mem _ ha⟩
          · obtain ⟨r, hr, rfl⟩ := Option.map_eq_some_iff.1 h
            obtain ⟨a, ha⟩ := ih r hr hm
            exact ⟨a, mem_cons_of_mem _ ha⟩
    | dupSet w d =>
      rw [emitIds] at h
      rw [originals] at hm
      obtain ⟨a, -, h⟩ := Option.bind_eq_some_iff.1 h
      obtain ⟨r, hr, rfl⟩ := Option.map_eq_some_iff.1 h
      obtain ⟨a, ha⟩ := ih r hr hm
      exact ⟨a, mem_cons_of_mem _ (mem_cons_of_mem _ ha)⟩

theorem stored_assigned_aux {P : Prog} {L : Places} {W : Written} (hL : PlacesOk P L) {f : String} {F : Fn} (hf : P.fns f = some F) (hF : Laid F) {st : DState}
    (hd : drive F.graph = .ok st) (ha : StoredAccepted F st L W f) {x : String} (hx : Proper x) (hp : ¬ Padding x) {b : String} (h : Unassigned F x b) :
    (∀ src tgt, (b, src, tgt) ∈ st.specs → x ∉ src) ∧ ∀ a, (x, a) ∉ L.before f b := by
  induction h with
  | start hS hid hin hphi =>
    rename_i S
    obtain ⟨S', hS', hid', h0⟩ := hF.start
    obtain rfl := same_id hF.wf hS hS' (hid.trans hid'.symm)
    refine ⟨fun src tgt hs hm => hin ((layout_of_start hF.wf hF.one hd hS h0 hs).1.subset hm), fun a hm => ?_⟩
    rw [hid, hL.start f F hf] at hm
    cases hm
  | edge h hB hins hout hS hsucc hphi ih =>
    rename_i B S
    have hreach : ∀ {y : String}, Unassigned F x y → Reachable F.graph y := by
      intro y hy
      induction hy with
      | start hS hid => rw [hid]; exact .start
      | edge _ hB _ _ hS hs _ ih => exact .step ih hB hS hs
    obtain ⟨srcB, tgtB, hsB⟩ := (layouts_cover hF.wf hF.one hd).1 B.id (hreach h)
    obtain ⟨⟨cell, hem⟩, hnames, built, deps, hb, hc, st', K, hfl, hafter⟩ := ha B hB srcB tgtB hsB
    obtain ⟨houts, hsrc⟩ := built_outs hb
    let N : String → Prop := fun z => (z ∈ substDuplicates srcB ∨ Own (F.instrs B.id) z) ∨ ∃ a, (z, a) ∈ L.before f B.id
    obtain ⟨-, k2, k3⟩ := flow_from (N := N) (fun u hu o ho => .inl (.inr (houts u hu o ho))) _ _ _ _ (fun z hz => .inl (.inl (hsrc ▸ hz)))
      (fun p hp => .inr ⟨p.2, (mem_filter.1 hp).1⟩) hfl
    have hN : ¬ N x := by
      rintro ((h | h | h | h | h) | ⟨a, h⟩)
      · rcases mem_substDuplicates h with h | h
        · exact ih.1 _ _ hsB h
        · exact hp (Or.inl h)
      · obtain ⟨i, hi, h⟩ := h
        exact hins i hi h
      · exact hx.notGen h
      · exact hx.notLit ((isConst_iff x).1 h)
      · exact hx.notBottom h
      · exact ih.2 a h
    refine ⟨fun src tgt hs hm => ?_, fun a hm => ?_⟩
    · obtain ⟨h1, h2⟩ := layouts_agree_on_edges hF.wf hF.one hd hB hS hsucc hsB hs
      have hcf : B.id ∈ S.comesFrom := (hF.wf.edges B hB S hS).1 hsucc
      obtain ⟨k, hk⟩ := mem_iff_getElem?.1 ((preds_perm hF.wf hS).mem_iff.2 hcf)
      have hmem' : x ∈ tgtB := edge_same (h1 k hk) (hF.wf.phiOuts S hS) hm (fun n e => hp (Or.inr ⟨n, e⟩)) hphi
      have hfrom : ∀ z ∈ beforeSplit (F.split B.id) tgtB, (z ∈ substDuplicates srcB ∨ Own (F.instrs B.id) z) ∨ N z := by
        refine reached_from_or (Q := N) hb hc fun pre s post v e hcl => .inl ?_
        have hs : s ∈ originals (W.pids f B.id) := by rw [e]; simp
        unfold emitBlock at hem
        obtain ⟨ops, he, hem⟩ := Option.map_eq_some_iff.1 hem
        obtain ⟨a, hl⟩ := loaded cell (((hnames s hs).1 v).2 hcl) _ _ he hs
        exact k3 v a (hem ▸ mem_append_left _ hl)
      rcases left_from_or hF hd hx hp hB hsB hfrom hmem' with (h | ⟨i, hi, h⟩ | h) | h
      · exact ih.1 _ _ hsB h
      · exact hins i hi h
      · exact hout h
      · exact hN h
    · have hsame : sourceOf S (S.preds.idxOf B.id) x = x := by
        unfold sourceOf
        rw [find?_eq_none.2 fun p hp => by simpa using hphi p hp]
      have := hL.edges f F hf B hB S hS hsucc _ hm
      rw [hsame] at this
      exact hN (k2 _ (hafter _ this))

/-- **C88, with variables in memory.** If the schedules have been accepted and the loads and stores are right, then a variable is on the stack with which a block starts only
if every path from the start of the component to the block has assigned it. -/
theorem stored_on_stack_assigned {P : Prog} {L : Places} {W : Written} (hL : PlacesOk P L) {f : String} {F : Fn} (hf : P.fns f = some F) (hF : Laid F) {st : DState}
    (hd : drive F.graph = .ok st) (ha : StoredAccepted F st L W f) : StackAssigned F st :=
  fun hx hp _ _ _ hs hm h => (stored_assigned_aux hL hf hF hd ha hx hp h).1 _ _ hs hm

/-- **C88, in memory.** A variable is known to be in a cell at the beginning of a block only if every path from the start of the component to the block has assigned it. -/
theorem stored_in_cell_assigned {P : Prog} {L : Places} {W : Written} (hL : PlacesOk P L) {f : String} {F : Fn} (hf : P.fns f = some F) (hF : Laid F) {st : DState}
    (hd : drive F.graph = .ok st) (ha : StoredAccepted F st L W f) {x : String} {a : Nat} {b : String} (hm : (x, a) ∈ L.before f b) : ¬ Unassigned F x b :=
  fun h => (stored_assigned_aux hL hf hF hd ha (hL.known f b _ hm).2.1 (hL.known f b _ hm).2.2 h).2 a hm

end Grey.Stored
