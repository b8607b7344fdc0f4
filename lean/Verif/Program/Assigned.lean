/-
C88: what is on the stack has been assigned.
-/
import Verif.Program.Spec
import Verif.Layout.Origin
import Verif.Sfs.BuildFrom
namespace Grey.Program
open List Grey.Layout Grey.Sfs Grey.SymExec

/-! ### Specification -/

/-- Some path from the start of the component to the beginning of block `b` (after its phi functions) assigns nothing to `x`: it is not a parameter, not the
result of a phi function of one of the blocks on the way, and not the result of an instruction or of the split instruction of a block that the path leaves. -/
inductive Unassigned (F : Fn) (x : String) : String → Prop
  | start {S : LBlock} (hS : S ∈ F.graph.blocks) (hid : S.id = F.graph.start) (hin : x ∉ F.graph.inputs) (hphi : ∀ p ∈ S.phis, p.out ≠ x) :
      Unassigned F x S.id
  | edge {B S : LBlock} (h : Unassigned F x B.id) (hB : B ∈ F.graph.blocks) (hins : ∀ i ∈ F.instrs B.id, x ∉ i.outArgs) (hout : x ∉ F.exitOuts B)
      (hS : S ∈ F.graph.blocks) (hs : S.id ∈ B.succs) (hphi : ∀ p ∈ S.phis, p.out ≠ x) : Unassigned F x S.id

/-- The validator has accepted the ids `sched b` for every block that has a layout; variables are loaded only after they have been stored. -/
def SchedulesAccepted (F : Fn) (st : DState) (sched : String → List String) : Prop :=
  ∀ B ∈ F.graph.blocks, ∀ src tgt, (B.id, src, tgt) ∈ st.specs →
    (∃ built deps, buildSpec (F.instrs B.id) (F.split B.id) [] (substDuplicates src) tgt = some (built, deps) ∧
      check ⟨built.entries.map (·.instr), built.src, built.tgt, deps⟩ (sched B.id) (F.graph.canJunk B.id) = true) ∧
    ∀ pre s post v, sched B.id = pre ++ s :: post → classify s = some (.get v) → ∃ t ∈ pre, classify t = some (.set v)

/-- What is on the stack with which a block starts has been assigned on every path to the block. -/
def StackAssigned (F : Fn) (st : DState) : Prop :=
  ∀ {x : String}, Proper x → ¬ Padding x → ∀ {b : String} {src tgt : List String}, (b, src, tgt) ∈ st.specs → x ∈ src → ¬ Unassigned F x b

/-! ### Proofs -/

theorem find_out {f : Phi} : ∀ {phis : List Phi}, (phis.map (·.out)).Nodup → f ∈ phis → phis.find? (fun g => g.out == f.out) = some f
  | g :: l, hn, hf => by
    rw [map_cons, nodup_cons] at hn
    rw [find?_cons]
    rcases mem_cons.1 hf with rfl | hf'
    · simp
    · have hne : g.out ≠ f.out := fun e => hn.1 (e ▸ mem_map.2 ⟨f, hf', rfl⟩)
      rw [show (g.out == f.out) = false by simpa using hne]
      exact find_out hn.2 hf'

/-- A name that is not assigned on entering a block is at the same place in the stack that the predecessor leaves. -/
theorem edge_same {phis : List Phi} {k : Nat} {tgt src : List String} (h : EdgeAgree phis k tgt src) (hn : (phis.map (·.out)).Nodup) {x : String}
    (hx : x ∈ src) (hp : ∀ n, x ≠ pseudoName n) (hphi : ∀ p ∈ phis, p.out ≠ x) : x ∈ tgt := by
  obtain ⟨i, hi⟩ := mem_iff_getElem?.1 hx
  obtain ⟨y, hy, hv⟩ := h.2 i x hi hp
  let ρ' : String → String := fun z => match phis.find? fun f => f.out == z with
    | some f => (f.args[k]?).getD z
    | none => z
  have he : Enter phis k (id : String → String) ρ' := by
    refine ⟨?_, ?_⟩
    · intro f hf a ha
      have : phis.find? (fun g => g.out == f.out) = some f := find_out hn hf
      show (match phis.find? fun g => g.out == f.out with | some f' => (f'.args[k]?).getD f.out | none => f.out) = a
      rw [this]
      simp [ha]
    · intro z hz
      show (match phis.find? fun g => g.out == z with | some f' => (f'.args[k]?).getD z | none => z) = z
      rw [find?_eq_none.2 fun f hf => by simpa using hz f hf]
  have := hv String id ρ' he
  have hx' : ρ' x = x := by
    show (match phis.find? fun g => g.out == x with | some f' => (f'.args[k]?).getD x | none => x) = x
    rw [find?_eq_none.2 fun f hf => by simpa using hphi f hf]
  rw [hx'] at this
  exact mem_of_getElem? (by rw [hy]; exact congrArg some this)

/-- What the layout generation needs from a component for C88, see C52 and `FnOk`. -/
structure Laid (F : Fn) : Prop where
  wf : WellFormed F.graph
  one : OneJoin F.graph
  /-- the first block has no predecessors -/
  start : ∃ S ∈ F.graph.blocks, S.id = F.graph.start ∧ S.comesFrom = []
  /-- the layout generation knows the results of the split instruction -/
  final : ∀ B ∈ F.graph.blocks, B.finalElems = F.exitOuts B
  /-- what follows a call with results is not a join -/
  callJoin : ∀ B ∈ F.graph.blocks, F.exitOuts B ≠ [] → ∀ J ∈ F.graph.blocks, 1 < J.comesFrom.length → B.id ∉ J.comesFrom

/-- What a block leaves on the stack was there before, or the block has computed it. -/
theorem left_from_or {F : Fn} (hF : Laid F) {st : DState} (hd : drive F.graph = .ok st) {Q : String → Prop}
    {x : String} (hx : Proper x) (hp : ¬ Padding x) {B : LBlock} (hB : B ∈ F.graph.blocks) {src tgt : List String} (hs : (B.id, src, tgt) ∈ st.specs)
    (hfrom : ∀ x ∈ beforeSplit (F.split B.id) tgt, (x ∈ substDuplicates src ∨ Own (F.instrs B.id) x) ∨ Q x)
    (hmem : x ∈ tgt) : (x ∈ src ∨ (∃ i ∈ F.instrs B.id, x ∈ i.outArgs) ∨ x ∈ F.exitOuts B) ∨ Q x := by
  have key : x ∈ beforeSplit (F.split B.id) tgt → (x ∈ src ∨ (∃ i ∈ F.instrs B.id, x ∈ i.outArgs) ∨ x ∈ F.exitOuts B) ∨ Q x := by
    intro h
    rcases hfrom x h with h | h
    case inr => exact Or.inr h
    refine Or.inl ?_
    rcases h with h | h | h | h | h
    · rcases mem_substDuplicates h with h | h
      · exact Or.inl h
      · exact absurd (Or.inl h) hp
    · exact Or.inr (Or.inl h)
    · exact absurd h hx.notGen
    · exact absurd ((isConst_iff x).1 h) hx.notLit
    · exact absurd h hx.notBottom
  cases hsp : F.split B.id with
  | none =>
    rw [hsp] at key
    exact key hmem
  | some s =>
    rw [hsp] at key
    have hout : F.exitOuts B = s.outArgs := by simp [Fn.exitOuts, hsp]
    by_cases hne : s.outArgs = []
    · exact key (mem_append_right _ (by simpa [hne] using hmem))
    · obtain ⟨mid, rfl, -⟩ := layout_begins_with_results hF.wf hF.one hd hB (hF.callJoin B hB (by rw [hout]; exact hne)) hs
      rw [hF.final B hB, hout] at hmem
      rcases mem_append.1 hmem with h | h
      · exact Or.inl (Or.inr (Or.inr (by rw [hout]; exact h)))
      · refine key (mem_append_right _ ?_)
        rw [hF.final B hB, hout, drop_left]
        exact h

theorem left_from {F : Fn} (hF : Laid F) {st : DState} (hd : drive F.graph = .ok st) {sched : String → List String} (ha : SchedulesAccepted F st sched)
    {x : String} (hx : Proper x) (hp : ¬ Padding x) {B : LBlock} (hB : B ∈ F.graph.blocks) {src tgt : List String} (hs : (B.id, src, tgt) ∈ st.specs)
    (hmem : x ∈ tgt) : x ∈ src ∨ (∃ i ∈ F.instrs B.id, x ∈ i.outArgs) ∨ x ∈ F.exitOuts B := by
  obtain ⟨⟨built, deps, hb, hc⟩, hg⟩ := ha B hB src tgt hs
  exact (left_from_or (Q := fun _ => False) hF hd hx hp hB hs (fun y hy => .inl (reached_from hb hc hg y hy)) hmem).resolve_right id

/-- **C88.** If the validator has accepted the schedules, then a variable is on the stack with which a block starts only if every path from the start of the
component to the block has assigned it. -/
theorem on_stack_assigned {F : Fn} (hF : Laid F) {st : DState} (hd : drive F.graph = .ok st) {sched : String → List String} (ha : SchedulesAccepted F st sched)
    {x : String} (hx : Proper x) (hp : ¬ Padding x) {b : String} {src tgt : List String} (hs : (b, src, tgt) ∈ st.specs) (hmem : x ∈ src) : ¬ Unassigned F x b := by
  intro h
  induction h generalizing src tgt with
  | start hS hid hin hphi =>
    rename_i S
    obtain ⟨S', hS', hid', h0⟩ := hF.start
    obtain rfl := same_id hF.wf hS hS' (hid.trans hid'.symm)
    exact hin ((layout_of_start hF.wf hF.one hd hS h0 hs).1.subset hmem)
  | edge h hB hins hout hS hsucc hphi ih =>
    rename_i B S
    have hreach : ∀ {y : String}, Unassigned F x y → Reachable F.graph y := by
      intro y hy
      induction hy with
      | start hS hid => rw [hid]; exact .start
      | edge _ hB _ _ hS hs _ ih => exact .step ih hB hS hs
    obtain ⟨srcB, tgtB, hsB⟩ := (layouts_cover hF.wf hF.one hd).1 B.id (hreach h)
    obtain ⟨h1, h2⟩ := layouts_agree_on_edges hF.wf hF.one hd hB hS hsucc hsB hs
    have hcf : B.id ∈ S.comesFrom := (hF.wf.edges B hB S hS).1 hsucc
    obtain ⟨k, hk⟩ := mem_iff_getElem?.1 ((preds_perm hF.wf hS).mem_iff.2 hcf)
    have hmem' : x ∈ tgtB := edge_same (h1 k hk) (hF.wf.phiOuts S hS) hmem (fun n e => hp (Or.inr ⟨n, e⟩)) hphi
    rcases left_from hF hd ha hx hp hB hsB hmem' with h | ⟨i, hi, h⟩ | h
    · exact ih hsB h
    · exact hins i hi h
    · exact hout h

theorem own_not_on_stack_of {F : Fn} (hF : Laid F) {st : DState} (ha : StackAssigned F st)
    {x : String} (hx : Proper x) (hp : ¬ Padding x) {B : LBlock} (hB : B ∈ F.graph.blocks) {src tgt : List String} (hs : (B.id, src, tgt) ∈ st.specs)
    (hreach : Reachable F.graph B.id) (hin : x ∉ F.graph.inputs) (hphi : ∀ S ∈ F.graph.blocks, ∀ p ∈ S.phis, p.out ≠ x)
    (hother : ∀ S ∈ F.graph.blocks, S.id ≠ B.id → (∀ i ∈ F.instrs S.id, x ∉ i.outArgs) ∧ x ∉ F.exitOuts S) : x ∉ src := by
  intro hmem
  obtain ⟨S0, hS0, hid0, -⟩ := hF.start
  have : ∀ {y : String}, Reachable F.graph y → Unassigned F x y ∨ Unassigned F x B.id := by
    intro y hy
    induction hy with
    | start => exact Or.inl (hid0 ▸ .start hS0 hid0 hin (hphi S0 hS0))
    | step _ hC hS hs ih =>
      rename_i C S _
      rcases ih with h | h
      · by_cases e : C.id = B.id
        · exact Or.inr (e ▸ h)
        · exact Or.inl (.edge h hC (hother C hC e).1 (hother C hC e).2 hS hs (hphi S hS))
      · exact Or.inr h
  exact ha hx hp hs hmem ((this hreach).elim id id)

/-- **C88, single assignment.** A variable that only the block `B` assigns is not on the stack with which `B` starts. -/
theorem own_not_on_stack {F : Fn} (hF : Laid F) {st : DState} (hd : drive F.graph = .ok st) {sched : String → List String} (ha : SchedulesAccepted F st sched)
    {x : String} (hx : Proper x) (hp : ¬ Padding x) {B : LBlock} (hB : B ∈ F.graph.blocks) {src tgt : List String} (hs : (B.id, src, tgt) ∈ st.specs)
    (hreach : Reachable F.graph B.id) (hin : x ∉ F.graph.inputs) (hphi : ∀ S ∈ F.graph.blocks, ∀ p ∈ S.phis, p.out ≠ x)
    (hother : ∀ S ∈ F.graph.blocks, S.id ≠ B.id → (∀ i ∈ F.instrs S.id, x ∉ i.outArgs) ∧ x ∉ F.exitOuts S) : x ∉ src :=
  own_not_on_stack_of hF (fun hx hp _ _ _ hs hm => on_stack_assigned hF hd ha hx hp hs hm) hx hp hB hs hreach hin hphi hother

end Grey.Program
